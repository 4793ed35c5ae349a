import Verif.Json.Value

/-!
# The JSON printer (cee-json/snprint.c)

The output is an optional buffer of checked cells and the offset.  Offsets grow without wrapping around
(no buffer has 2^64 bytes), except that a negative number of tabs may move them below zero, which wraps.
The reference-counted bookkeeping blocks (`struct counter` in a tuple) are the frames of the stack.
-/

namespace Verif.Json

/-- the output buffer (`none` is `NULL`; a cell is `none` until written) and `offset` -/
structure Out where
  buf : Option (List (Option Byte))
  off : Nat
  deriving DecidableEq, Repr

/-- overwriting the cells from `i` on -/
def overwrite (b : List (Option Byte)) (i : Nat) (bs : List Byte) : List (Option Byte) :=
  b.take i ++ bs.map some ++ b.drop (i + bs.length)

/-- `if (buf) memcpy(buf + i, bs, ..)`, and the single stores `if (buf) buf[i] = c` -/
def Out.write (o : Out) (i : Nat) (bs : List Byte) : Res Out :=
  match o.buf with
  | none => .ok o
  | some b => if i + bs.length ≤ b.length then .ok { o with buf := some (overwrite b i bs) } else .ub

/-- write at the offset and advance past it -/
def Out.emit (o : Out) (bs : List Byte) : Res Out :=
  (o.write o.off bs).map fun o => { o with off := o.off + bs.length }

/-- `offset += tabs` where `tabs` is a signed `char` (snprint.c:75) -/
def addTabs (off : Nat) (t : Int) : Nat := if 0 ≤ off + t then (off + t).toNat else toU64 (off + t)

/-- `pad` (snprint.c:65-78) with the local `offset` of the caller -/
def pad (f : Bool) (tabs : Int) (o : Out) : Res Out :=
  if !f then .ok o
  else (o.write o.off (List.replicate tabs.toNat 9)).map fun o => { o with off := addTabs o.off tabs }

/-- `delimiter` (snprint.c:80-128); an opening bracket calls `pad` but then goes on from the old offset -/
def delimiter (f : Bool) (tabs : Int) (c : Byte) (o : Out) : Res Out :=
  if !f then o.emit [c]
  else if c == 91 || c == 123 then
    (pad f tabs o).bind fun o' =>
    (o'.write o.off [c, 10]).map fun o' => { o' with off := o.off + 2 }
  else if c == 93 || c == 125 then
    (o.emit [10]).bind fun o =>
    (pad f tabs o).bind fun o =>
    (o.emit [c]).bind fun o => o.emit [10]
  else if c == 58 then o.emit [32, 58, 9]
  else if c == 44 then o.emit [44, 10]
  else .ok o

/-- the loop of `str_append` (snprint.c:138-174); `last` is the text from `last` to `i` -/
def strLoop (o : Out) (last : List Byte) : List Byte → Res Out
  | [] => o.emit last
  | c :: s =>
    match addon c with
    | some a =>
      (o.emit last).bind fun o =>
      (o.emit a).bind fun o => strLoop o [] s
    | none => strLoop o (last ++ [c]) s

/-- `str_append` (snprint.c:131-178); the parameter `len` is a 32-bit `unsigned` -/
def strAppend (s : List Byte) (o : Out) : Res Out :=
  (o.emit [34]).bind fun o =>
  (strLoop o [] (s.take (s.length % 2 ^ 32))).bind fun o => o.emit [34]

/-- the text of numbers: `cee_boxed_snprint` (boxed.c:235-278) -/
def numText [Libc] : Atom → List Byte
  | .dbl d => Libc.lg d
  | .i64 n => intText n
  | .u64 n => dec n
  | _ => []

/-- `cee_str_mk(st, "blob:%d bytes", size)` (snprint.c:260) -/
def blobText (size : Nat) : List Byte :=
  [98, 108, 111, 98, 58] ++ intText (cInt size) ++ [32, 98, 121, 116, 101, 115]

/-- the number case (snprint.c:270-283): the second `snprintf` writes `incr` bytes and a NUL -/
def numAppend (text : List Byte) (o : Out) : Res Out :=
  (o.write o.off (text ++ [0])).map fun o => { o with off := o.off + text.length }

/-- `struct counter` (snprint.c:11-17) together with the value it belongs to -/
structure Frame where
  next : Nat
  tabs : Int
  more : Bool
  j : Val

/-- conversion of an `int` to a (signed) `char` -/
def toChar (i : Int) : Int := Int.bmod i 256

/-- `push` (snprint.c:19-63) makes a frame with `next` zero -/
def mkFrame (tabs : Int) (more : Bool) (j : Val) : Frame := ⟨0, toChar tabs, more, j⟩

/-- `if (ccnt->more_siblings) delimiter(.., ',')` -/
def sep (f : Bool) (fr : Frame) (o : Out) : Res Out :=
  if fr.more then delimiter f fr.tabs 44 o else .ok o

/-- the body of the cases for atoms (snprint.c:201-283), without the pop -/
def atomText [Libc] (a : Atom) (o : Out) : Res Out :=
  match a with
  | .null => o.emit [110, 117, 108, 108]
  | .bool b => o.emit (if b then [116, 114, 117, 101] else [102, 97, 108, 115, 101])
  | .undef => o.emit [117, 110, 100, 101, 102, 105, 110, 101, 100]
  | .str s => strAppend s o
  | .strn s => strAppend s o
  | .blob n => strAppend (blobText n) o
  | .dbl d => numAppend (numText (.dbl d)) o
  | .i64 n => numAppend (numText (.i64 n)) o
  | .u64 n => numAppend (numText (.u64 n)) o

/-- the array case after the opening bracket (snprint.c:290-307) -/
def afterArr (f : Bool) (xs : List Val) (fr : Frame) (stk : List Frame) (o : Out) : Res (List Frame × Out) :=
  match xs[fr.next]? with
  | some x =>
    .ok (mkFrame (fr.tabs + 1) (fr.next + 1 < xs.length) x :: { fr with next := fr.next + 1 } :: stk, o)
  | none =>
    (delimiter f fr.tabs 93 o).bind fun o =>
    (sep f fr o).map fun o => (stk, o)

/-- the object case after the opening brace (snprint.c:314-336); `cee_map_find` of a key gives the value
of its entry because keys are distinct -/
def afterObj (f : Bool) (kvs : List (List Byte × Val)) (fr : Frame) (stk : List Frame) (o : Out) :
    Res (List Frame × Out) :=
  match kvs[fr.next]? with
  | some (k, x) =>
    (pad f fr.tabs o).bind fun o =>
    (strAppend k o).bind fun o =>
    (delimiter f fr.tabs 58 o).map fun o =>
    (mkFrame (fr.tabs + 1) (fr.next + 1 < kvs.length) x :: { fr with next := fr.next + 1 } :: stk, o)
  | none =>
    (delimiter f fr.tabs 125 o).bind fun o =>
    (sep f fr o).map fun o => (stk, o)

/-- one iteration of the loop (snprint.c:195-340) on the frame at the top of the stack -/
def step [Libc] (f : Bool) (fr : Frame) (stk : List Frame) (o : Out) : Res (List Frame × Out) :=
  match fr.j with
  | .atom a =>
    (pad f fr.tabs o).bind fun o =>
    (atomText a o).bind fun o =>
    (sep f fr o).map fun o => (stk, o)
  | .arr xs =>
    (if fr.next = 0 then delimiter f fr.tabs 91 o else .ok o).bind fun o =>
    afterArr f xs fr stk o
  | .obj kvs =>
    (if fr.next = 0 then delimiter f fr.tabs 123 o else .ok o).bind fun o =>
    afterObj f kvs fr stk o

/-- the loop (snprint.c:194): it ends when the stack is empty or full.  `none`: more than `n` iterations -/
def run [Libc] (f : Bool) : Nat → List Frame → Out → Res (Option Out)
  | _, [], o => .ok (some o)
  | 0, _ :: stk, o => if 500 ≤ stk.length + 1 then .ok (some o) else .ok none
  | n + 1, fr :: stk, o =>
    if 500 ≤ stk.length + 1 then .ok (some o)
    else (step f fr stk o).bind fun r => run f n r.1 r.2

/-- `cee_json_snprint` (snprint.c:183-348) with at most `n` iterations: the buffer and the returned number;
the parameter `size` is not used by the code -/
def snprint [Libc] (n : Nat) (f : Bool) (buf : Option (List (Option Byte))) (j : Val) :
    Res (Option (Option (List (Option Byte)) × Nat)) :=
  (run f n [mkFrame 0 false j] ⟨buf, 0⟩).bind fun r =>
  match r with
  | none => .ok none
  | some o => (o.write o.off [0]).map fun o => some (o.buf, o.off)

/-- `cee_json_asprint` (snprint.c:354-363): a block asked for `size` bytes has `size + 8` usable ones,
because the size of the header counts `char _[1]` and the seven bytes of padding after it (block.c:16-23,
48-56) -/
def asprint [Libc] (n : Nat) (f : Bool) (j : Val) : Res (Option (List (Option Byte) × Nat)) :=
  (snprint n f none j).bind fun r =>
  match r with
  | none => .ok none
  | some (_, size) =>
    (snprint n f (some (List.replicate (size + 8) none)) j).map fun r =>
    match r with
    | some (some b, len) => some (b, len)
    | _ => none

end Verif.Json
