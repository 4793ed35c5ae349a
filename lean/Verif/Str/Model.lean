import Verif.Base

/-!
# Model of `str.c`

A string block is its header fields plus the bytes from `_` to the end of the allocation; a byte is
`none` while uninitialised.  Every read and write is checked.  `sizeof(struct S(header))` is 72 and
`_` is at offset 64 (str.c:19-23, LP64: 8 + 56 + 1, padded), so there are 8 more bytes than `capacity`
says.  The output of `vsnprintf` for a format and its arguments is an uninterpreted byte list
(`text`); arguments aliasing the destination are not modelled.  Sizes are unbounded numbers (no
allocation above 2^63 bytes is attempted by any theorem); the `uint32_t`/`int` conversions are
modelled.  Chaining is in `Verif.Chain`.
-/

namespace Verif.Str

abbrev Byte := UInt8

/-- the bytes of an allocated region -/
abbrev Cells := List (Option Byte)

/-- `p[i] = b`, checked -/
def wr (c : Cells) (i : Nat) (b : Byte) : Res Cells :=
  if i < c.length then .ok (c.set i (some b)) else .ub

/-- `p[i]`, checked; reading an uninitialised byte is undefined -/
def rd (c : Cells) (i : Nat) : Res Byte :=
  match c[i]? with
  | some (some b) => .ok b
  | _ => .ub

/-- consecutive writes from `i` on -/
def wrAll (c : Cells) (i : Nat) : List Byte → Res Cells
  | [] => .ok c
  | b :: bs => (wr c i b).bind (fun c' => wrAll c' (i + 1) bs)

/-- libc `strlen` -/
def strlen : Cells → Res Nat
  | [] => .ub
  | none :: _ => .ub
  | some b :: r => if b = 0 then .ok 0 else (strlen r).map (· + 1)

/-- libc `vsnprintf(p + i, n, ...)` where the whole output is `text` -/
def vsnprintf (c : Cells) (i n : Nat) (text : List Byte) : Res Cells :=
  if n = 0 then .ok c else wrAll c i (text.take (n - 1) ++ [0])

/-- the return value of `vsnprintf` plus one: the result is an `int`; an output of 2^31 bytes or more
yields -1. -/
def fmtSize (text : List Byte) : Nat := if text.length < 2 ^ 31 then text.length + 1 else 0

inductive Method where
  | malloc | realloc
  deriving DecidableEq, Repr

/-- `struct S(header)` (str.c:19-23) -/
structure Block where
  /-- `cs.mem_block_size` -/
  mem : Nat
  capacity : Nat
  /-- bytes from `_` to the end of the block -/
  cells : Cells
  method : Method
  deriving DecidableEq, Repr

/-- `sizeof(struct S(header))` -/
def headerSize : Nat := 72

/-- `offsetof(struct S(header), _)` -/
def dataOffset : Nat := 64

/-- a fresh block of `mem` bytes -/
def fresh (mem : Nat) : Cells := List.replicate (mem - dataOffset) none

/-- `(s / CEE_BLOCK + 1) * CEE_BLOCK` -/
def roundUp (s : Nat) : Nat := (s / 64 + 1) * 64

/-- `cee_str_mkv` (str.c:70-103), also `cee_str_mk` (str.c:105-118) -/
def mk (text : List Byte) : Res Block :=
  let s := roundUp (fmtSize text + headerSize)
  (vsnprintf (fresh s) 0 s text).map (fun c => ⟨s, s - headerSize, c, .malloc⟩)

/-- `cee_str_mk_e` (str.c:120-153); `none` is a NULL format -/
def mkE (n : Nat) (fmt : Option (List Byte)) : Res Block :=
  let s := match fmt with
    | some text => fmtSize text
    | none => n
  let mem := roundUp (s + headerSize)
  let cap := mem - headerSize
  match fmt with
  | some text => (vsnprintf (fresh mem) 0 cap text).map (fun c => ⟨mem, cap, c, .malloc⟩)
  | none => (wr (fresh mem) 0 0).map (fun c => ⟨mem, cap, c, .malloc⟩)

/-- `cee_str_strn` (str.c:45-68): no terminator is written -/
def strn (data : List Byte) : Res Block :=
  let s := roundUp (data.length + 1 + headerSize)
  (wrAll (fresh s) 0 data).map (fun c => ⟨s, s - headerSize, c, .malloc⟩)

/-- `cee_use_realloc` (cee-common.c:56-60), `cee_use_malloc` (cee-common.c:62-66) -/
def use (m : Method) (b : Block) : Block := { b with method := m }

/-- `S(resize)` (cee-resize.h:39-62): the new block starts with a copy of the old one -/
def resize (b : Block) (n : Nat) : Block :=
  { b with mem := n, cells := b.cells ++ List.replicate (n - b.mem) none }

/-- `cee_str_add` (str.c:186-200).  `slen` is a `uint32_t`.  After the resize the old header is read
again (`b->capacity`): with the realloc method that is a use after free. -/
def add (b : Block) (ch : Byte) : Res Block :=
  (strlen b.cells).bind fun len =>
  let slen := len % 2 ^ 32
  if slen < b.capacity then
    (wr b.cells slen ch).bind fun c =>
    (wr c (slen + 1) 0).map fun c => { b with cells := c }
  else
    let n := 2 * max b.mem 64
    let b1 := { resize b n with capacity := n - headerSize }
    match b.method with
    | .realloc => .ub
    | .malloc =>
      (wr b1.cells b.capacity ch).bind fun c =>
      (wr c (b.capacity + 1) 0).map fun c => { b1 with cells := c }

/-- `cee_str_catf` (str.c:202-227) with a non-NULL format -/
def catf (b : Block) (text : List Byte) : Res Block :=
  (strlen b.cells).bind fun slen =>
  let s := fmtSize text
  if slen + s < b.capacity then
    (vsnprintf b.cells slen s text).map fun c => { b with cells := c }
  else
    let n := 2 * max b.mem s
    let b1 := { resize b n with capacity := n - headerSize }
    (vsnprintf b1.cells slen s text).map fun c => { b1 with cells := c }

/-- `cee_str_replace` (str.c:233-253) with a non-NULL format -/
def replace (b : Block) (text : List Byte) : Res Block :=
  let s := fmtSize text
  if s < b.capacity then
    (vsnprintf b.cells 0 s text).map fun c => { b with cells := c }
  else
    let n := 2 * max b.mem s
    let b1 := { resize b n with capacity := n - headerSize }
    (vsnprintf b1.cells 0 s text).map fun c => { b1 with cells := c }

/-- `c == ' ' || c == '\n' || c == '\r' || c == '\t'` (str.c:260, 272) -/
def isBlank (c : Byte) : Bool := c == 32 || c == 10 || c == 13 || c == 9

/-- the loop of `cee_str_rtrim` (str.c:258-264) from index `i` down to 1 -/
def rtrimLoop (c : Cells) : Nat → Res Cells
  | 0 => .ok c
  | i + 1 =>
    (rd c (i + 1)).bind fun ch =>
    if isBlank ch then (wr c (i + 1) 0).bind fun c' => rtrimLoop c' i else .ok c

/-- `cee_str_rtrim` (str.c:256-266); `slen` is an `int` -/
def rtrim (b : Block) : Res Block :=
  (strlen b.cells).bind fun len =>
  (rtrimLoop b.cells (cInt len - 1).toNat).map fun c => { b with cells := c }

/-- the loop of `cee_str_ltrim` (str.c:270-276): returns `start`; `n` bounds the number of iterations
(the loop leaves the buffer, which is undefined, before it is exhausted). -/
def ltrimLoop (c : Cells) : Nat → Nat → Nat → Res Nat
  | 0, _, _ => .ub
  | n + 1, i, start =>
    (rd c i).bind fun ch =>
    if ch = 0 then .ok start
    else if isBlank ch then
      if i + 1 < 2 ^ 31 then ltrimLoop c n (i + 1) i else .ub
    else .ok start

/-- the bytes `[i, i + n)`, all initialised -/
def rdAll (c : Cells) (i : Nat) : Nat → Res (List Byte)
  | 0 => .ok []
  | n + 1 => (rd c i).bind fun b => (rdAll c (i + 1) n).map fun bs => b :: bs

/-- `cee_str_ltrim` (str.c:268-281) -/
def ltrim (b : Block) : Res Block :=
  (ltrimLoop b.cells (b.cells.length + 1) 0 0).bind fun start =>
  (strlen b.cells).bind fun len =>
  let newLen := cInt (sub64 len start)
  if newLen < 0 then .ub
  else
    (rdAll b.cells start newLen.toNat).bind fun bs =>
    (wrAll b.cells 0 bs).bind fun c =>
    (wr c newLen.toNat 0).map fun c => { b with cells := c }

/-! ### functions on plain C strings -/

/-- `s[i]` for a NUL terminated C string with the bytes `s` before the terminator -/
def cstr (s : List Byte) (i : Nat) : Res Byte :=
  if i < s.length then .ok (s.getD i 0) else if i = s.length then .ok 0 else .ub

/-- `malloc(n)`: sizes above 2^63 cannot be satisfied; the NULL result is then dereferenced -/
def alloc (n : Nat) : Res Cells :=
  if n < 2 ^ 63 then .ok (List.replicate n none) else .ub

/-- `for (i = 0; i < offset; i++) new_str[i] = str[i]` and the like: copy `n` bytes from `src + i` to
`dst + j` -/
def copy (src : List Byte) (c : Cells) (i j : Nat) : Nat → Res Cells
  | 0 => .ok c
  | n + 1 =>
    (cstr src i).bind fun b => (wr c j b).bind fun c' => copy src c' (i + 1) (j + 1) n

/-- `str_replace_at_offset` (str.c:288-312); the last loop runs from `offset + len` to the end of
`str` -/
def replaceAtOffset (str : List Byte) (offset len : Nat) (new : List Byte) : Res Cells :=
  (alloc (add64 (add64 (sub64 str.length len) new.length) 1)).bind fun c =>
  (copy str c 0 0 offset).bind fun c =>
  (copy new c 0 offset new.length).bind fun c =>
  let i := add64 offset len
  let rest := str.length - i
  (copy str c i (offset + new.length) rest).bind fun c =>
  wr c (offset + new.length + rest) 0

/-- `i += k` on an `int` -/
def bump (i k : Nat) : Res Nat := if i + k < 2 ^ 31 then .ok (i + k) else .ub

/-- the loop of `str_replace_all` (str.c:326-338); `fuel` bounds the number of iterations -/
def replaceAllLoop (str old new : List Byte) : Nat → Cells → Nat → Nat → Res (Option Cells)
  | 0, _, _, _ => .ok none
  | fuel + 1, c, src, dest =>
    if src < str.length then
      if old.isPrefixOf (str.drop src) then
        (copy new c 0 dest new.length).bind fun c =>
        (bump dest new.length).bind fun dest =>
        (bump src old.length).bind fun src =>
        replaceAllLoop str old new fuel c src dest
      else
        (cstr str src).bind fun b =>
        (wr c dest b).bind fun c =>
        (bump dest 1).bind fun dest =>
        (bump src 1).bind fun src =>
        replaceAllLoop str old new fuel c src dest
    else (wr c dest 0).map some

/-- `str_replace_all` (str.c:319-340).  `new_len/old_len + 1` is an integer division, exact as a
`double`. `strncmp(str + i, old, old_len) == 0` is the prefix test (`old` has no NUL). -/
def replaceAll (fuel : Nat) (str old new : List Byte) : Res (Option Cells) :=
  if old.length = 0 then .ub
  else
    (alloc (str.length * (new.length / old.length + 1))).bind fun c =>
    replaceAllLoop str old new fuel c 0 0

/-- `min_old_len` (str.c:348-371): an `int` starting at 1000 -/
def minOld (pairs : List (List Byte × List Byte)) : Nat :=
  pairs.foldl (fun m p => if p.1.length < m then p.1.length else m) 1000

/-- `max_new_len` (str.c:348-371) -/
def maxNew (pairs : List (List Byte × List Byte)) : Nat :=
  pairs.foldl (fun m p => if m < p.2.length then p.2.length else m) 0

/-- the search loop of `str_replace_all_ext` (str.c:384-391) -/
def findPair (pairs : List (List Byte × List Byte)) (rest : List Byte) :
    Option (List Byte × List Byte) :=
  pairs.find? (fun p => decide (p.1.length ≤ rest.length) && p.1.isPrefixOf rest)

/-- the loop of `str_replace_all_ext` (str.c:382-401) -/
def extLoop (str : List Byte) (pairs : List (List Byte × List Byte)) :
    Nat → Cells → Nat → Nat → Res (Option (Cells × Nat))
  | 0, _, _, _ => .ok none
  | fuel + 1, c, src, dest =>
    if src < str.length then
      match findPair pairs (str.drop src) with
      | some p =>
        (copy p.2 c 0 dest p.2.length).bind fun c =>
        extLoop str pairs fuel c (src + p.1.length) (dest + p.2.length)
      | none =>
        (cstr str src).bind fun b =>
        (wr c dest b).bind fun c => extLoop str pairs fuel c (src + 1) (dest + 1)
    else (wr c dest 0).map fun c => some (c, dest)

/-- `str_replace_all_ext` (str.c:344-408): the result and `*out_size`.  A division by zero is
undefined. -/
def replaceAllExt (fuel : Nat) (str : List Byte) (pairs : List (List Byte × List Byte)) :
    Res (Option (Cells × Nat)) :=
  let maxLen := max (maxNew pairs) (minOld pairs)
  let minLen := min (maxNew pairs) (minOld pairs)
  if minLen = 0 then .ub
  else
    (alloc (str.length / minLen * maxLen + 1)).bind fun c => extLoop str pairs fuel c 0 0

end Verif.Str
