import Verif.Json.Parse
import Verif.Rc.JsonRc

/-!
# What parsing does to memory (cee-json/parser.c)

The parser of `Json/Parse` with the blocks that it allocates, links and frees, on the memory of `Rc/JsonRc`.  The address of
each new block is asked from an allocator.  The texts of strings and the names of numbers are a function of the addresses of
their blocks.
-/

namespace Verif.Rc
open Verif.Chain (upd)
open Verif.Json (Byte Tok Atom PState)

/-- what is given from outside -/
structure PEnv where
  /-- the address of the `n`-th block that is allocated, given which addresses are in use; strings are allocated with
  their text -/
  al : Nat → (Nat → Bool) → List Byte → Nat
  /-- the text of the string at an address, or the name of the number there -/
  txt : Nat → List Byte
  /-- the static blocks (value.c:15-37) -/
  yes : Nat
  no : Nat
  null : Nat

/-- keys are compared by `strcmp` (value.c:294-298) -/
def PEnv.eqv (E : PEnv) (a b : Nat) : Bool := E.txt a == E.txt b

/-- a name for a number: which field of the union is used (value.c:262-276), and how large it is.  It stands for the contents of the block
of the number; the representation in bytes is not modelled. -/
def numName : Atom → List Byte
  | .i64 n => (if n < 0 then 1 else 0) :: List.replicate n.natAbs 0
  | .u64 n => 2 :: List.replicate n 0
  | .dbl b => 3 :: List.replicate b.toNat 0
  | _ => []

/-- a tuple on the stack (`SPI`, parser.c:29) at the address `tup` -/
structure MFrame where
  tup : Nat
  ret : PState
  j : Ptr

/-- the variables of `cee_json_parsex` (parser.c:35-46) and the memory; `sp` is the address of the stack, and `n` how many
blocks were allocated -/
structure MSt where
  sp : Nat
  st : PState
  stk : List MFrame
  key : Ptr
  result : Option MFrame
  H : JHeap
  n : Nat

/-- the address of the next block -/
def MSt.new (E : PEnv) (s : MSt) (t : List Byte) : Nat := E.al s.n s.H.m.h.live t

/-- the address of the block after a block with the contents `t` -/
def MSt.new2 (E : PEnv) (s : MSt) (t : List Byte := []) : Nat := E.al (s.n + 1) (upd s.H.m.h.live (s.new E t) true) []

/-- going on after something that may need more than the given recursion depth -/
def bindO {α β : Type} (r : Res (Option α)) (f : α → Res (Option β)) : Res (Option β) :=
  r.bind fun o => match o with
    | none => .ok none
    | some a => f a

/-- `cee_del` on a block that is not NULL -/
def mdel (fuel : Nat) (H : JHeap) (a : Nat) : Res (Option JHeap) := jsonDel fuel H (some a)

/-- `if (result) { cee_del(result); result = NULL; }` (parser.c:56-59).  The policies of the tuples on the stack are
`CEE_DP_NOOP`, so that what they point to is neither counted nor followed; their blocks are modelled without pointers. -/
def delResult (fuel : Nat) (s : MSt) : Res (Option MSt) :=
  match s.result with
  | none => .ok (some s)
  | some f => bindO (mdel fuel s.H f.tup) fun H => .ok (some { s with H := H, result := none })

/-- `cee_json_next_token` (tokenizer.c:448-517) returned `c`: for a string it has made a `cee_str` (tokenizer.c:371-384) -/
def readTok (E : PEnv) (s : MSt) : Tok → MSt × Ptr
  | .str t => ({ s with H := rawMk s.H (s.new E t), n := s.n + 1 }, some (s.new E t))
  | _ => (s, none)

/-- a complete value from a token (parser.c:77-107, 132-157, 191-215): a string, a static block, or a number; `none` for
other tokens.  `str` is `tock.str`.  The tokenizer gives no other literals than truth values, `null` and numbers. -/
def mkAtom (E : PEnv) (s : MSt) (str : Ptr) : Tok → Res (Option (MSt × Nat))
  | .str _ =>
    match str with
    | none => .ub
    | some b => (jsonMk s.H (s.new E []) .string b).map fun H => some ({ s with H := H, n := s.n + 1 }, s.new E [])
  | .lit (.bool true) => .ok (some ({ s with H := singleton s.H E.yes }, E.yes))
  | .lit (.bool false) => .ok (some ({ s with H := singleton s.H E.no }, E.no))
  | .lit .null => .ok (some ({ s with H := singleton s.H E.null }, E.null))
  | .lit a => (scalarMk s.H (s.new E (numName a)) (s.new2 E (numName a)) .number).map fun H =>
      some ({ s with H := H, n := s.n + 2 }, s.new2 E (numName a))
  | _ => .ok none

/-- a new container for `[` or `{`, and the state after it (parser.c:69-76, 158-169, 216-227); `none` for other tokens -/
def mkBox (E : PEnv) (s : MSt) : Tok → Res (Option (MSt × Nat))
  | .lb => (arrayMk s.H (s.new E []) (s.new2 E)).map fun H =>
      some ({ s with H := H, n := s.n + 2, st := .arrValueOrClose }, s.new2 E)
  | .lc => (objectMk s.H (s.new E []) (s.new2 E)).map fun H =>
      some ({ s with H := H, n := s.n + 2, st := .keyOrClose }, s.new2 E)
  | _ => .ok none

/-- `cee_stack_push(sp, SPI(st, ret, j))` (parser.c:29, 162, 168, 220, 226) -/
def pushTuple (E : PEnv) (s : MSt) (ret : PState) (j : Ptr) : MSt :=
  { s with H := rawMk s.H (s.new E []), n := s.n + 1, stk := ⟨s.new E [], ret, j⟩ :: s.stk }

/-- `state = TOPS; POP(sp);` (parser.c:47-49) -/
def popTuple (s : MSt) (top : MFrame) (rest : List MFrame) : MSt :=
  { s with st := top.ret, stk := rest, result := some top }

/-- `cee_map_add(obj, key, v)` on the object of the top of the stack (parser.c:131-168) -/
def addKey (E : PEnv) (fuel : Nat) (s : MSt) (m v : Nat) : Res (Option MSt) :=
  match s.key with
  | none => .ub
  | some k => bindO (putIn E.eqv fuel s.H m k v) fun H => .ok (some { s with H := H })

/-- `cee_list_append(ar, v)` (parser.c:189-226) -/
def addElem (s : MSt) (l v : Nat) : Res (Option MSt) :=
  (listAppend s.H.m.h l (.rc, some v)).map fun h => some { s with H := s.H.on h }

/-- `cee_json_to_object`, `cee_json_to_array` of the container on the top of the stack; used only when it is one -/
def topPart (H : JHeap) (top : MFrame) (t : Tag) : Res Nat :=
  match top.j with
  | none => .ub
  | some j => toPart H j t

/-- one turn of the loop of `cee_json_parsex` (parser.c:66-244) with the token `c` -/
def memStep (E : PEnv) (fuel : Nat) (s : MSt) (c : Tok) (str : Ptr) : Res (Option MSt) :=
  match s.stk with
  | [] => .ub
  | top :: rest =>
    match s.st with
    | .value =>
      (mkBox E s c).bind fun r =>
      match r with
      | some (s, j) => .ok (some { s with stk := { top with j := some j } :: rest })
      | none =>
        (mkAtom E s str c).bind fun r =>
        match r with
        | some (s, v) => .ok (some (popTuple s { top with j := some v } rest))
        | none => .ok (some { s with st := .error })
    | .keyOrClose =>
      match c with
      | .rc => .ok (some (popTuple s top rest))
      | .str _ => .ok (some { s with st := .colon, key := str })
      | _ => .ok (some { s with st := .error })
    | .colon => if c = .colon then .ok (some { s with st := .objValue }) else .ok (some { s with st := .error })
    | .objValue =>
      (topPart s.H top .object).bind fun m =>
      (mkBox E s c).bind fun r =>
      match r with
      | some (s, j) => bindO (addKey E fuel s m j) fun s => .ok (some (pushTuple E s .objCloseOrComma (some j)))
      | none =>
        (mkAtom E s str c).bind fun r =>
        match r with
        | some (s, v) => bindO (addKey E fuel s m v) fun s => .ok (some { s with st := .objCloseOrComma })
        | none => .ok (some { s with st := .error })
    | .objCloseOrComma =>
      match c with
      | .comma => .ok (some { s with st := .keyOrClose })
      | .rc => .ok (some (popTuple s top rest))
      | _ => .ok (some { s with st := .error })
    | .arrValueOrClose =>
      if c = .rb then .ok (some (popTuple s top rest))
      else
        (topPart s.H top .array).bind fun l =>
        (mkBox E s c).bind fun r =>
        match r with
        | some (s, j) => bindO (addElem s l j) fun s => .ok (some (pushTuple E s .arrCloseOrComma (some j)))
        | none =>
          (mkAtom E s str c).bind fun r =>
          match r with
          | some (s, v) => bindO (addElem s l v) fun s => .ok (some { s with st := .arrCloseOrComma })
          | none => .ok (some { s with st := .error })
    | .arrCloseOrComma =>
      match c with
      | .rb => .ok (some (popTuple s top rest))
      | .comma => .ok (some { s with st := .arrValueOrClose })
      | _ => .ok (some { s with st := .error })
    | .error => .ok (some s)
    | .done => .ok (some s)

/-- the condition of the loop (parser.c:53-54); the stack has room for 512 tuples -/
def MSt.goes (s : MSt) : Bool :=
  !s.stk.isEmpty && s.stk.length < 512 && s.st != .error && s.st != .done

/-- the loop (parser.c:53-245); `none`: more than `n` tokens were needed, or a deeper recursion than `fuel` -/
def memRun {σ : Type} (E : PEnv) (fuel : Nat) (next : σ → Res (Tok × σ)) : Nat → MSt → σ → Res (Option (MSt × σ))
  | n, s, t =>
    if !s.goes then .ok (some (s, t))
    else
      match n with
      | 0 => .ok none
      | n + 1 =>
        bindO (delResult fuel s) fun s =>
        (next t).bind fun (c, t) =>
        bindO (memStep E fuel (readTok E s c).1 c (readTok E s c).2) fun s => memRun E fuel next n s t

/-- the variables at the start (parser.c:35-51): the stack and its first tuple are made -/
def memInit (E : PEnv) (H : JHeap) : MSt :=
  let sp := E.al 0 H.m.h.live []
  pushTuple E ⟨sp, .value, [], none, none, rawMk H sp, 1⟩ .done none

/-- the end of `cee_json_parsex` (parser.c:247-260): what is returned (`none`: `EINVAL`), and the memory -/
def memFinish {σ : Type} (E : PEnv) (fuel : Nat) (next : σ → Res (Tok × σ)) (forceEof : Bool) (s : MSt) (t : σ) :
    Res (Option (Option Ptr × MSt)) :=
  bindO (mdel fuel s.H s.sp) fun H =>
  let s := { s with H := H }
  let out (s : MSt) : Res (Option (Option Ptr × MSt)) :=
    match s.result with
    | none => .ub
    | some f => bindO (mdel fuel s.H f.tup) fun H => .ok (some (some f.j, { s with H := H }))
  if s.st = .done then
    if forceEof then
      (next t).bind fun (c, _) =>
      if c = .eof then out s else .ok (some (none, (readTok E s c).1))
    else out s
  else .ok (some (none, s))

/-- `cee_json_parsex` (parser.c:32-261) on the memory `H`, over any source of tokens -/
def memParse {σ : Type} (E : PEnv) (fuel : Nat) (next : σ → Res (Tok × σ)) (n : Nat) (forceEof : Bool) (H : JHeap) (t : σ) :
    Res (Option (Option Ptr × MSt)) :=
  bindO (memRun E fuel next n (memInit E H) t) fun (s, t) => memFinish E fuel next forceEof s t

end Verif.Rc
