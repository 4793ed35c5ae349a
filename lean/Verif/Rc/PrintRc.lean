import Verif.Json.Print
import Verif.Rc.ParseRc

/-!
# What printing does to memory (cee-json/snprint.c)

The printer of `Json/Print` with the blocks that it allocates and frees, on the memory of `Rc/JsonRc`.  The address of each new
block is asked from an allocator.  The contents of strings, numbers and blobs are functions of addresses.
-/

namespace Verif.Rc
open Verif.Chain (upd)
open Verif.Json (Byte Atom Out Libc)

/-- what is given from outside -/
structure QEnv where
  /-- the address of the `n`-th block that is allocated, given which addresses are in use -/
  al : Nat → (Nat → Bool) → Nat
  /-- the text of the string at an address -/
  txt : Nat → List Byte
  /-- the number or blob in the block at an address, or the string with a length in the JSON value there -/
  cont : Nat → Atom
  /-- the static block of `true` (value.c:15-20) -/
  yes : Nat

/-- keys are compared by `strcmp` (value.c:294-298) -/
def QEnv.eqv (Q : QEnv) (a b : Nat) : Bool := Q.txt a == Q.txt b

/-- a tuple on the stack at the address `tup`, of a `struct counter` (snprint.c:11-17) at the address `cnt` and the value `j`;
`keys` is the field `array` of the counter of an object.  The field `array` for an array and `object` are the list and the
map in `j`, and are read from there. -/
structure QFrame where
  tup : Nat
  cnt : Nat
  keys : Option Nat
  j : Ptr
  next : Nat
  tabs : Int
  more : Bool

/-- the variables of `cee_json_snprint` (snprint.c:183-192) and the memory; `n` is how many blocks were allocated -/
structure QSt where
  stk : List QFrame
  H : JHeap
  n : Nat
  o : Out

/-- the loop of `cee_map_insertion_ordered_keys` (map.c:238-240) -/
def appendKeys (l : Nat) : RHeap → List Nat → Res RHeap
  | h, [] => .ok h
  | h, k :: ks => (listAppend h l (.rc, some k)).bind fun h => appendKeys l h ks

/-- the allocation of a block without pointers: a `struct counter` (snprint.c:23-49), a list, or a string -/
def allocRaw (Q : QEnv) (H : JHeap) (n : Nat) : JHeap × Nat := (rawMk H (Q.al n H.m.h.live), Q.al n H.m.h.live)

/-- `cee_map_insertion_ordered_keys` (map.c:233-242): a new list that counts the keys -/
def orderedKeys (Q : QEnv) (H : JHeap) (n m : Nat) : Res (JHeap × Nat) :=
  if H.m.h.live m then
    let ks := (H.m.maps m).order
    let r := allocRaw Q H n
    (appendKeys r.2 r.1.m.h ks).map fun h => (r.1.on h, r.2)
  else .ub

/-- `cee_stack_push(sp, cee_tuple_mk_e(st, o, p, j))` with the policies `CEE_DP_DEL` and `CEE_DP_NOOP` (snprint.c:60-61); the
stack does not count its elements (snprint.c:190) -/
def pushFrame (Q : QEnv) (s : QSt) (tabs : Int) (more : Bool) (c : Nat) (keys : Option Nat) (j : Ptr) : Res QSt :=
  let x := Q.al s.n s.H.m.h.live
  (tupleMk s.H.m.h x [(.del, some c), (.noop, j)]).map fun h =>
    { s with stk := ⟨x, c, keys, j, 0, Verif.Json.toChar tabs, more⟩ :: s.stk, H := { s.H.on h with tag := upd s.H.tag x none }, n := s.n + 1 }

/-- `push` (snprint.c:19-63).  For NULL the fields of the counter other than `tabs` are not set. -/
def push (Q : QEnv) (s : QSt) (tabs : Int) (more : Bool) (j : Ptr) : Res QSt :=
  match j with
  | none =>
    let r := allocRaw Q s.H s.n
    pushFrame Q { s with H := r.1, n := s.n + 1 } 0 more r.2 none none
  | some a =>
    if s.H.m.h.live a then
      let r := allocRaw Q s.H s.n
      if s.H.tag a = some .object then
        (toPart s.H a .object).bind fun m =>
        (orderedKeys Q r.1 (s.n + 1) m).bind fun r' =>
        pushFrame Q { s with H := r'.1, n := s.n + 2 } tabs more r.2 (some r'.2) j
      else pushFrame Q { s with H := r.1, n := s.n + 1 } tabs more r.2 none j
    else .ub

/-- the value of a block without parts; `cee_json_to_boolx` compares with the address of `true` (value.c:198-209) -/
def readAtom (Q : QEnv) (H : JHeap) (j : Nat) : Tag → Res Atom
  | .undefined => .ok .undef
  | .null => .ok .null
  | .boolean => .ok (.bool (j == Q.yes))
  | .strn => .ok (Q.cont j)
  | .string =>
    match H.held j with
    | none => .ub
    | some b => if H.m.h.live b then .ok (.str (Q.txt b)) else .ub
  | _ =>
    match H.held j with
    | none => .ub
    | some b => if H.m.h.live b then .ok (Q.cont b) else .ub

/-- `if (ccnt->more_siblings) delimiter(.., ',')` -/
def qsep (f : Bool) (fr : QFrame) (o : Out) : Res Out :=
  if fr.more then Verif.Json.delimiter f fr.tabs 44 o else .ok o

/-- `cee_del(cee_stack_pop(sp))` with the rest of the stack -/
def popDel (fuel : Nat) (s : QSt) (fr : QFrame) (rest : List QFrame) (o : Out) : Res (Option QSt) :=
  bindO (mdel fuel s.H fr.tup) fun H => .ok (some { s with stk := rest, H := H, o := o })

/-- the cases of values without parts (snprint.c:201-283); for a blob a string is made and not deleted (snprint.c:257-268) -/
def stepAtom [Libc] (Q : QEnv) (fuel : Nat) (f : Bool) (s : QSt) (fr : QFrame) (rest : List QFrame) (t : Tag) (j : Nat) : Res (Option QSt) :=
  (readAtom Q s.H j t).bind fun a =>
  let s := if t = .blob then { s with H := (allocRaw Q s.H s.n).1, n := s.n + 1 } else s
  (Verif.Json.pad f fr.tabs s.o).bind fun o =>
  (Verif.Json.atomText a o).bind fun o =>
  (qsep f fr o).bind fun o => popDel fuel s fr rest o

/-- the case of arrays (snprint.c:284-308) -/
def stepArr (Q : QEnv) (fuel : Nat) (f : Bool) (s : QSt) (fr : QFrame) (rest : List QFrame) (j : Nat) : Res (Option QSt) :=
  (toPart s.H j .array).bind fun l =>
  if s.H.m.h.live l then
    let es := s.H.m.h.kids l
    (if fr.next = 0 then Verif.Json.delimiter f fr.tabs 91 s.o else .ok s.o).bind fun o =>
    match es[fr.next]? with
    | some e => (push Q { s with stk := { fr with next := fr.next + 1 } :: rest, o := o } (fr.tabs + 1) (fr.next + 1 < es.length) e.2).map some
    | none =>
      (Verif.Json.delimiter f fr.tabs 93 o).bind fun o =>
      (qsep f fr o).bind fun o => popDel fuel s fr rest o
  else .ub

/-- `cee_map_find` (map.c:154-165) -/
def findIn (Q : QEnv) (H : JHeap) (m k : Nat) : Res Ptr :=
  if readable H.m m k then
    match findPair Q.eqv k (H.m.maps m).pairs with
    | none => .ok none
    | some r => .ok r.2.1.2
  else .ub

/-- the case of objects (snprint.c:309-338) -/
def stepObj (Q : QEnv) (fuel : Nat) (f : Bool) (s : QSt) (fr : QFrame) (rest : List QFrame) (j : Nat) : Res (Option QSt) :=
  (toPart s.H j .object).bind fun m =>
  match fr.keys with
  | none => .ub
  | some l =>
    if s.H.m.h.live l then
      let es := s.H.m.h.kids l
      (if fr.next = 0 then Verif.Json.delimiter f fr.tabs 123 s.o else .ok s.o).bind fun o =>
      match es[fr.next]? with
      | some (_, some k) =>
        (findIn Q s.H m k).bind fun v =>
        (Verif.Json.pad f fr.tabs o).bind fun o =>
        (Verif.Json.strAppend (Q.txt k) o).bind fun o =>
        (Verif.Json.delimiter f fr.tabs 58 o).bind fun o =>
        (push Q { s with stk := { fr with next := fr.next + 1 } :: rest, o := o } (fr.tabs + 1) (fr.next + 1 < es.length) v).map some
      | some (_, none) => .ub
      | none =>
        (Verif.Json.delimiter f fr.tabs 125 o).bind fun o =>
        (qsep f fr o).bind fun o =>
        bindO (mdel fuel s.H l) fun H => popDel fuel { s with H := H } fr rest o
    else .ub

/-- one turn of the loop (snprint.c:195-342) with the tuple at the top of the stack -/
def qstep [Libc] (Q : QEnv) (fuel : Nat) (f : Bool) (s : QSt) (fr : QFrame) (rest : List QFrame) : Res (Option QSt) :=
  if s.H.m.h.live fr.tup && s.H.m.h.live fr.cnt then
    match fr.j with
    | none => .ub
    | some j =>
      if s.H.m.h.live j then
        match s.H.tag j with
        | none => .ub
        | some .array => stepArr Q fuel f s fr rest j
        | some .object => stepObj Q fuel f s fr rest j
        | some t => stepAtom Q fuel f s fr rest t j
      else .ub
  else .ub

/-- the loop (snprint.c:194-343); it ends when the stack is empty or full.  `none`: more than `n` turns, or a deeper recursion than
`fuel` -/
def qrun [Libc] (Q : QEnv) (fuel : Nat) (f : Bool) : Nat → QSt → Res (Option QSt)
  | n, s =>
    match s.stk with
    | [] => .ok (some s)
    | fr :: rest =>
      if 500 ≤ rest.length + 1 then .ok (some s)
      else
        match n with
        | 0 => .ok none
        | n + 1 => bindO (qstep Q fuel f s fr rest) fun s => qrun Q fuel f n s

/-- `cee_json_snprint` (snprint.c:183-348) of the value at `j` on the memory `H`, of which `n0` blocks were allocated: the memory, how
many blocks were allocated, the buffer and what is returned -/
def memPrint [Libc] (Q : QEnv) (fuel n : Nat) (f : Bool) (buf : Option (List (Option Byte))) (H : JHeap) (n0 : Nat) (j : Ptr) :
    Res (Option (JHeap × Nat × Option (List (Option Byte)) × Nat)) :=
  let r := allocRaw Q H n0
  (push Q ⟨[], r.1, n0 + 1, ⟨buf, 0⟩⟩ 0 false j).bind fun s =>
  bindO (qrun Q fuel f n s) fun s =>
  bindO (mdel fuel s.H r.2) fun H =>
  (s.o.write s.o.off [0]).map fun o => some (H, s.n, o.buf, o.off)

/-- `cee_json_asprint` (snprint.c:354-363): the block of the buffer is in memory at the end, and returned -/
def memAsprint [Libc] (Q : QEnv) (fuel n : Nat) (f : Bool) (H : JHeap) (n0 : Nat) (j : Ptr) :
    Res (Option (JHeap × Nat × List (Option Byte) × Nat)) :=
  bindO (memPrint Q fuel n f none H n0 j) fun (H, n1, _, size) =>
  let r := allocRaw Q H n1
  (memPrint Q fuel n f (some (List.replicate (size + 8) none)) r.1 (n1 + 1) j).map fun q =>
  match q with
  | some (H, _, some b, len) => some (H, r.2, b, len)
  | _ => none

end Verif.Rc
