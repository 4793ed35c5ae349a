import Verif.Rc.MapRc

/-!
# What sets, dictionaries and stacks do to the reference counts of what they hold (set.c, dict.c, stack.c)

The block of a set holds its members, in any order (the tree is in `Verif.Set`); the block of a stack its elements,
bottom first; that of a dictionary the pointers of its two private lists, the keys first (nothing else points to
these lists, so they are taken as part of the dictionary).
-/

namespace Verif.Rc
open Verif.Chain (upd)

/-- what a block is, with its `del_policy` (set.c:14-21, dict.c:17-24, stack.c:14-21) -/
inductive Kind where
  /-- tuples, lists, ... (`Verif.Rc.Model`) -/
  | plain
  | set (dp : Policy)
  | dict (o : Policy)
  | stack (dp : Policy) (cap : Nat)
  deriving DecidableEq

def Kind.isSet : Kind → Bool
  | .set _ => true
  | _ => false

/-- memory with sets, dictionaries and stacks -/
structure SHeap where
  h : RHeap
  kind : Nat → Kind

/-- `cee_set_mk_e` (set.c:77-92), `cee_dict_mk_e` (dict.c:53-82; when the table can be allocated), `cee_stack_mk_e`
(stack.c:49-63) at the address `x` -/
def mkKind (H : SHeap) (x : Nat) (k : Kind) : SHeap := ⟨newBlock H.h x [], upd H.kind x k⟩

/-- Trace with `CEE_TRACE_DEL_FOLLOW`: as `traceDel`, but a set gives NULL as the context of `free_pair_follow`, which
reads the policy from it, once for each member (set.c:25-28, 53-57). -/
def trS (kind : Nat → Kind) : Nat → RHeap → Nat → Res (Option RHeap)
  | 0, _, _ => .ok none
  | fuel + 1, h, a =>
    if (kind a).isSet && !(h.kids a).isEmpty then .ub
    else match delLoop (trS kind fuel) a h (h.kids a) with
      | .ok (some h') => freeBlock h' a
      | r => r

/-- a search for `val` in the set `m` reads the members -/
def setReadable (h : RHeap) (m val : Nat) : Bool :=
  h.live m && h.live val && (h.kids m).all fun e => match e.2 with
    | none => false
    | some q => h.live q

/-- `musl_tfind`, `musl_tsearch` on the members: the member that is equal to `val` -/
def setFind (eqv : Nat → Nat → Bool) (val : Nat) : List Edge → Option Nat
  | [] => none
  | e :: l => match e.2 with
    | none => setFind eqv val l
    | some q => if eqv val q then some q else setFind eqv val l

/-- `cee_set_add` (set.c:112-127): a new member is counted, and so is a pointer that is in the set already -/
def setAdd (eqv : Nat → Nat → Bool) (dp : Policy) (h : RHeap) (m val : Nat) : Res RHeap :=
  if setReadable h m val then
    match setFind eqv val (h.kids m) with
    | some old => if old ≠ val then .ok h else incrIndegree h (dp, some val)
    | none => incrIndegree { h with kids := upd h.kids m (h.kids m ++ [(dp, some val)]) } (dp, some val)
  else .ub

/-- `cee_set_remove` (set.c:181-192): the count of the member is left as it is -/
def setRemove (eqv : Nat → Nat → Bool) (dp : Policy) (h : RHeap) (m key : Nat) : Res (RHeap × Ptr) :=
  if setReadable h m key then
    match setFind eqv key (h.kids m) with
    | none => .ok (h, none)
    | some old => .ok ({ h with kids := upd h.kids m ((h.kids m).erase (dp, some old)) }, some old)
  else .ub

/-- the loop of `musl_tdestroy` in `cee_set_clear` (set.c:129-144); `tr` deletes a block -/
def clearLoop (tr : RHeap → Nat → Res (Option RHeap)) : RHeap → List Edge → Res (Option RHeap)
  | h, [] => .ok (some h)
  | h, e :: es =>
    match delE tr h e with
    | .ok (some h') => clearLoop tr h' es
    | r => r

/-- `cee_set_clear` (set.c:142-147).  The root of the tree is set to NULL after the loop in the code, before it here;
it is only read in between if a member deletes the set, and then the set is gone when its root is written. -/
def setClear (tr : RHeap → Nat → Res (Option RHeap)) (h : RHeap) (m : Nat) : Res (Option RHeap) :=
  if h.live m then
    match clearLoop tr { h with kids := upd h.kids m [] } (h.kids m) with
    | .ok (some h') => if h'.live m then .ok (some h') else .ub
    | r => r
  else .ub

/-- the pointers of a dictionary after adding a key and a value -/
def dictInsert (l : List Edge) (k v : Ptr) : List Edge :=
  l.take (l.length / 2) ++ (.rc, k) :: l.drop (l.length / 2) ++ [(.rc, v)]

/-- `cee_dict_add` (dict.c:88-97) on the dictionary `d`, whether or not it has the key (the table is in `Verif.Hash`,
C14).  The lists count their pointers; with `CEE_DP_NOOP` they are not deleted with the dictionary (dict.c:37-43), so
that the dictionary deletes nothing. -/
def dictAdd (o : Policy) (h : RHeap) (d : Nat) (k v : Ptr) : Res RHeap :=
  if h.live d then
    let h := if o = .noop then h else { h with kids := upd h.kids d (dictInsert (h.kids d) k v) }
    (incrIndegree h (.rc, k)).bind fun h => incrIndegree h (.rc, v)
  else .ub

/-- `cee_stack_push` (stack.c:69-79) on the stack `y` of `cap` places -/
def stackPush (dp : Policy) (cap : Nat) (h : RHeap) (y : Nat) (e : Ptr) : Res (RHeap × Bool) :=
  if h.live y then
    if (h.kids y).length = cap then .ok (h, false)
    else (incrIndegree { h with kids := upd h.kids y (h.kids y ++ [(dp, e)]) } (dp, e)).map fun h => (h, true)
  else .ub

/-- `cee_stack_pop` (stack.c:81-93) -/
def stackPop (dp : Policy) (h : RHeap) (y : Nat) : Res (RHeap × Ptr) :=
  if h.live y then
    match (h.kids y).getLast? with
    | none => .ok (h, none)
    | some e => (decrIndegree { h with kids := upd h.kids y (h.kids y).dropLast } (dp, e.2)).map fun h => (h, e.2)
  else .ub

/-- the walk of `cee_set_values` (set.c:158-170, 177) -/
def appendAll (h : RHeap) (v : Nat) : List Edge → Res RHeap
  | [] => .ok h
  | e :: es => (listAppend h v (.rc, e.2)).bind fun h => appendAll h v es

/-- `cee_set_values` (set.c:172-179): a new list at `v`, with counted pointers whatever the policy of the set -/
def setValues (h : RHeap) (v m : Nat) : Res RHeap :=
  if h.live m then appendAll (newBlock h v []) v (h.kids m) else .ub

/-- the loops of `cee_set_union_set` (set.c:202-206), and `cee_set_iterate` in `cee_set_clone` (set.c:271) -/
def setAddAll (eqv : Nat → Nat → Bool) (dp : Policy) (h : RHeap) (m : Nat) : List Edge → Res RHeap
  | [] => .ok h
  | e :: es => match e.2 with
    | none => .ub
    | some v => (setAdd eqv dp h m v).bind fun h => setAddAll eqv dp h m es

/-- `cee_set_union_set` (set.c:194-215) of two sets with the same comparison; the new set is `x`, and `v1` and `v2`
are the two lists -/
def setUnion (eqv : Nat → Nat → Bool) (tr : RHeap → Nat → Res (Option RHeap)) (h : RHeap) (x v1 v2 s1 s2 : Nat) :
    Res (Option RHeap) :=
  (setValues (newBlock h x []) v1 s1).bind fun h => (setValues h v2 s2).bind fun h =>
    (setAddAll eqv .rc h x (h.kids v1)).bind fun h => (setAddAll eqv .rc h x (h.kids v2)).bind fun h =>
      match delWith tr h (some v1) with
      | .ok (some h) => delWith tr h (some v2)
      | r => r

/-- `cee_set_clone` (set.c:265-273) at the address `x` -/
def setClone (eqv : Nat → Nat → Bool) (H : SHeap) (x src : Nat) : Res SHeap :=
  match H.kind src with
  | .set dp =>
    if H.h.live src then
      let H' := mkKind H x (.set dp)
      (setAddAll eqv dp H'.h x (H.h.kids src)).map fun h => { H' with h := h }
    else .ub
  | _ => .ub

end Verif.Rc
