import Verif.Rc.Model

/-!
# Changing the deletion policy of an element of a tuple (tuple.c:71-75) in counted memory

The memory is that of `Verif.Rc.Model`.
-/

namespace Verif.Rc
open Verif.Chain (upd)

/-- `cee_tuple_update_del_policy` (tuple.c:71-75): `del_policies[index] = v`, no count is changed.  An index that is not one of the elements is a write
outside the array. -/
def updatePolicy (h : RHeap) (t : Nat) (index : Int) (v : Policy) : Res RHeap :=
  if h.live t then
    if index < 0 then .ub
    else
      match (h.kids t)[index.toNat]? with
      | none => .ub
      | some e => .ok { h with kids := upd h.kids t ((h.kids t).set index.toNat (v, e.2)) }
  else .ub

/-- what a caller can do about the counts, and what `cee_map_remove` does with `CEE_DP_NOOP` (map.c:192-195): the element with its policy `e` is taken back
with `cee_decr_indegree`, then the policy is changed, then the element is counted with `cee_incr_indegree` -/
def changePolicy (h : RHeap) (t : Nat) (index : Int) (e : Edge) (v : Policy) : Res RHeap :=
  (decrIndegree h e).bind fun h => (updatePolicy h t index v).bind fun h => incrIndegree h (v, e.2)

/-- the end of `cee_map_remove` (map.c:192-196): both elements `p`, `q` of the tuple are taken back, both policies become `CEE_DP_NOOP`, and the tuple is
deleted -/
def detach (fuel : Nat) (h : RHeap) (t : Nat) (p q : Edge) : Res (Option RHeap) :=
  (decrIndegree h p).bind fun h => (decrIndegree h q).bind fun h =>
    (updatePolicy h t 0 .noop).bind fun h => (updatePolicy h t 1 .noop).bind fun h => del fuel h (some t)

end Verif.Rc
