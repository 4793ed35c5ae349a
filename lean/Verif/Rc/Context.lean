import Verif.Rc.MapRc

/-!
# The contexts of a state (state.c:120-138)

The contexts are a map with counted keys and values (`cee_map_mk`, state.c:101, map.c:106-109) at the address `c`.  Keys are
compared with `strcmp`: `eqv` says which addresses have equal texts.  `c` itself is never given to the program.
-/

namespace Verif.Rc

/-- `cee_map_find` (map.c:154-165); the search reads the keys of the map -/
def mapFind (eqv : Nat → Nat → Bool) (H : MHeap) (m : Nat) (k : Ptr) : Res Ptr :=
  match k with
  | none => .ok none
  | some k =>
    if readable H m k then
      match findPair eqv k (H.maps m).pairs with
      | none => .ok none
      | some (_, p, _) => .ok p.2
    else .ub

/-- `cee_state_add_context` (state.c:124-126) -/
def addContext (eqv : Nat → Nat → Bool) (fuel : Nat) (H : MHeap) (c : Nat) (k v : Ptr) : Res (Option MHeap) :=
  (mapAdd eqv fuel H c k v).map fun r => r.map (·.1)

/-- `cee_state_remove_context` (state.c:131-133) -/
def removeContext (eqv : Nat → Nat → Bool) (H : MHeap) (c : Nat) (k : Ptr) : Res MHeap :=
  (mapRemove eqv H c k).map (·.1)

/-- `cee_state_get_context` (state.c:135-137) -/
def getContext (eqv : Nat → Nat → Bool) (H : MHeap) (c : Nat) (k : Ptr) : Res Ptr := mapFind eqv H c k

end Verif.Rc
