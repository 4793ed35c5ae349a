import Verif.Rc.Props

/-!
# What a map does to the reference counts of its keys and values (map.c)

A map has a list of its keys in the order of insertion, made with `cee_list_mk` and so with counted pointers
(map.c:87, list.c:68-70), and a tree of tuples of a key and a value with the policies of the map.  Nothing else
points to the list and the tuples; they are taken as part of the block of the map, which so holds the pointers of
the list and then those of the tuples, in the order in which the trace function of the map deletes them
(map.c:61-66).  The tree is its tuples (`Verif.Map` has the tree itself, C01: it finds the tuple whose key is equal
to the given one); a new tuple is taken to be the last one.  Comparing with a key that has been freed is undefined
behaviour; the model compares with all keys.
-/

namespace Verif.Rc
open Verif.Chain (upd)

/-- the header of a map and what it refers to (map.c:14-29) -/
structure MapC where
  /-- `del_policies` -/
  kp : Policy
  vp : Policy
  /-- `insertion_ordered_keys` -/
  order : List Nat
  /-- the tuples of the tree -/
  pairs : List (Nat × Ptr)

/-- the pointers that `CEE_TRACE_DEL_FOLLOW` deletes (map.c:61-66), in this order -/
def MapC.flat (c : MapC) : List Edge :=
  c.order.map (fun k => (.rc, some k)) ++ c.pairs.flatMap (fun p => [(c.kp, some p.1), (c.vp, p.2)])

/-- memory with maps -/
structure MHeap where
  h : RHeap
  maps : Nat → MapC
  /-- memory of the program that is no block of the library (string literals, arrays, ...) -/
  other : Nat → Bool := fun _ => false

/-- writing the header, list and tree of the map `m` -/
def MHeap.put (H : MHeap) (m : Nat) (c : MapC) : MHeap :=
  { H with h := { H.h with kids := upd H.h.kids m c.flat }, maps := upd H.maps m c }

/-- `cee_map_mk_e` (map.c:83-104), at the address `x` given by the allocator -/
def mapMk (H : MHeap) (x : Nat) (kp vp : Policy) : MHeap :=
  { H with h := newBlock H.h x [], maps := upd H.maps x ⟨kp, vp, [], []⟩ }

/-- `musl_tfind`, `musl_tsearch` on the tuples (map.c:76-81): the tuple whose key is equal to `k`, what is before
it and what is after it -/
def findPair (eqv : Nat → Nat → Bool) (k : Nat) :
    List (Nat × Ptr) → Option (List (Nat × Ptr) × (Nat × Ptr) × List (Nat × Ptr))
  | [] => none
  | p :: l => if eqv k p.1 then some ([], p, l) else (findPair eqv k l).map fun r => (p :: r.1, r.2)

/-- the search of `cee_map_ordered_key_delete` (map.c:167-178) -/
def findKey (eqv : Nat → Nat → Bool) (k : Nat) : List Nat → Option (List Nat × Nat × List Nat)
  | [] => none
  | p :: l => if eqv k p then some ([], p, l) else (findKey eqv k l).map fun r => (p :: r.1, r.2)

/-- a search for `k` in the map `m` reads the keys of the map -/
def readable (H : MHeap) (m k : Nat) : Bool :=
  let ok := fun q => H.h.live q || H.other q
  H.h.live m && ok k && (H.maps m).pairs.all (fun p => ok p.1) && (H.maps m).order.all ok

/-- `cee_map_add_e` with a key that is already in the map (map.c:128-142): `t` is the new tuple, whose value is not
deleted with it -/
def mapOver (fuel : Nat) (H : MHeap) (m k : Nat) (v : Ptr) (merge : Option (Ptr → Ptr → Ptr))
    (a : List (Nat × Ptr)) (p : Nat × Ptr) (b : List (Nat × Ptr)) : Res (Option (MHeap × Ptr)) :=
  let c := H.maps m
  let nv := match merge with
    | none => v
    | some f => f p.2 v
  let r := if nv ≠ p.2 then
      let H := H.put m { c with pairs := a ++ (p.1, nv) :: b }
      (decrIndegree H.h (c.vp, p.2)).map fun h => { H with h := h }
    else .ok H
  r.bind fun H =>
    match delE (traceDel fuel) H.h (c.kp, some k) with
    | .ok (some h) => .ok (some ({ H with h := h }, p.2))
    | .ok none => .ok none
    | .ub => .ub
    | .segv => .segv

/-- `cee_map_add_e` after the key and the value were counted (map.c:126-147): the search for the key, and what follows -/
def mapPut (eqv : Nat → Nat → Bool) (fuel : Nat) (H : MHeap) (m k : Nat) (v : Ptr)
    (merge : Option (Ptr → Ptr → Ptr)) : Res (Option (MHeap × Ptr)) :=
  let c := H.maps m
  if readable H m k then
    match findPair eqv k c.pairs with
    | none =>
      let H := H.put m { c with order := c.order ++ [k], pairs := c.pairs ++ [(k, v)] }
      (incrIndegree H.h (.rc, some k)).map fun h => some ({ H with h := h }, none)
    | some (a, p, b) => mapOver fuel H m k v merge a p b
  else .ub

/-- `cee_map_add_e` (map.c:117-148); `merge` is the function given, whose result is the pointer to be stored.
`ok none` when the deletion of the key is deeper than `fuel`. -/
def mapAddE (eqv : Nat → Nat → Bool) (fuel : Nat) (H : MHeap) (m : Nat) (k v : Ptr)
    (merge : Option (Ptr → Ptr → Ptr)) : Res (Option (MHeap × Ptr)) :=
  match k with
  | none => .ok (some (H, none))
  | some k =>
    if H.h.live m then
      let c := H.maps m
      (incrIndegree H.h (c.kp, some k)).bind fun h => (incrIndegree h (c.vp, v)).bind fun h =>
        mapPut eqv fuel { H with h := h } m k v merge
    else .ub

/-- `cee_map_add` (map.c:150-152) -/
def mapAdd (eqv : Nat → Nat → Bool) (fuel : Nat) (H : MHeap) (m : Nat) (k v : Ptr) :
    Res (Option (MHeap × Ptr)) := mapAddE eqv fuel H m k v none

/-- `cee_map_remove` (map.c:180-200).  The tuple is freed without its key and value; then the key is taken out of
the list, which is a crash if it is not there. -/
def mapRemove (eqv : Nat → Nat → Bool) (H : MHeap) (m : Nat) (k : Ptr) : Res (MHeap × Ptr) :=
  match k with
  | none => .ok (H, none)
  | some k =>
    if readable H m k then
      let c := H.maps m
      match findPair eqv k c.pairs with
      | none => .ok (H, none)
      | some (a, p, b) =>
        let c1 := { c with pairs := a ++ b }
        let H := H.put m c1
        (decrIndegree H.h (c.kp, some p.1)).bind fun h => (decrIndegree h (c.vp, p.2)).bind fun h =>
          match findKey eqv k c.order with
          | none => .segv
          | some (a', q, b') =>
            let H := ({ H with h := h }).put m { c1 with order := a' ++ b' }
            (decrIndegree H.h (.rc, some q)).map fun h => ({ H with h := h }, p.2)
    else .ub

/-- `cee_map_rename` (map.c:202-210) -/
def mapRename (eqv : Nat → Nat → Bool) (fuel : Nat) (H : MHeap) (m : Nat) (k k' : Ptr) :
    Res (Option (MHeap × Bool)) :=
  if k = none ∨ k' = none then .ok (some (H, false))
  else
    (mapRemove eqv H m k).bind fun r =>
      match r.2 with
      | none => .ok (some (r.1, false))
      | some v => (mapAdd eqv fuel r.1 m k' (some v)).map fun r => r.map fun r => (r.1, true)

/-- the loop of `cee_map_merge` over the tuples of `src` (map.c:316-329); the
tuples of `src` are read before the first is added -/
def mapAddAll (eqv : Nat → Nat → Bool) (fuel : Nat) (merge : Option (Ptr → Ptr → Ptr)) (m : Nat) :
    MHeap → List (Nat × Ptr) → Res (Option MHeap)
  | H, [] => .ok (some H)
  | H, p :: l =>
    match mapAddE eqv fuel H m (some p.1) p.2 merge with
    | .ok (some (H, _)) => mapAddAll eqv fuel merge m H l
    | .ok none => .ok none
    | .ub => .ub
    | .segv => .segv

/-- `cee_map_merge` (map.c:326-330) -/
def mapMerge (eqv : Nat → Nat → Bool) (fuel : Nat) (H : MHeap) (dest src : Nat)
    (merge : Option (Ptr → Ptr → Ptr)) : Res (Option MHeap) :=
  if H.h.live src then mapAddAll eqv fuel merge dest H (H.maps src).pairs else .ub

/-- `cee_map_clone` (map.c:332-337) -/
def mapClone (eqv : Nat → Nat → Bool) (fuel : Nat) (H : MHeap) (x src : Nat) : Res (Option MHeap) :=
  if H.h.live src then
    mapMerge eqv fuel (mapMk H x (H.maps src).kp (H.maps src).vp) x src none
  else .ub

end Verif.Rc
