import Verif.Rc.JsonRc

/-!
# What merging JSON values does to reference counts (cee-json/value.c:211-260, map.c:117-148, list.c:134-155)

`cee_json_merge` follows the two values down.  The depth of calls and the number of entries that are added are bounded in the model:
`ok none` when there are more.
-/

namespace Verif.Rc
open Verif.Chain (upd)

/-- `cee_list_merge` (list.c:152-155, 134-150) from the index `i`: the size of `s` is read each time; the index is an `int`.  At most `b`
elements; what is left of `b` is returned. -/
def listMerge (d s : Nat) : Nat → Nat → RHeap → Res (Option (RHeap × Nat))
  | b, i, h =>
    if h.live s then
      match (h.kids s)[i]? with
      | none => .ok (some (h, b))
      | some e =>
        match b with
        | 0 => .ok none
        | b + 1 => (listAppend h d (.rc, e.2)).bind fun h => if i + 1 = 2 ^ 31 then .ub else listMerge d s b (i + 1) h
    else .ub

/-- the end of `cee_map_add_e` for a key that is in the map (map.c:136-142): `old` is the value before `merge_json_value` was
called, `merged` tells which of the two it returned (value.c:211-218); the tuple `t1` is found again.  The new
tuple is deleted with the key `k` and without the value `v`. -/
def mergeEnd (eqv : Nat → Nat → Bool) (fuel : Nat) (H : JHeap) (m k : Nat) (v old : Ptr) (merged : Bool) : Res (Option JHeap) :=
  let c := H.m.maps m
  match findPair eqv k c.pairs with
  | none => .ub
  | some (a, p, z) =>
    let nv := if merged then old else v
    let r := if nv ≠ old then
        let M := H.m.put m { c with pairs := a ++ (p.1, nv) :: z }
        (decrIndegree M.h (c.vp, old)).map fun h => { H with m := { M with h := h } }
      else .ok H
    r.bind fun H => (delE (traceS H.single fuel) H.m.h (c.kp, some k)).map fun r => r.map H.on

/-- `_add_kv` (map.c:316-320): `cee_map_add_e` (map.c:117-148) with the function `merge_json_value`; `rec` is `cee_json_merge` -/
def addKv (rec : Nat → JHeap → Ptr → Ptr → Res (Option (JHeap × Nat × Bool))) (eqv : Nat → Nat → Bool) (fuel b : Nat) (H : JHeap)
    (m k : Nat) (v : Ptr) : Res (Option (JHeap × Nat)) :=
  match b with
  | 0 => .ok none
  | b + 1 =>
    if H.m.h.live m then
      let c := H.m.maps m
      (incrIndegree H.m.h (c.kp, some k)).bind fun h => (incrIndegree h (c.vp, v)).bind fun h =>
        let H := H.on h
        if readable H.m m k then
          match findPair eqv k c.pairs with
          | none =>
            let M := H.m.put m { c with order := c.order ++ [k], pairs := c.pairs ++ [(k, v)] }
            (incrIndegree M.h (.rc, some k)).map fun h => some ({ H with m := { M with h := h } }, b)
          | some (_, p, _) =>
            (rec b H p.2 v).bind fun r =>
              match r with
              | none => .ok none
              | some (H, b, merged) => (mergeEnd eqv fuel H m k v p.2 merged).map fun r => r.map fun H => (H, b)
        else .ub
    else .ub

/-- the loop of `cee_map_merge` (map.c:326-330, 279-307) over the tuples of the source.  Simplified: they are visited in the order of
`pairs`, not in that of the tree, and are read before the first one is added, so that a source which the merge itself changes (as the
destination holds it) is not followed. -/
def addKvs (rec : Nat → JHeap → Ptr → Ptr → Res (Option (JHeap × Nat × Bool))) (eqv : Nat → Nat → Bool) (fuel m : Nat) :
    List (Nat × Ptr) → Nat → JHeap → Res (Option (JHeap × Nat))
  | [], b, H => .ok (some (H, b))
  | p :: l, b, H =>
    (addKv rec eqv fuel b H m p.1 p.2).bind fun r =>
    match r with
    | none => .ok none
    | some (H, b) => addKvs rec eqv fuel m l b H

/-- `cee_json_merge` (value.c:231-250), at most `n` calls deep, with at most `b` entries; what is left of `b` is returned.  Objects
and arrays always have a map or a list (`JHeap.held`), so NULL for it is left out. -/
def mergeJ (eqv : Nat → Nat → Bool) (fuel : Nat) : Nat → Nat → JHeap → Ptr → Ptr → Res (Option (JHeap × Nat × Bool))
  | n, b, H, some d, some s =>
    if H.m.h.live d && H.m.h.live s then
      if H.tag d = some .object ∧ H.tag s = some .object then
        match n, H.held d, H.held s with
        | 0, _, _ => .ok none
        | n + 1, some m, some m' =>
          if H.m.h.live m' then
            (addKvs (mergeJ eqv fuel n) eqv fuel m (H.m.maps m').pairs b H).map fun r => r.map fun r => (r.1, r.2, true)
          else .ub
        | _, _, _ => .ub
      else if H.tag d = some .array ∧ H.tag s = some .array then
        match H.held d, H.held s with
        | some l, some l' => (listMerge l l' b 0 H.m.h).map fun r => r.map fun r => (H.on r.1, r.2, true)
        | _, _ => .ub
      else .ok (some (H, b, false))
    else .ub
  | _, b, H, _, _ => .ok (some (H, b, false))

/-- `cee_json_merge_or_return` (value.c:252-259): `dest` is what `*dest_p` is; the new `*dest_p` is returned too.  `none` for
`dest_p` is NULL. -/
def mergeOrReturn (eqv : Nat → Nat → Bool) (fuel n b : Nat) (H : JHeap) (destp : Option Ptr) (src : Ptr) :
    Res (Option (JHeap × Option Ptr × Bool)) :=
  match destp, src with
  | none, _ => .ok (some (H, none, false))
  | some d, none => .ok (some (H, some d, false))
  | some none, some s => .ok (some (H, some (some s), true))
  | some (some d), some s => (mergeJ eqv fuel n b H (some d) (some s)).map fun r => r.map fun r => (r.1, some (some d), r.2.2)

end Verif.Rc
