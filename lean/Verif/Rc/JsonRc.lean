import Verif.Rc.MapRc

/-!
# What the JSON interface does to reference counts (cee-json/value.c)

A JSON value is a tagged block that counts one reference to its string, boxed number, blob, list or map
(`cee_tagged_mk`, tagged.c:58-60).  `true`, `false`, `null` and `undefined` are static blocks (value.c:15-37) that are never
freed: their trace function does nothing, and each call of the function that returns one of them sets its count to 0
(singleton.c:25-37).  Strings are made from C strings at every call that takes a key.  What is in strings and numbers is
not modelled: equality of keys is a relation on addresses, so that blocks at the same address have the same text.
The addresses that the allocator returns are arguments.
-/

namespace Verif.Rc
open Verif.Chain (upd)

/-- `enum cee_json_type` (cee-json.h:17-30); the three types of numbers (`I64`, `U64`, `DOUBLE`) are taken as one -/
inductive Tag where
  | undefined | null | boolean | number | string | object | array | blob | strn
  deriving DecidableEq

/-- memory -/
structure JHeap where
  m : MHeap
  /-- the field `t` of JSON values; `none`: another block -/
  tag : Nat → Option Tag
  /-- the static blocks -/
  single : Nat → Bool

/-- memory after an operation on the counts -/
def JHeap.on (H : JHeap) (h : RHeap) : JHeap := { H with m := { H.m with h := h } }

/-- trace with `CEE_TRACE_DEL_FOLLOW`: as `traceDel`, but nothing for static blocks (singleton.c:25) -/
def traceS (sg : Nat → Bool) : Nat → RHeap → Nat → Res (Option RHeap)
  | 0, h, a => if sg a then .ok (some h) else .ok none
  | fuel + 1, h, a =>
    if sg a then .ok (some h)
    else
      match delLoop (traceS sg fuel) a h (h.kids a) with
      | .ok (some h') => freeBlock h' a
      | r => r

/-- `cee_map_add_e` with a key that is already in the map (map.c:128-142), as `mapOver` without a function to merge -/
def mapOverS (tr : RHeap → Nat → Res (Option RHeap)) (H : MHeap) (m k : Nat) (v : Ptr)
    (a : List (Nat × Ptr)) (p : Nat × Ptr) (b : List (Nat × Ptr)) : Res (Option (MHeap × Ptr)) :=
  let c := H.maps m
  let r := if v ≠ p.2 then
      let H := H.put m { c with pairs := a ++ (p.1, v) :: b }
      (decrIndegree H.h (c.vp, p.2)).map fun h => { H with h := h }
    else .ok H
  r.bind fun H =>
    match delE tr H.h (c.kp, some k) with
    | .ok (some h) => .ok (some ({ H with h := h }, p.2))
    | .ok none => .ok none
    | .ub => .ub
    | .segv => .segv

/-- `cee_map_add_e` after the key and the value were counted (map.c:126-147), as `mapPut` -/
def mapPutS (tr : RHeap → Nat → Res (Option RHeap)) (eqv : Nat → Nat → Bool) (H : MHeap) (m k : Nat) (v : Ptr) :
    Res (Option (MHeap × Ptr)) :=
  let c := H.maps m
  if readable H m k then
    match findPair eqv k c.pairs with
    | none =>
      let H := H.put m { c with order := c.order ++ [k], pairs := c.pairs ++ [(k, v)] }
      (incrIndegree H.h (.rc, some k)).map fun h => some ({ H with h := h }, none)
    | some (a, p, b) => mapOverS tr H m k v a p b
  else .ub

/-- `cee_map_add` (map.c:117-152), as `mapAdd` with a trace function that knows static blocks -/
def mapAddS (tr : RHeap → Nat → Res (Option RHeap)) (eqv : Nat → Nat → Bool) (H : MHeap) (m k : Nat) (v : Ptr) :
    Res (Option (MHeap × Ptr)) :=
  if H.h.live m then
    let c := H.maps m
    (incrIndegree H.h (c.kp, some k)).bind fun h => (incrIndegree h (c.vp, v)).bind fun h =>
      mapPutS tr eqv { H with h := h } m k v
  else .ub

/-- `cee_map_rename` (map.c:202-210) for keys that are not NULL -/
def mapRenameS (tr : RHeap → Nat → Res (Option RHeap)) (eqv : Nat → Nat → Bool) (H : MHeap) (m k k' : Nat) :
    Res (Option (MHeap × Bool)) :=
  (mapRemove eqv H m (some k)).bind fun r =>
    match r.2 with
    | none => .ok (some (r.1, false))
    | some v => (mapAddS tr eqv r.1 m k' (some v)).map fun r => r.map fun r => (r.1, true)

/-- `cee_json_true`, `cee_json_false`, `cee_json_null`, `cee_json_undefined` (value.c:15-37): the sect is zeroed
(singleton.c:29) -/
def singleton (H : JHeap) (s : Nat) : JHeap :=
  H.on { H.m.h with deg := upd H.m.h.deg s 0, ret := upd H.m.h.ret s false }

/-- `cee_str_mk`, `cee_str_mkv` (str.c:70-118), `cee_boxed_from_…`, `cee_block_mk_nonzero`: a block without pointers -/
def rawMk (H : JHeap) (x : Nat) : JHeap :=
  { H with m := { H.m with h := newBlock H.m.h x [] }, tag := upd H.tag x none }

/-- `cee_tagged_mk (st, t, p)` (tagged.c:58-60) -/
def jsonMk (H : JHeap) (x : Nat) (t : Tag) (p : Nat) : Res JHeap :=
  (taggedMk H.m.h x (.rc, some p)).map fun h => { H with m := { H.m with h := h }, tag := upd H.tag x (some t) }

/-- `cee_json_double_mk`, `_i64_mk`, `_u64_mk`, `_blob_mk` (value.c:262-275, 307-312), and `cee_json_str_mk`, `_mkf` of a
string made for it (value.c:277-287) -/
def scalarMk (H : JHeap) (b x : Nat) (t : Tag) : Res JHeap := jsonMk (rawMk H b) x t b

/-- `cee_json_strn_mk` (value.c:314-319); the NULL pointer of the tagged block is left out, it is never followed -/
def strnMk (H : JHeap) (x : Nat) : JHeap :=
  { H with m := { H.m with h := newBlock H.m.h x [] }, tag := upd H.tag x (some .strn) }

/-- `cee_json_array_mk` (value.c:289-292) -/
def arrayMk (H : JHeap) (l x : Nat) : Res JHeap := jsonMk (rawMk H l) x .array l

/-- `cee_json_object_mk` (value.c:294-298) -/
def objectMk (H : JHeap) (m x : Nat) : Res JHeap :=
  jsonMk { H with m := mapMk H.m m .rc .rc, tag := upd H.tag m none } x .object m

/-- the pointer in a tagged block -/
def JHeap.held (H : JHeap) (j : Nat) : Ptr :=
  match H.m.h.kids j with
  | [(_, p)] => p
  | _ => none

/-- `cee_json_to_object`, `cee_json_to_array` (value.c:112-118), with the crash of the callers if the result is NULL
(e.g. value.c:408-409, 531-532) -/
def toPart (H : JHeap) (j : Nat) (t : Tag) : Res Nat :=
  if H.m.h.live j then
    if H.tag j = some t then
      match H.held j with
      | none => .segv
      | some p => .ok p
    else .segv
  else .ub

/-- a call of `cee_map_add` in the JSON interface -/
def putIn (eqv : Nat → Nat → Bool) (fuel : Nat) (H : JHeap) (m k v : Nat) : Res (Option JHeap) :=
  (mapAddS (traceS H.single fuel) eqv H.m m k (some v)).map fun r => r.map fun r => { H with m := r.1 }

/-- `cee_json_object_set` (value.c:405-414) for a `j` that is not NULL; `k` is the string made for the key.  `is_json`
(value.c:399-403) reads the tag of `v`. -/
def objectSet (eqv : Nat → Nat → Bool) (fuel : Nat) (H : JHeap) (j k : Nat) (v : Ptr) : Res (Option JHeap) :=
  (toPart H j .object).bind fun m =>
  match v with
  | none => .ub
  | some v =>
    if H.m.h.live v then
      if (H.tag v).isSome then
        if H.m.h.live m then putIn eqv fuel (rawMk H k) m k v else .ub
      else .segv
    else .ub

/-- `cee_json_object_set_str`, `_strf`, `_double`, `_i64`, `_u64` (value.c:457-506) -/
def objectSetScalar (eqv : Nat → Nat → Bool) (fuel : Nat) (H : JHeap) (j k b x : Nat) (t : Tag) : Res (Option JHeap) :=
  (toPart H j .object).bind fun m =>
  if H.m.h.live m then
    (scalarMk (rawMk H k) b x t).bind fun H => putIn eqv fuel H m k x
  else .ub

/-- `cee_json_object_set_null`, `_bool` (value.c:439-455) -/
def objectSetSingle (eqv : Nat → Nat → Bool) (fuel : Nat) (H : JHeap) (j k s : Nat) : Res (Option JHeap) :=
  (toPart H j .object).bind fun m =>
  if H.m.h.live m then putIn eqv fuel (singleton (rawMk H k) s) m k s else .ub

/-- `cee_json_object_remove` (value.c:373-379); `k` is the C string given -/
def objectRemove (eqv : Nat → Nat → Bool) (H : JHeap) (j k : Nat) : Res JHeap :=
  (toPart H j .object).bind fun m => (mapRemove eqv H.m m (some k)).map fun r => { H with m := r.1 }

/-- `cee_json_object_rename` (value.c:321-331); `k` and `k'` are the strings made for the keys -/
def objectRename (eqv : Nat → Nat → Bool) (fuel : Nat) (H : JHeap) (j k k' : Nat) : Res (Option (JHeap × Bool)) :=
  if H.m.h.live j then
    if H.tag j = some .object then
      match H.held j with
      | none => .ok (some (H, false))
      | some m =>
        if H.m.h.live m then
          let H := rawMk (rawMk H k) k'
          match mapRenameS (traceS H.single fuel) eqv H.m m k k' with
          | .ok (some (M, b)) =>
            (delWith (traceS H.single fuel) M.h (some k)).map fun r => r.map fun h => ({ H with m := { M with h := h } }, b)
          | .ok none => .ok none
          | .ub => .ub
          | .segv => .segv
        else .ub
    else .ok (some (H, false))
  else .ub

/-- `cee_json_array_append` (value.c:529-538) -/
def arrayAppend (H : JHeap) (j : Nat) (v : Ptr) : Res JHeap :=
  (toPart H j .array).bind fun l => (listAppend H.m.h l (.rc, v)).map H.on

/-- `cee_json_array_append_bool` (value.c:540-549) -/
def arrayAppendSingle (H : JHeap) (j s : Nat) : Res JHeap :=
  (toPart H j .array).bind fun l => (listAppend (singleton H s).m.h l (.rc, some s)).map H.on

/-- `cee_json_array_append_str`, `_strf` (value.c:551-578) -/
def arrayAppendScalar (H : JHeap) (j b x : Nat) (t : Tag) : Res JHeap :=
  (toPart H j .array).bind fun l =>
  if H.m.h.live l then
    (scalarMk H b x t).bind fun H => (listAppend H.m.h l (.rc, some x)).map H.on
  else .ub

/-- `cee_list_insert` (list.c:87-103) at an index that is not after the end -/
def listInsert (h : RHeap) (y i : Nat) (e : Edge) : Res RHeap :=
  if h.live y then incrIndegree { h with kids := upd h.kids y ((h.kids y).take i ++ e :: (h.kids y).drop i) } e else .ub

/-- `cee_json_array_insert` (value.c:518-527); after the end, memory that was never written is read later -/
def arrayInsert (H : JHeap) (j i : Nat) (v : Ptr) : Res JHeap :=
  (toPart H j .array).bind fun l =>
  if i ≤ (H.m.h.kids l).length then (listInsert H.m.h l i (.rc, v)).map H.on else .ub

/-- `cee_json_array_remove` (value.c:597-603) -/
def arrayRemove (H : JHeap) (j i : Nat) : Res JHeap :=
  (toPart H j .array).bind fun l => (listRemove H.m.h l i).map H.on

/-- the loop of `cee_json_array_concat` (value.c:622-624) from `i`; the size of `s` is read each time.  `ok none`: more
than `fuel` steps. -/
def concatLoop (d s : Nat) : Nat → RHeap → Nat → Res (Option RHeap)
  | fuel, h, i =>
    if h.live s then
      match (h.kids s)[i]? with
      | none => .ok (some h)
      | some e =>
        match fuel with
        | 0 => .ok none
        | fuel + 1 => (listAppend h d (.rc, e.2)).bind fun h => concatLoop d s fuel h (i + 1)
    else .ub

/-- `cee_json_array_concat` (value.c:615-625) -/
def arrayConcat (fuel : Nat) (H : JHeap) (d s : Nat) : Res (Option JHeap) :=
  (toPart H d .array).bind fun dl => (toPart H s .array).bind fun sl =>
  (concatLoop dl sl fuel H.m.h 0).map fun r => r.map H.on

/-- `cee_incr_indegree (CEE_DP_DEL_RC, p)`: the program takes a reference -/
def jsonTake (H : JHeap) (p : Ptr) : Res JHeap := (incrIndegree H.m.h (.rc, p)).map H.on

/-- `cee_del_ref` (cee-common.c:37-54) -/
def jsonDelRef (fuel : Nat) (H : JHeap) (p : Ptr) : Res (Option JHeap) :=
  (delRefWith (traceS H.single fuel) H.m.h p).map fun r => r.map H.on

/-- `cee_del` (cee-common.c:24-29) -/
def jsonDel (fuel : Nat) (H : JHeap) (p : Ptr) : Res (Option JHeap) :=
  (delWith (traceS H.single fuel) H.m.h p).map fun r => r.map H.on

end Verif.Rc
