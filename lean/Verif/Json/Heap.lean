import Verif.Map.Props
import Verif.Json.Value

/-!
# JSON values in memory (cee-json/value.c)

The operations of value.c that change values work on shared, mutable nodes.  Here a heap is a list of nodes
and a pointer is an index into it.  An object node holds a `cee_map` (the model of map.c, with its search
tree), an array node the list of its elements (`cee_list`, see C10).  Reference counts are left out (see the
`Rc` model), and so are the two singletons for `true` and `false` and the one for `null`: there may be any
number of such nodes.
-/

namespace Verif.Json

open Tree (visited)

/-- `strcmp`: the difference of the first bytes that differ (only the sign means something) -/
def strcmp : List Byte → List Byte → Int
  | [], [] => 0
  | [], _ :: _ => -1
  | _ :: _, [] => 1
  | a :: s, b :: t => if a = b then strcmp s t else if a < b then -1 else 1

/-- the map behind an object (`cee_map_mk (st, strcmp)`, value.c:294-298) -/
abbrev ObjMap := Map.Map (List Byte) Nat

/-- `struct cee_json` (cee-json.h:33-48) in memory -/
inductive Node where
  | atom (a : Atom)
  | arr (xs : List Nat)
  | obj (m : ObjMap)

/-- the nodes; a pointer is an index -/
abbrev Heap := List Node

/-! ## making the nodes of a value -/

/-- the entries of an object that is read, added one after the other (parser.c:131-166) -/
def entries (m : ObjMap) : List (List Byte × Nat) → Res ObjMap
  | [] => .ok m
  | (k, v) :: l => (Map.add strcmp m (some k) (some v)).bind fun r => entries r.2 l

mutual
/-- the nodes that `cee_json_parsex` (parser.c:69-231) makes for the value it reads, and the pointer to the
first.  (The parser makes the node of a container before those in it; which address a node has says nothing.) -/
def place : Heap → Val → Res (Nat × Heap)
  | h, .atom a => .ok (h.length, h ++ [.atom a])
  | h, .arr xs => (placeL h xs).map fun r => (r.2.length, r.2 ++ [.arr r.1])
  | h, .obj kvs => (placeF h kvs).bind fun r => (entries (Map.mkE .rc .rc) r.1).map fun m =>
      (r.2.length, r.2 ++ [.obj m])
/-- the nodes of the elements of an array -/
def placeL : Heap → List Val → Res (List Nat × Heap)
  | h, [] => .ok ([], h)
  | h, x :: xs => (place h x).bind fun r => (placeL r.2 xs).map fun r' => (r.1 :: r'.1, r'.2)
/-- the nodes of the values of an object -/
def placeF : Heap → List (List Byte × Val) → Res (List (List Byte × Nat) × Heap)
  | h, [] => .ok ([], h)
  | h, (k, x) :: xs => (place h x).bind fun r => (placeF r.2 xs).map fun r' => ((k, r.1) :: r'.1, r'.2)
end

/-! ## `cee_json_has` -/

/-- iterating until the callback returns nonzero: the callback gives `(stop, found)`; `none` stands for fuel
used up -/
def iterFound (f : α → Res (Option (Bool × Option Nat))) : List α → Option Nat → Res (Option (Option Nat))
  | [], found => .ok (some found)
  | a :: l, _ =>
    (f a).bind fun r =>
    match r with
    | none => .ok none
    | some (true, found) => .ok (some found)
    | some (false, found) => iterFound f l found

/-- `find_in_elem` (value.c:77-81); `rec` is `cee_json_has` -/
def findInElem (rec : Nat → Res (Option (Option Nat))) (val : Nat) : Res (Option (Bool × Option Nat)) :=
  (rec val).map fun r => r.map fun found => (found.isSome, found)

/-- `match_key` (value.c:83-91) -/
def matchKey (rec : Nat → Res (Option (Option Nat))) (key : List Byte) (e : List Byte × Option Nat) :
    Res (Option (Bool × Option Nat)) :=
  if strcmp e.1 key = 0 then .ok (some (true, e.2))
  else
    match e.2 with
    | none => .ub
    | some val => (rec val).map fun r => r.map fun found => (found.isSome, found)

/-- `cee_json_has` (value.c:93-110), at most `n` calls deep.  The counter of `cee_list_iterate` is an `int`. -/
def has (h : Heap) (key : List Byte) : Nat → Nat → Res (Option (Option Nat))
  | 0, _ => .ok none
  | n + 1, j =>
    match h[j]? with
    | none => .ub
    | some (.atom _) => .ok (some none)
    | some (.arr xs) => if 2 ^ 31 ≤ xs.length then .ub else iterFound (findInElem (has h key n)) xs none
    | some (.obj m) => iterFound (matchKey (has h key n) key) (visited m.tree) none

/-! ## `cee_json_merge` -/

/-- `cee_list_merge` (list.c:134-155): the size of `src` and its element are read anew in every turn; the
counter is an `int`; `none`: more than `n` turns -/
def mergeArr (d s : Nat) : Nat → Nat → Heap → Res (Option Heap)
  | 0, _, _ => .ok none
  | n + 1, i, h =>
    match h[d]?, h[s]? with
    | some (.arr ys), some (.arr xs) =>
      match xs[i]? with
      | none => .ok (some h)
      | some x => if i = 2 ^ 31 - 1 then .ub else mergeArr d s n (i + 1) (h.set d (.arr (ys ++ [x])))
    | _, _ => .ub

/-- `_add_kv` (map.c:316-320) with `merge_json_value` (value.c:211-218): adding an entry of the source to the
destination `d`; `rec` is `cee_json_merge`.  `cee_map_add_e` calls it when the key is there. -/
def mergeKv (rec : Heap → Nat → Nat → Res (Option (Bool × Heap))) (d : Nat) (k : List Byte) (v : Option Nat)
    (h : Heap) : Res (Option Heap) :=
  match h[d]? with
  | some (.obj m) =>
    match Map.find strcmp m (some k) with
    | none => (Map.addE strcmp m (some k) v none).map fun r => some (h.set d (.obj r.2))
    | some old =>
      match v with
      | none => .ub
      | some v =>
        (rec h old v).bind fun r =>
        match r with
        | none => .ok none
        | some (merged, h) =>
          match h[d]? with
          | some (.obj m) =>
            (Map.addE strcmp m (some k) (some v) (some fun _ _ => some (if merged then old else v))).map
              fun r => some (h.set d (.obj r.2))
          | _ => .ub
  | _ => .ub

/-- the loop of `cee_map_merge` (map.c:326-330) over the entries of the source, which are read before the
first one is added (the source must not be inside the destination) -/
def mergeKvs (rec : Heap → Nat → Nat → Res (Option (Bool × Heap))) (d : Nat) :
    List (List Byte × Option Nat) → Heap → Res (Option Heap)
  | [], h => .ok (some h)
  | (k, v) :: l, h =>
    (mergeKv rec d k v h).bind fun r =>
    match r with
    | none => .ok none
    | some h => mergeKvs rec d l h

/-- `cee_json_merge` (value.c:231-249) for pointers that are not NULL, at most `n` calls deep and at most `n`
turns of each loop over an array.  Two atoms of the same type are not merged (value.c:245). -/
def merge : Nat → Heap → Nat → Nat → Res (Option (Bool × Heap))
  | 0, _, _, _ => .ok none
  | n + 1, h, d, s =>
    match h[d]?, h[s]? with
    | some (.obj _), some (.obj ms) =>
      (mergeKvs (merge n) d (visited ms.tree) h).map fun r => r.map fun h => (true, h)
    | some (.arr _), some (.arr _) =>
      (mergeArr d s n 0 h).map fun r => r.map fun h => (true, h)
    | some _, some _ => .ok (some (false, h))
    | _, _ => .ub

/-! ## objects and arrays -/

/-- `cee_json_object_get` (value.c:365-371) -/
def objGet (h : Heap) (j : Nat) (key : List Byte) : Res (Option Nat) :=
  match h[j]? with
  | some (.obj m) => .ok (Map.find strcmp m (some key))
  | some _ => .segv
  | none => .ub

/-- `cee_json_object_set` (value.c:405-414), neither pointer NULL -/
def objSet (h : Heap) (j : Nat) (key : List Byte) (v : Nat) : Res Heap :=
  match h[j]? with
  | some (.obj m) =>
    if v < h.length then (Map.add strcmp m (some key) (some v)).map fun r => h.set j (.obj r.2)
    else .ub
  | some _ => .segv
  | none => .ub

/-- `cee_json_object_remove` (value.c:373-379) -/
def objRemove (h : Heap) (j : Nat) (key : List Byte) : Res Heap :=
  match h[j]? with
  | some (.obj m) => (Map.remove strcmp m (some key)).map fun r => h.set j (.obj r.2)
  | some _ => .segv
  | none => .ub

/-- `cee_json_object_rename` (value.c:321-331) -/
def objRename (h : Heap) (j : Nat) (old new : List Byte) : Res (Bool × Heap) :=
  match h[j]? with
  | some (.obj m) => (Map.rename strcmp m (some old) (some new)).map fun r => (r.1, h.set j (.obj r.2))
  | some _ => .ok (false, h)
  | none => .ub

/-- `cee_json_array_append` (value.c:529-537) -/
def arrAppend (h : Heap) (j v : Nat) : Res Heap :=
  match h[j]? with
  | some (.arr xs) => .ok (h.set j (.arr (xs ++ [v])))
  | some _ => .segv
  | none => .ub

/-- the loop of `cee_json_array_concat` (value.c:622-624); `none`: more than `n` turns -/
def concatLoop (d s : Nat) : Nat → Nat → Heap → Res (Option Heap)
  | 0, _, _ => .ok none
  | n + 1, i, h =>
    match h[d]?, h[s]? with
    | some (.arr ys), some (.arr xs) =>
      match xs[i]? with
      | none => .ok (some h)
      | some x => if i = 2 ^ 31 - 1 then .ub else concatLoop d s n (i + 1) (h.set d (.arr (ys ++ [x])))
    | _, _ => .ub

/-- `cee_json_array_concat` (value.c:615-625) -/
def arrConcat (n : Nat) (h : Heap) (d s : Nat) : Res (Option Heap) :=
  match h[d]?, h[s]? with
  | some (.arr _), some (.arr _) => concatLoop d s n 0 h
  | some _, some _ => .segv
  | _, _ => .ub

/-- `cee_json_listify` (value.c:50-70).  For an object it calls `cee_get_state` with the result of
`cee_json_to_str`, which is NULL. -/
def listify (h : Heap) (j : Nat) : Res (Nat × Heap) :=
  match h[j]? with
  | some (.arr _) => .ok (j, h)
  | some (.obj _) => .ub
  | some (.atom (.str _)) => .ok (h.length, h ++ [.arr [j]])
  | some (.atom _) => .segv
  | none => .ub

/-- what is added to the array `l` (value.c:420-424, 427-430): the elements of an array, or the value -/
def addTo (n : Nat) (h : Heap) (l v : Nat) : Res (Option Heap) :=
  match h[v]? with
  | some (.arr _) => arrConcat n h l v
  | some _ => (arrAppend h l v).map some
  | none => .ub

/-- `cee_json_object_append` (value.c:416-437), neither pointer NULL -/
def objAppend (n : Nat) (h : Heap) (j : Nat) (key : List Byte) (v : Nat) : Res (Option Heap) :=
  (objGet h j key).bind fun old =>
  match old with
  | none => (objSet h j key v).map some
  | some old =>
    match h[old]? with
    | none => .ub
    | some (.arr _) => addTo n h old v
    | some _ =>
      (listify h old).bind fun (l, h) =>
      (addTo n h l v).bind fun r =>
      match r with
      | none => .ok none
      | some h => (objSet h j key l).map some

end Verif.Json
