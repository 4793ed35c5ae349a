import Verif.Own.Model

/-!
# Walks over maps and sets while memory changes

`cee_map_keys`, `cee_map_values`, `cee_map_insertion_ordered_keys`, `cee_map_merge`, `cee_map_clone`, `cee_set_values`, `cee_set_clone`
and `cee_set_union_set` in the memory of `Verif.Own.Model`.  A walk reads each node when it gets there and again when it comes back to it; in between
the action allocates, moves arrays and changes trees.

Simplifications as in `Verif.Own.Model`.  The fields `size` are left out there, so the capacity of a new list is given.  `cee_map_merge` without
a merge function.
-/

namespace Verif.Own

open Verif.Chain (upd)

variable (al : Malloc)

/-- `*r` in `walk` (musl-tsearch.c:144-151) -/
def rdNode (s : St) (r : Nat) : Res (TreeMem.TNode Nat) :=
  match s.mem r with
  | some (.node n) => .ok n
  | _ => .ub

/-- `walk` (musl-tsearch.c:139-153) with an action that does something only when it meets a node for the first time (`case preorder: case leaf:`),
and then gets the key; recursion deeper than `fuel` counts as undefined.  The action works on the memory `st x` and on data of its own. -/
def walk {σ : Type} (st : σ → St) (act : σ → Nat → Res σ) : Nat → σ → Nat → Res σ
  | 0, _, _ => .ub
  | fuel + 1, s, r =>
    if r = 0 then .ok s
    else
      (rdNode (st s) r).bind fun n =>
      if n.h = 1 then act s n.key
      else
        (act s n.key).bind fun s =>
        (rdNode (st s) r).bind fun n =>
        (walk st act fuel s n.a0).bind fun s =>
        (rdNode (st s) r).bind fun n => walk st act fuel s n.a1

/-! ## Maps -/

/-- `S(get_key)` (map.c:212-223) -/
def getKey (l : Nat) (s : St) (t : Nat) : Res St := (pairOf s t).bind fun kv => append al s l (ptr kv.1)

/-- `S(get_value)` (map.c:245-256) -/
def getValue (l : Nat) (s : St) (t : Nat) : Res St := (pairOf s t).bind fun kv => append al s l (ptr kv.2)

/-- `cee_map_keys` (map.c:225-231); `n` is the size of the map -/
def mapKeys (s : St) (m n : Nat) : Res (St × Nat) :=
  (getObj s m).bind fun o =>
  match o with
  | .map _ _ _ _ root =>
    (listMk al s n).bind fun r => (walk id (getKey al r.2) 96 r.1 root).bind fun s => .ok (s, r.2)
  | _ => .ub

/-- `cee_map_values` (map.c:258-264) -/
def mapValues (s : St) (m n : Nat) : Res (St × Nat) :=
  (getObj s m).bind fun o =>
  match o with
  | .map _ _ _ _ root =>
    (listMk al s n).bind fun r => (walk id (getValue al r.2) 96 r.1 root).bind fun s => .ok (s, r.2)
  | _ => .ub

/-- the array and the size of a list -/
def listOf (s : St) (k : Nat) : Res (Nat × Nat) :=
  (getObj s k).bind fun o =>
  match o with
  | .list size _ a => .ok (size, a)
  | _ => .ub

/-- the loop of `cee_map_insertion_ordered_keys` (map.c:238-240): `n` rounds left, from index `i` -/
def copyList (k l : Nat) : Nat → Nat → St → Res St
  | 0, _, s => .ok s
  | n + 1, i, s =>
    (listOf s k).bind fun x =>
    (getCells s x.2).bind fun cs =>
    (CList.rd cs i).bind fun e =>
    (append al s l e).bind fun s => copyList k l n (i + 1) s

/-- `cee_map_insertion_ordered_keys` (map.c:233-242) -/
def mapOrderedKeys (s : St) (m : Nat) : Res (St × Nat) :=
  (getObj s m).bind fun o =>
  match o with
  | .map _ _ _ k _ =>
    (listOf s k).bind fun x =>
    (listMk al s x.1).bind fun r => (copyList al k r.2 x.1 0 r.1).bind fun s => .ok (s, r.2)
  | _ => .ub

/-- `S(_add_kv)` under `S(apply_each)` (map.c:279-295, 316-320) without a merge function; it returns 0, so that no node is skipped -/
def addKv (dest : Nat) (s : St) (t : Nat) : Res St :=
  (pairOf s t).bind fun kv => (mapAdd al s dest kv.1 kv.2).bind fun r => .ok r.1

/-- `cee_map_merge(dest, src, NULL, NULL)` (map.c:300-307, 326-330) -/
def mapMerge (s : St) (dest src : Nat) : Res St :=
  (getObj s src).bind fun o =>
  match o with
  | .map _ _ _ _ root => walk id (addKv al dest) 96 s root
  | _ => .ub

/-- `cee_map_clone` (map.c:332-337) -/
def mapClone (s : St) (src : Nat) : Res (St × Nat) :=
  (getObj s src).bind fun o =>
  match o with
  | .map kp vp cmp _ _ => (mapMk al s kp vp cmp).bind fun r => (mapMerge al r.1 r.2 src).bind fun s => .ok (s, r.2)
  | _ => .ub

/-! ## Sets -/

/-- `cee_set_values` (set.c:158-179); `n` is the size of the set -/
def setValues (s : St) (p n : Nat) : Res (St × Nat) :=
  (getObj s p).bind fun o =>
  match o with
  | .set _ _ root =>
    (listMk al s n).bind fun r =>
    (walk id (fun s x => append al s r.2 (ptr x)) 96 r.1 root).bind fun s => .ok (s, r.2)
  | _ => .ub

/-- `cee_set_clone` (set.c:265-273), with `cee_set_iterate` (set.c:228-253) and `S(_add_v)` (256-260) -/
def setClone (s : St) (p : Nat) : Res (St × Nat) :=
  (getObj s p).bind fun o =>
  match o with
  | .set pol cmp root =>
    (setMk al s pol cmp).bind fun r => (walk id (fun s x => setAdd al s r.2 x) 96 r.1 root).bind fun s => .ok (s, r.2)
  | _ => .ub

/-- the loops of `cee_set_union_set` (set.c:202-206); the list is read anew in every round -/
def addList (p v : Nat) : Nat → Nat → St → Res St
  | 0, _, _ => .ub
  | fuel + 1, i, s =>
    (listOf s v).bind fun x =>
    if i < x.1 then
      (getCells s x.2).bind fun cs =>
      (CList.rd cs i).bind fun e =>
      (setAdd al s p (e.getD 0)).bind fun s => addList p v fuel (i + 1) s
    else .ok s

/-- `cee_set_union_set` (set.c:194-214) for sets of the state, `n1` and `n2` their sizes; `same`: the two function pointers are equal.  The loops end, because
the lists do not change; `fuel` limits them.  With the elements given to `cee_del_e` when the lists are deleted. -/
def setUnion (fuel : Nat) (s : St) (same : Bool) (p1 p2 n1 n2 : Nat) : Res (St × Nat × List (Option Nat)) :=
  (getObj s p1).bind fun o1 =>
  (getObj s p2).bind fun o2 =>
  match o1, o2 with
  | .set _ cmp _, .set _ _ _ =>
    if same then
      (setMk al s .rc cmp).bind fun r0 =>
      (setValues al r0.1 p1 n1).bind fun v1 =>
      (setValues al v1.1 p2 n2).bind fun v2 =>
      (addList al r0.2 v1.2 fuel 0 v2.1).bind fun s =>
      (addList al r0.2 v2.2 fuel 0 s).bind fun s =>
      (listDel s v1.2).bind fun d1 =>
      (listDel d1.1 v2.2).bind fun d2 => .ok (d2.1, r0.2, d1.2 ++ d2.2)
    else .segv
  | _, _ => .ub

end Verif.Own
