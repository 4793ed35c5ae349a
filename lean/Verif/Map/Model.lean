import Verif.Tree.Model

/-!
# Model of `map.c`

Keys are non-NULL pointers `K`; a key argument is `Option K` (`none` = NULL).  Values are
`Option V` (`none` = NULL).  The tree holds the tuples `(key, value)` (map.c:122-124); mutation of
a tuple through the pointer found in the tree is an update of the tree element.

Not modelled here: reference counts (see the `Heap` and `MapRc` models), the trace chain, memory
exhaustion.
-/

namespace Verif.Map

open Tree (Tree tsearch tfind tdelete descend unzip walk isFirst)

/-- `struct header` of map.c (14-29) without the bookkeeping section. -/
structure Map (K V : Type) where
  /-- `_[0]`, the search tree of tuples -/
  tree : Tree (K × Option V)
  /-- `insertion_ordered_keys` -/
  order : List K
  size : Nat
  kpol : Policy
  vpol : Policy

variable {K V : Type}

/-- `cee_map_mk_e` (map.c:83-104). -/
def mkE (kpol vpol : Policy) : Map K V := ⟨.nil, [], 0, kpol, vpol⟩

/-- `S(cmp)` (map.c:76-81) applied to the tuple carrying the searched key: compares first
components. -/
def keyCmp (cmp : K → K → Int) (key : K) : K × Option V → Int := fun e => cmp key e.1

/-- `t1->_[1] = new_value` (map.c:137): overwrite the value of the tuple found for `c`. -/
def setValue (c : K × Option V → Int) (t : Tree (K × Option V)) (v : Option V) :
    Tree (K × Option V) :=
  match descend c t [] with
  | (fs, .node e a0 a1 h) => unzip fs (.node (e.1, v) a0 a1 h)
  | (_, .nil) => t

/-- the value to store for an existing key (map.c:131-134): the callback decides, without callback
it is the given value. -/
def newValue (merge : Option (Option V → Option V → Option V)) (oldv value : Option V) : Option V :=
  match merge with
  | some f => f oldv value
  | none => value

/-- `cee_map_add_e` (map.c:117-148).  `merge = none` is a NULL function pointer; the callback is
modelled as a pure function of the two values.  Creating the tuple increments the in-degree of the
value unless its policy is NOOP (tuple.c:60), which dereferences the value: NULL is UB; the same
holds for the decrement of the old value (138).  `*oldp != t` holds exactly if an existing node was
returned, because `t` is a fresh tuple.  The store is skipped when `new_value == old_value`. -/
def addE [DecidableEq V] (cmp : K → K → Int) (m : Map K V) (key : Option K) (value : Option V)
    (merge : Option (Option V → Option V → Option V)) : Res (Option V × Map K V) :=
  match key with
  | none => .ok (none, m)
  | some k =>
    if value = none ∧ m.vpol ≠ .noop then .ub
    else
      match tsearch (keyCmp cmp k) (k, value) m.tree with
      | .ok (some t1, _) =>
        let oldv := t1.2
        let newv := newValue merge oldv value
        if newv = oldv then .ok (oldv, m)
        else if oldv = none ∧ m.vpol ≠ .noop then .ub
        else .ok (oldv, { m with tree := setValue (keyCmp cmp k) m.tree newv })
      | .ok (none, t') =>
        .ok (none, { m with tree := t', order := m.order ++ [k], size := m.size + 1 })
      | .ub => .ub
      | .segv => .segv

/-- `cee_map_add` (map.c:150-152). -/
def add [DecidableEq V] (cmp : K → K → Int) (m : Map K V) (key : Option K) (value : Option V) :
    Res (Option V × Map K V) := addE cmp m key value none

/-- `cee_map_find` (map.c:154-165). -/
def find (cmp : K → K → Int) (m : Map K V) (key : Option K) : Option V :=
  match key with
  | none => none
  | some k =>
    match tfind (keyCmp cmp k) m.tree with
    | none => none
    | some e => e.2

/-- `cee_map_size` (map.c:111-115), non-NULL map. -/
def sizeOf (m : Map K V) : Nat := m.size

/-- the loop of `cee_map_ordered_key_delete` (map.c:167-178): `n` iterations left, `pre` the keys
already passed (reversed); running off the end is `cee_segfault()`. -/
def orderDelete (cmp : K → K → Int) (key : K) : Nat → List K → Res (List K)
  | 0, _ => .segv
  | _ + 1, [] => .ub
  | n + 1, k :: ks =>
    if cmp key k = 0 then .ok ks
    else
      match orderDelete cmp key n ks with
      | .ok r => .ok (k :: r)
      | .ub => .ub
      | .segv => .segv

/-- `cee_map_remove` (map.c:180-200).  The loop bound of the ordered-key deletion is the list size
converted to `int` (map.c:168). -/
def remove (cmp : K → K → Int) (m : Map K V) (key : Option K) : Res (Option V × Map K V) :=
  match key with
  | none => .ok (none, m)
  | some k =>
    let c := keyCmp cmp k
    match tfind c m.tree with
    | none => .ok (none, m)
    | some old =>
      if old.2 = none ∧ m.vpol ≠ .noop then .ub   -- cee_decr_indegree of NULL (map.c:193)
      else
      match tdelete c m.tree with
      | .ok t' =>
        match orderDelete cmp k (cInt m.order.length).toNat m.order with
        | .ok o' => .ok (old.2, { m with tree := t'.getD m.tree, order := o', size := m.size - 1 })
        | .ub => .ub
        | .segv => .segv
      | .ub => .ub
      | .segv => .segv

/-- `cee_map_rename` (map.c:202-210). -/
def rename [DecidableEq V] (cmp : K → K → Int) (m : Map K V) (oldKey newKey : Option K) :
    Res (Bool × Map K V) :=
  if oldKey = none ∨ newKey = none then .ok (false, m)
  else
    match remove cmp m oldKey with
    | .ok (some v, m') =>
      match add cmp m' newKey (some v) with
      | .ok (_, m'') => .ok (true, m'')
      | .ub => .ub
      | .segv => .segv
    | .ok (none, m') => .ok (false, m')
    | .ub => .ub
    | .segv => .segv

/-- `cee_map_keys` (map.c:225-231): walk, appending the key at preorder/leaf visits. -/
def keys (m : Map K V) : List K :=
  ((walk m.tree 0).filter (fun e => isFirst e.2.1)).map (fun e => e.1.1)

/-- `cee_map_values` (map.c:258-264). -/
def values (m : Map K V) : List (Option V) :=
  ((walk m.tree 0).filter (fun e => isFirst e.2.1)).map (fun e => e.1.2)

/-- `cee_map_insertion_ordered_keys` (map.c:233-242) (a copy of the list; list sizes below 2^31,
the loop counter is an `int`). -/
def insertionOrderedKeys (m : Map K V) : List K := m.order

/-- `cee_map_iterate` (map.c:300-307) with `S(apply_each)` (279-295): every visit first tests
`ret`; the callback runs at preorder/leaf visits only.  The callback has state `σ` (the memory
behind `ctx`). -/
def iterate (m : Map K V) (f : σ → K → Option V → Int × σ) (s : σ) : Int × σ :=
  (walk m.tree 0).foldl
    (fun acc e =>
      if acc.1 ≠ 0 then acc
      else if isFirst e.2.1 then f acc.2 e.1.1 e.1.2
      else acc) (0, s)

/-- `cee_map_merge` (map.c:326-330) with `_add_kv` (316-320), `dest` and `src` distinct maps: add
every visited pair of `src` to `dest`. -/
def merge [DecidableEq V] (cmp : K → K → Int) (dest src : Map K V)
    (f : Option (Option V → Option V → Option V)) : Res (Map K V) :=
  (walk src.tree 0).foldl
    (fun acc e =>
      match acc with
      | .ok d =>
        if isFirst e.2.1 then
          match addE cmp d (some e.1.1) e.1.2 f with
          | .ok (_, d') => .ok d'
          | .ub => .ub
          | .segv => .segv
        else .ok d
      | .ub => .ub
      | .segv => .segv) (.ok dest)

/-- `cee_map_clone` (map.c:332-337). -/
def clone [DecidableEq V] (cmp : K → K → Int) (src : Map K V) : Res (Map K V) :=
  merge cmp (mkE src.kpol src.vpol) src none

end Verif.Map
