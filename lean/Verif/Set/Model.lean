import Verif.Tree.Model

/-!
# Model of `set.c`

Elements are non-NULL pointers `E`; the comparator is `cmp : E → E → Int`.  Reference counts of
the elements and the trace chain are not modelled here (see `Heap`).
-/

namespace Verif.Set

open Tree (Tree tsearch tfind tdelete walk isFirst visited)

/-- `struct header` of set.c (14-21) without the bookkeeping section. -/
structure Set (E : Type) where
  tree : Tree E
  size : Nat
  pol : Policy

variable {E : Type}

/-- `cee_set_mk_e` (set.c:77-92). -/
def mkE (pol : Policy) : Set E := ⟨.nil, 0, pol⟩

/-- `cee_set_mk` (set.c:94-96). -/
def mkDefault : Set E := mkE .rc

/-- `cee_set_size` (set.c:98-101), non-NULL set. -/
def sizeOf (s : Set E) : Nat := s.size

/-- `cee_set_empty` (set.c:103-106), non-NULL set. -/
def isEmpty (s : Set E) : Bool := s.size == 0

/-- `cee_set_add` (set.c:112-127).  `musl_tsearch` returns the existing node or the new one; the
size grows exactly if the pointer in that node is `val`. -/
def add [DecidableEq E] (cmp : E → E → Int) (s : Set E) (val : E) : Res (Set E) :=
  match tsearch (cmp val) val s.tree with
  | .ok (some old, t) => if old ≠ val then .ok s else .ok { s with tree := t, size := s.size + 1 }
  | .ok (none, t) => .ok { s with tree := t, size := s.size + 1 }
  | .ub => .ub
  | .segv => .segv

/-- `cee_set_clear` (set.c:142-147). -/
def clear (s : Set E) : Set E := { s with tree := .nil, size := 0 }

/-- `cee_set_find` (set.c:149-156). -/
def find (cmp : E → E → Int) (s : Set E) (key : E) : Option E := tfind (cmp key) s.tree

/-- `cee_set_values` (set.c:172-179) with `S(get_value)` (158-170). -/
def values (s : Set E) : List E := visited s.tree

/-- `cee_set_remove` (set.c:181-192).  `size` is an unsigned 64-bit number; `h->size --`. -/
def remove (cmp : E → E → Int) (s : Set E) (key : E) : Res (Option E × Set E) :=
  match tfind (cmp key) s.tree with
  | none => .ok (none, s)
  | some k =>
    match tdelete (cmp key) s.tree with
    | .ok t => .ok (some k, { s with tree := t.getD s.tree,
                                     size := decr64 s.size })
    | .ub => .ub
    | .segv => .segv

/-- add the elements of a list in order -/
def addAll [DecidableEq E] (cmp : E → E → Int) (s : Set E) : List E → Res (Set E)
  | [] => .ok s
  | x :: xs =>
    match add cmp s x with
    | .ok s' => addAll cmp s' xs
    | .ub => .ub
    | .segv => .segv

/-- `cee_set_union_set` (set.c:194-214) for two sets with the same comparator function.  The loop
counters are `int`s compared with a `size_t`: exact for fewer than 2^31 elements, otherwise the
counter overflows (UB). -/
def union [DecidableEq E] (cmp : E → E → Int) (s1 s2 : Set E) : Res (Set E) :=
  if 2 ^ 31 ≤ (values s1).length ∨ 2 ^ 31 ≤ (values s2).length then .ub
  else
    match addAll cmp mkDefault (values s1) with
    | .ok s0 => addAll cmp s0 (values s2)
    | .ub => .ub
    | .segv => .segv

/-- `cee_set_iterate` (set.c:243-253) with `S(apply_each)` (228-241); the callback has state `σ`
and cannot stop the iteration. -/
def iterate (s : Set E) (f : σ → E → σ) (a : σ) : σ :=
  (walk s.tree 0).foldl (fun acc e => if isFirst e.2.1 then f acc e.1 else acc) a

/-- `cee_set_clone` (set.c:265-273) with `S(_add_v)` (256-260). -/
def clone [DecidableEq E] (cmp : E → E → Int) (s : Set E) : Res (Set E) :=
  iterate s (fun (acc : Res (Set E)) v =>
    match acc with
    | .ok d => add cmp d v
    | .ub => .ub
    | .segv => .segv) (.ok (mkE s.pol))

/-- `S(trace)` with `CEE_TRACE_DEL_FOLLOW` (set.c:53-57, 25-28): `musl_tdestroy(NULL, ...)` hands
the NULL context to `S(free_pair_follow)`, which dereferences it, for every node of the tree.
Only the outcome of the dereference is modelled. -/
def delFollow (s : Set E) : Res Unit :=
  match Tree.tdestroy s.tree with
  | [] => .ok ()
  | _ :: _ => .ub

end Verif.Set
