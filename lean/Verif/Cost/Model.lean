import Verif.Map.Props
import Verif.Set.Props

/-!
# Counting the calls of the comparison (map.c, set.c, musl-tsearch.c)

The models of the tree, of maps and of sets are given the comparison as a function, so that nothing can be said about how
often it is called.  Here the same functions are programs that can only ask: a program gets no comparison, it names two
keys and goes on with the answer.  `run` answers with a comparison, `calls` lists what was asked, in order.
-/

namespace Verif.Cost

open Tree (Tree Frame descend fixup unzip goRight MAXH walk isFirst)
open Map (Map)
open Map.Spec (Op Out)

/-- a program that asks for comparisons of keys `K` and returns an `α` -/
inductive Asks (K α : Type) where
  | ret (a : α)
  | ask (x y : K) (next : Int → Asks K α)

namespace Asks

variable {K α β : Type}

/-- one program after the other -/
def bind : Asks K α → (α → Asks K β) → Asks K β
  | ret a, f => f a
  | ask x y next, f => ask x y fun c => bind (next c) f

/-- the result, when the comparison is `cmp` -/
def run (cmp : K → K → Int) : Asks K α → α
  | ret a => a
  | ask x y next => run cmp (next (cmp x y))

/-- the calls of the comparison, in order, with their arguments -/
def calls (cmp : K → K → Int) : Asks K α → List (K × K)
  | ret _ => []
  | ask x y next => (x, y) :: calls cmp (next (cmp x y))

/-- change the result -/
def map (f : α → β) (p : Asks K α) : Asks K β := p.bind fun a => ret (f a)

@[simp] theorem run_ret (cmp : K → K → Int) (a : α) : (ret a : Asks K α).run cmp = a := rfl

@[simp] theorem calls_ret (cmp : K → K → Int) (a : α) : (ret a : Asks K α).calls cmp = [] := rfl

@[simp] theorem run_bind (cmp : K → K → Int) (p : Asks K α) (f : α → Asks K β) :
    (p.bind f).run cmp = (f (p.run cmp)).run cmp := by
  induction p with
  | ret a => rfl
  | ask x y next ih => exact ih _

@[simp] theorem calls_bind (cmp : K → K → Int) (p : Asks K α) (f : α → Asks K β) :
    (p.bind f).calls cmp = p.calls cmp ++ (f (p.run cmp)).calls cmp := by
  induction p with
  | ret a => rfl
  | ask x y next ih => simp only [bind, calls, run, ih, List.cons_append]

@[simp] theorem run_map (cmp : K → K → Int) (p : Asks K α) (f : α → β) : (p.map f).run cmp = f (p.run cmp) := by
  simp [map]

@[simp] theorem calls_map (cmp : K → K → Int) (p : Asks K α) (f : α → β) : (p.map f).calls cmp = p.calls cmp := by
  simp [map]

end Asks

open Asks

variable {K E : Type}

/-! ## the search tree; `of` gives the key of an element -/

/-- the descent (musl-tsearch.c:88-96, 177-185): one call for each node on the way -/
def descendQ (key : K) (of : E → K) : Tree E → List (Frame E) → Asks K (List (Frame E) × Tree E)
  | .nil, fs => ret (fs, .nil)
  | .node k a0 a1 h, fs => ask key (of k) fun c =>
    if c = 0 then ret (fs, .node k a0 a1 h)
    else if c > 0 then descendQ key of a1 (⟨true, k, a0, h⟩ :: fs)
    else descendQ key of a0 (⟨false, k, a1, h⟩ :: fs)

/-- `musl_tsearch` (musl-tsearch.c:77-107): the place where the descent ended, and the result -/
def tsearchQ (key : K) (of : E → K) (new : E) (root : Tree E) :
    Asks K ((List (Frame E) × Tree E) × Res (Option E × Tree E)) :=
  (descendQ key of root []).bind fun p => ret (p,
    if MAXH < p.1.length + 1 then .ub
    else
      match p.2 with
      | .node k _ _ _ => .ok (some k, root)
      | .nil => (fixup p.1 (.node new .nil .nil 1)).map fun t => (none, t))

/-- `musl_tfind` (musl-tsearch.c:122-137) -/
def tfindQ (key : K) (of : E → K) : Tree E → Asks K (Option E)
  | .nil => ret none
  | .node k a0 a1 _ => ask key (of k) fun c =>
    if c = 0 then ret (some k) else if c > 0 then tfindQ key of a1 else tfindQ key of a0

/-- `musl_tdelete` (musl-tsearch.c:162-209): behind the descent the comparison is not called any more -/
def tdeleteQ (key : K) (of : E → K) (root : Tree E) : Asks K (Res (Option (Tree E))) :=
  (descendQ key of root []).bind fun p => ret <|
    if MAXH + 1 < p.1.length + 2 then .ub
    else
      match p.2 with
      | .nil => .ok none
      | .node _ .nil a1 _ => (fixup p.1 a1).map some
      | .node _ (.node lk l0 l1 lh) a1 h =>
        let g := goRight lk l0 l1 lh []
        let fs := g.1 ++ (⟨false, g.2.1, a1, h⟩ : Frame E) :: p.1
        if MAXH + 1 < fs.length + 2 then .ub else (fixup fs g.2.2).map some

/-! ## maps -/

variable {V : Type}

/-- `t1->_[1] = new_value` (map.c:137) through the pointer to the node that was found -/
def setAt (p : List (Frame (K × Option V)) × Tree (K × Option V)) (t : Tree (K × Option V)) (v : Option V) :
    Tree (K × Option V) :=
  match p with
  | (fs, .node e a0 a1 h) => unzip fs (.node (e.1, v) a0 a1 h)
  | (_, .nil) => t

/-- `cee_map_add_e` (map.c:117-148) -/
def addEQ [DecidableEq V] (m : Map K V) (key : Option K) (value : Option V)
    (merge : Option (Option V → Option V → Option V)) : Asks K (Res (Option V × Map K V)) :=
  match key with
  | none => ret (.ok (none, m))
  | some k =>
    if value = none ∧ m.vpol ≠ .noop then ret .ub
    else (tsearchQ k Prod.fst (k, value) m.tree).bind fun r => ret <|
      r.2.bind fun
      | (some t1, _) =>
        let newv := Map.newValue merge t1.2 value
        if newv = t1.2 then .ok (t1.2, m)
        else if t1.2 = none ∧ m.vpol ≠ .noop then .ub
        else .ok (t1.2, { m with tree := setAt r.1 m.tree newv })
      | (none, t') => .ok (none, { m with tree := t', order := m.order ++ [k], size := m.size + 1 })

/-- `cee_map_add` (map.c:150-152) -/
def addQ [DecidableEq V] (m : Map K V) (key : Option K) (value : Option V) : Asks K (Res (Option V × Map K V)) :=
  addEQ m key value none

/-- `cee_map_find` (map.c:154-165) -/
def findQ (m : Map K V) (key : Option K) : Asks K (Option V) :=
  match key with
  | none => ret none
  | some k => (tfindQ k Prod.fst m.tree).map fun o => o.bind Prod.snd

/-- the loop of `cee_map_ordered_key_delete` (map.c:167-178): one call in each turn -/
def orderDeleteQ (key : K) : Nat → List K → Asks K (Res (List K))
  | 0, _ => ret .segv
  | _ + 1, [] => ret .ub
  | n + 1, k :: ks => ask key k fun c =>
    if c = 0 then ret (.ok ks) else (orderDeleteQ key n ks).map fun r => r.map (k :: ·)

/-- `cee_map_remove` (map.c:180-200): the tree is searched twice, then the list of the keys -/
def removeQ (m : Map K V) (key : Option K) : Asks K (Res (Option V × Map K V)) :=
  match key with
  | none => ret (.ok (none, m))
  | some k => (tfindQ k Prod.fst m.tree).bind fun
    | none => ret (.ok (none, m))
    | some old =>
      if old.2 = none ∧ m.vpol ≠ .noop then ret .ub
      else (tdeleteQ k Prod.fst m.tree).bind fun
        | .ok t' => (orderDeleteQ k (cInt m.order.length).toNat m.order).map fun r => r.map fun o' =>
            (old.2, { m with tree := t'.getD m.tree, order := o', size := m.size - 1 })
        | .ub => ret .ub
        | .segv => ret .segv

/-- `cee_map_rename` (map.c:202-210) -/
def renameQ [DecidableEq V] (m : Map K V) (oldKey newKey : Option K) : Asks K (Res (Bool × Map K V)) :=
  match oldKey, newKey with
  | some _, some _ => (removeQ m oldKey).bind fun
    | .ok (some v, m') => (addQ m' newKey (some v)).map fun r => r.map fun q => (true, q.2)
    | .ok (none, m') => ret (.ok (false, m'))
    | .ub => ret .ub
    | .segv => ret .segv
  | _, _ => ret (.ok (false, m))

/-- the visits of `cee_map_merge` (map.c:316-330): one addition for each key of the source -/
def mergeQ [DecidableEq V] (f : Option (Option V → Option V → Option V)) :
    List ((K × Option V) × Tree.Visit × Nat) → Map K V → Asks K (Res (Map K V))
  | [], d => ret (.ok d)
  | e :: l, d =>
    if isFirst e.2.1 then (addEQ d (some e.1.1) e.1.2 f).bind fun
      | .ok (_, d') => mergeQ f l d'
      | .ub => ret .ub
      | .segv => ret .segv
    else mergeQ f l d

/-- an operation on a map -/
def execQ [DecidableEq V] (m : Map K V) : Op K V → Asks K (Res (Out V × Map K V))
  | .add k v => (addQ m k v).map fun r => r.map fun r => (.ptr r.1, r.2)
  | .addE k v f => (addEQ m k v (some f)).map fun r => r.map fun r => (.ptr r.1, r.2)
  | .remove k => (removeQ m k).map fun r => r.map fun r => (.ptr r.1, r.2)
  | .rename k k' => (renameQ m k k').map fun r => r.map fun r => (.bool r.1, r.2)
  | .find k => (findQ m k).map fun v => .ok (.ptr v, m)
  | .size => ret (.ok (.num (Map.sizeOf m), m))

/-- one operation after the other -/
def execAllQ [DecidableEq V] (m : Map K V) : List (Op K V) → Asks K (Res (List (Out V) × Map K V))
  | [] => ret (.ok ([], m))
  | op :: ops => (execQ m op).bind fun
    | .ok r => (execAllQ r.2 ops).map fun q => q.map fun r' => (r.1 :: r'.1, r'.2)
    | .ub => ret .ub
    | .segv => ret .segv

/-! ## sets -/

/-- `cee_set_add` (set.c:112-127) -/
def setAddQ [DecidableEq E] (s : Set.Set E) (val : E) : Asks E (Res (Set.Set E)) :=
  (tsearchQ val id val s.tree).map fun r => r.2.bind fun
    | (some old, t) => if old ≠ val then .ok s else .ok { s with tree := t, size := s.size + 1 }
    | (none, t) => .ok { s with tree := t, size := s.size + 1 }

/-- `cee_set_find` (set.c:149-156) -/
def setFindQ (s : Set.Set E) (key : E) : Asks E (Option E) := tfindQ key id s.tree

/-- `cee_set_remove` (set.c:181-192) -/
def setRemoveQ (s : Set.Set E) (key : E) : Asks E (Res (Option E × Set.Set E)) :=
  (tfindQ key id s.tree).bind fun
  | none => ret (.ok (none, s))
  | some k => (tdeleteQ key id s.tree).map fun r => r.map fun t =>
      (some k, { s with tree := t.getD s.tree, size := decr64 s.size })

end Verif.Cost
