import Verif.Cost.Model
import Mathlib.Data.Nat.Fib.Basic

/-! # The programs that ask are the models, and how much they ask -/

namespace Verif.Cost

open Tree (Tree Frame descend fixup unzip MAXH walk isFirst Inv height count tsearch tfind tdelete inorder minNodes)
open Map (Map keyCmp)
open Map.Spec (Op Out SMap IsOrd)
open Asks

variable {K E V : Type} {cmp : K → K → Int}

/-! ## results -/

theorem run_descend (key : K) (of : E → K) (t : Tree E) (fs : List (Frame E)) :
    (descendQ key of t fs).run cmp = descend (fun e => cmp key (of e)) t fs := by
  induction t generalizing fs with
  | nil => rfl
  | node k a0 a1 h ih0 ih1 =>
    simp only [descendQ, run, descend]
    split
    · rfl
    · split
      · exact ih1 _
      · exact ih0 _

theorem run_tsearch (key : K) (of : E → K) (new : E) (t : Tree E) :
    (tsearchQ key of new t).run cmp =
      (descend (fun e => cmp key (of e)) t [], tsearch (fun e => cmp key (of e)) new t) := by
  simp only [tsearchQ, run_bind, run_ret, run_descend, tsearch]
  refine congrArg (Prod.mk _) ?_
  generalize descend (fun e => cmp key (of e)) t [] = p
  obtain ⟨fs, u⟩ := p
  dsimp only
  split
  · rfl
  · cases u with
    | node k a0 a1 h => rfl
    | nil => dsimp only; cases fixup fs (.node new .nil .nil 1) <;> rfl

theorem run_tfind (key : K) (of : E → K) (t : Tree E) :
    (tfindQ key of t).run cmp = tfind (fun e => cmp key (of e)) t := by
  induction t with
  | nil => rfl
  | node k a0 a1 h ih0 ih1 =>
    simp only [tfindQ, run, tfind]
    split
    · rfl
    · split
      · exact ih1
      · exact ih0

theorem run_tdelete (key : K) (of : E → K) (t : Tree E) :
    (tdeleteQ key of t).run cmp = tdelete (fun e => cmp key (of e)) t := by
  simp only [tdeleteQ, run_bind, run_ret, run_descend, tdelete]
  generalize descend (fun e => cmp key (of e)) t [] = p
  obtain ⟨fs, u⟩ := p
  dsimp only
  split
  · rfl
  · rcases u with _ | ⟨k, _ | ⟨lk, l0, l1, lh⟩, a1, h⟩
    · rfl
    · dsimp only; cases fixup fs a1 <;> rfl
    · dsimp only
      split
      · rfl
      · generalize fixup _ _ = r
        cases r <;> rfl

theorem run_addE [DecidableEq V] (m : Map K V) (key : Option K) (value : Option V)
    (merge : Option (Option V → Option V → Option V)) :
    (addEQ m key value merge).run cmp = Map.addE cmp m key value merge := by
  cases key with
  | none => rfl
  | some k =>
    simp only [addEQ, Map.addE]
    split
    · rfl
    · simp only [run_bind, run_ret, run_tsearch]
      change Res.bind (tsearch (keyCmp cmp k) (k, value) m.tree) _ = _
      rcases tsearch (keyCmp cmp k) (k, value) m.tree with ⟨t1 | t1, t⟩ | _ | _ <;> rfl

theorem run_add [DecidableEq V] (m : Map K V) (key : Option K) (value : Option V) :
    (addQ m key value).run cmp = Map.add cmp m key value := run_addE m key value none

theorem run_find (m : Map K V) (key : Option K) : (findQ m key).run cmp = Map.find cmp m key := by
  cases key with
  | none => rfl
  | some k =>
    simp only [findQ, Map.find, run_map, run_tfind]
    change Option.bind (tfind (keyCmp cmp k) m.tree) _ = _
    cases tfind (keyCmp cmp k) m.tree <;> rfl

theorem run_orderDelete (key : K) (n : Nat) (ks : List K) :
    (orderDeleteQ key n ks).run cmp = Map.orderDelete cmp key n ks := by
  induction n generalizing ks with
  | zero => rfl
  | succ n ih =>
    cases ks with
    | nil => rfl
    | cons k ks =>
      simp only [orderDeleteQ, run, Map.orderDelete]
      split
      · rfl
      · rw [run_map, ih]
        cases Map.orderDelete cmp key n ks <;> rfl

theorem run_remove (m : Map K V) (key : Option K) : (removeQ m key).run cmp = Map.remove cmp m key := by
  cases key with
  | none => rfl
  | some k =>
    obtain ⟨n, hn⟩ : ∃ n, (cInt m.order.length).toNat = n := ⟨_, rfl⟩
    unfold removeQ Map.remove
    simp only [run_bind, run_tfind]
    rw [show (fun e : K × Option V => cmp k e.1) = keyCmp cmp k from rfl, hn]
    cases tfind (keyCmp cmp k) m.tree with
    | none => rfl
    | some old =>
      dsimp only
      split
      · rfl
      · rw [run_bind, run_tdelete, show (fun e : K × Option V => cmp k e.1) = keyCmp cmp k from rfl]
        cases tdelete (keyCmp cmp k) m.tree with
        | ub => rfl
        | segv => rfl
        | ok t' =>
          simp only [run_map, run_orderDelete]
          cases Map.orderDelete cmp k n m.order <;> rfl

theorem run_rename [DecidableEq V] (m : Map K V) (k k' : Option K) :
    (renameQ m k k').run cmp = Map.rename cmp m k k' := by
  cases k with
  | none => simp [renameQ, Map.rename]
  | some k =>
    cases k' with
    | none => simp [renameQ, Map.rename]
    | some k' =>
      simp only [renameQ, Map.rename, run_bind, run_remove, reduceCtorEq, or_self, if_false]
      rcases Map.remove cmp m (some k) with ⟨v | v, m'⟩ | _ | _
      · rfl
      · simp only [run_map, run_add]
        cases Map.add cmp m' (some k') (some v) <;> rfl
      · rfl
      · rfl

theorem run_exec [DecidableEq V] (m : Map K V) (op : Op K V) : (execQ m op).run cmp = Map.Props.exec cmp m op := by
  cases op <;> simp [execQ, Map.Props.exec, run_add, run_addE, run_remove, run_rename, run_find]

theorem run_execAll [DecidableEq V] (m : Map K V) (ops : List (Op K V)) :
    (execAllQ m ops).run cmp = Map.Props.execAll cmp m ops := by
  induction ops generalizing m with
  | nil => rfl
  | cons op ops ih =>
    simp only [execAllQ, Map.Props.execAll, run_bind, run_exec]
    cases Map.Props.exec cmp m op with
    | ok r => simp only [run_map, ih, Res.bind]
    | ub => rfl
    | segv => rfl

/-- the visits of the source, as in the model of `cee_map_merge` -/
theorem run_merge [DecidableEq V] (f : Option (Option V → Option V → Option V)) (d s : Map K V) :
    (mergeQ f (walk s.tree 0) d).run cmp = Map.merge cmp d s f := by
  rw [Map.merge]
  generalize walk s.tree 0 = l
  have hub : ∀ (r : Res (Map K V)), (∀ d, r ≠ .ok d) → ∀ l : List ((K × Option V) × Tree.Visit × Nat),
      l.foldl (fun acc e =>
      match acc with
      | .ok d =>
        if isFirst e.2.1 then
          match Map.addE cmp d (some e.1.1) e.1.2 f with
          | .ok (_, d') => .ok d'
          | .ub => .ub
          | .segv => .segv
        else .ok d
      | .ub => .ub
      | .segv => .segv) r = r := by
    intro r hr l
    induction l with
    | nil => rfl
    | cons e l ih =>
      rw [List.foldl_cons]
      cases r with
      | ok d => exact absurd rfl (hr d)
      | ub => exact ih
      | segv => exact ih
  induction l generalizing d with
  | nil => rfl
  | cons e l ih =>
    rw [List.foldl_cons, mergeQ]
    dsimp only
    split
    · rw [run_bind, run_addE]
      rcases Map.addE cmp d (some e.1.1) e.1.2 f with ⟨v, d'⟩ | _ | _
      · exact ih d'
      · exact (hub .ub (by simp) l).symm
      · exact (hub .segv (by simp) l).symm
    · exact ih d

theorem run_setAdd [DecidableEq E] {cmp : E → E → Int} (s : Set.Set E) (x : E) :
    (setAddQ s x).run cmp = Set.add cmp s x := by
  simp only [setAddQ, Set.add, run_map, run_tsearch, id]
  rcases tsearch (fun e => cmp x e) x s.tree with ⟨t1 | t1, t⟩ | _ | _ <;> rfl

theorem run_setFind {cmp : E → E → Int} (s : Set.Set E) (x : E) : (setFindQ s x).run cmp = Set.find cmp s x :=
  run_tfind x id s.tree

theorem run_setRemove {cmp : E → E → Int} (s : Set.Set E) (x : E) :
    (setRemoveQ s x).run cmp = Set.remove cmp s x := by
  simp only [setRemoveQ, Set.remove, run_bind, run_tfind, id]
  cases tfind (fun e => cmp x e) s.tree with
  | none => rfl
  | some k =>
    simp only [run_map, run_tdelete, id]
    cases tdelete (fun e => cmp x e) s.tree <;> rfl

/-! ## calls -/

/-- the descent calls the comparison at most once for each level -/
theorem calls_descend (key : K) (of : E → K) {t : Tree E} (i : Inv t) (fs : List (Frame E)) :
    ((descendQ key of t fs).calls cmp).length ≤ height t := by
  induction t generalizing fs with
  | nil => simp [descendQ]
  | node k a0 a1 h ih0 ih1 =>
    obtain ⟨i0, i1, e, -⟩ := i
    simp only [descendQ, calls, List.length_cons, Tree.height_node]
    split
    · simp; omega
    · split
      · have := ih1 i1 (⟨true, k, a0, h⟩ :: fs); omega
      · have := ih0 i0 (⟨false, k, a1, h⟩ :: fs); omega

/-- the key is compared with elements of the tree -/
theorem calls_mem (key : K) (of : E → K) {t : Tree E} (fs : List (Frame E)) :
    ∀ p ∈ (descendQ key of t fs).calls cmp, p.1 = key ∧ ∃ e ∈ inorder t, p.2 = of e := by
  induction t generalizing fs with
  | nil => simp [descendQ]
  | node k a0 a1 h ih0 ih1 =>
    intro p hp
    simp only [descendQ, calls, List.mem_cons] at hp
    rcases hp with rfl | hp
    · exact ⟨rfl, k, by simp [inorder], rfl⟩
    · split at hp
      · simp at hp
      · split at hp
        · obtain ⟨h1, e, he, h2⟩ := ih1 _ p hp
          exact ⟨h1, e, by simp [inorder, he], h2⟩
        · obtain ⟨h1, e, he, h2⟩ := ih0 _ p hp
          exact ⟨h1, e, by simp [inorder, he], h2⟩

/-- finding makes the calls of the descent -/
theorem calls_tfind (key : K) (of : E → K) (t : Tree E) (fs : List (Frame E)) :
    (tfindQ key of t).calls cmp = (descendQ key of t fs).calls cmp := by
  induction t generalizing fs with
  | nil => rfl
  | node k a0 a1 h ih0 ih1 =>
    simp only [tfindQ, descendQ, calls, List.cons.injEq, true_and]
    split
    · rfl
    · split
      · exact ih1 _
      · exact ih0 _

theorem calls_tsearch (key : K) (of : E → K) (new : E) (t : Tree E) :
    (tsearchQ key of new t).calls cmp = (tfindQ key of t).calls cmp := by
  simp [tsearchQ, calls_tfind key of t []]

theorem calls_tdelete (key : K) (of : E → K) (t : Tree E) :
    (tdeleteQ key of t).calls cmp = (tfindQ key of t).calls cmp := by
  simp [tdeleteQ, calls_tfind key of t []]

/-- the fewest nodes of a balanced tree are a Fibonacci number less one -/
theorem minNodes_fib (h : Nat) : minNodes h + 1 = Nat.fib (h + 2) := by
  induction h using Nat.strongRecOn with
  | _ h ih =>
    match h with
    | 0 => rfl
    | 1 => rfl
    | h + 2 =>
      rw [Nat.fib_add_two, ← ih h (by omega), ← ih (h + 1) (by omega), minNodes]
      omega

theorem fib_height {t : Tree E} (i : Inv t) : Nat.fib (height t + 2) ≤ count t + 1 := by
  rw [← minNodes_fib]
  exact Nat.succ_le_succ i.minNodes_le

theorem fib_tfind (key : K) (of : E → K) {t : Tree E} (i : Inv t) :
    Nat.fib (((tfindQ key of t).calls cmp).length + 2) ≤ count t + 1 := by
  rw [calls_tfind key of t []]
  exact le_trans (Nat.fib_mono (Nat.add_le_add_right (calls_descend key of i []) 2)) (fib_height i)

/-- four times as much for three more -/
theorem pow_le_fib (c : Nat) : 2 ^ (2 * (c / 3)) ≤ Nat.fib (c + 2) := by
  induction c using Nat.strongRecOn with
  | _ c ih =>
    match c with
    | 0 => decide
    | 1 => decide
    | 2 => decide
    | c + 3 =>
      have h := ih c (by omega)
      have h1 : Nat.fib (c + 5) = Nat.fib (c + 3) + Nat.fib (c + 4) := Nat.fib_add_two
      have h2 : Nat.fib (c + 4) = Nat.fib (c + 2) + Nat.fib (c + 3) := Nat.fib_add_two
      have h3 : Nat.fib (c + 3) = Nat.fib (c + 1) + Nat.fib (c + 2) := Nat.fib_add_two
      have h4 : Nat.fib (c + 2) = Nat.fib c + Nat.fib (c + 1) := Nat.fib_add_two
      have h5 : Nat.fib c ≤ Nat.fib (c + 1) := Nat.fib_le_fib_succ
      have h6 : 2 * ((c + 3) / 3) = 2 * (c / 3) + 2 := by omega
      rw [h6, Nat.pow_add, show c + 3 + 2 = c + 5 from rfl]
      omega

theorem calls_addE [DecidableEq V] (m : Map K V) (k : K) (value : Option V)
    (merge : Option (Option V → Option V → Option V)) :
    (addEQ m (some k) value merge).calls cmp =
      if value = none ∧ m.vpol ≠ .noop then [] else (tfindQ k Prod.fst m.tree).calls cmp := by
  simp only [addEQ]
  split
  · rfl
  · simp [calls_tsearch]

theorem calls_find (m : Map K V) (k : K) :
    (findQ m (some k)).calls cmp = (tfindQ k Prod.fst m.tree).calls cmp := by
  simp [findQ]

/-- one call for each key up to the one that is looked for -/
theorem calls_orderDelete (key : K) (pre : List K) (k : K) (post : List K) (hp : ∀ x ∈ pre, cmp key x ≠ 0)
    (hk : cmp key k = 0) (n : Nat) (hn : pre.length < n) :
    (orderDeleteQ key n (pre ++ k :: post)).calls cmp = (pre ++ [k]).map (key, ·) := by
  induction pre generalizing n with
  | nil =>
    obtain ⟨n, rfl⟩ : ∃ n', n = n' + 1 := ⟨n - 1, by simp at hn; omega⟩
    simp [orderDeleteQ, calls, hk]
  | cons a pre ih =>
    obtain ⟨n, rfl⟩ : ∃ n', n = n' + 1 := ⟨n - 1, by simp at hn; omega⟩
    simp only [List.length_cons] at hn
    simp only [List.cons_append, orderDeleteQ, calls, hp a (by simp), if_false, calls_map, List.map_cons]
    rw [ih (fun x hx => hp x (by simp [hx])) n (by omega)]

end Verif.Cost
