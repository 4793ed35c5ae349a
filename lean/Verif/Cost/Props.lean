import Verif.Cost.Lemmas

/-!
# How often maps and sets call the comparison (C115)

`c` calls for `n` keys with `fib (c + 2) ≤ n + 1` is the bound for balanced trees: about 1.44 times the logarithm of `n`;
no more than 44 calls for 2^31 keys.
-/

namespace Verif.Cost.Props

open Tree (Tree walk isFirst Inv height count inorder visited)
open Map (Map keyCmp Rel)
open Map.Spec (Op Out SMap IsOrd)
open Map.Props (execAll execAll_spec exec_spec natCmp natCmp_ord demoOps demoOps_legal)
open Asks

variable {K E V : Type} {cmp : K → K → Int}

/-- C115: the programs that ask give the results of the models, with every comparison, an order or not -/
theorem C115_same [DecidableEq V] [DecidableEq E] (cmp : K → K → Int) (cmp' : E → E → Int) (m d : Map K V)
    (ops : List (Op K V)) (f : Option (Option V → Option V → Option V)) (s : Set.Set E) (x : E) :
    (execAllQ m ops).run cmp = execAll cmp m ops ∧
    (mergeQ f (walk m.tree 0) d).run cmp = Map.merge cmp d m f ∧
    (setAddQ s x).run cmp' = Set.add cmp' s x ∧ (setFindQ s x).run cmp' = Set.find cmp' s x ∧
    (setRemoveQ s x).run cmp' = Set.remove cmp' s x :=
  ⟨run_execAll m ops, run_merge f d m, run_setAdd s x, run_setFind s x, run_setRemove s x⟩

theorem rel_fib {m : Map K V} {A : SMap K V} (r : Rel cmp m A) (k : K) :
    Nat.fib (((findQ m (some k)).calls cmp).length + 2) ≤ A.length + 1 := by
  rw [calls_find, ← r.perm.length_eq, ← Tree.count_eq_length]
  exact fib_tfind k Prod.fst r.inv

/-- from the bound to logarithms -/
theorem log_of_fib {c n : Nat} (h : Nat.fib (c + 2) ≤ n + 1) : 2 * (c / 3) ≤ Nat.log2 (n + 1) :=
  (Nat.le_log2 (by omega)).mpr (le_trans (pow_le_fib c) h)

/-- C115 for finding and adding: after every history the search for a key compares it with keys of the map only, at most
about `3/2 · log2 (n + 1)` times, and adding a key, with or without a function for merging values, makes the same calls -/
theorem C115_partial [DecidableEq V] (ho : IsOrd cmp) (kpol vpol : Policy) (ops : List (Op K V))
    (hn : ops.length < 2 ^ 31) (hl : ∀ op ∈ ops, op.legal vpol) :
    ∃ outs m, execAll cmp (Map.mkE kpol vpol) ops = .ok (outs, m) ∧ ∀ k,
      Nat.fib (((findQ m (some k)).calls cmp).length + 2) ≤ Map.sizeOf m + 1 ∧
      2 * (((findQ m (some k)).calls cmp).length / 3) ≤ Nat.log2 (Map.sizeOf m + 1) ∧
      (∀ p ∈ (findQ m (some k)).calls cmp, p.1 = k ∧ p.2 ∈ Map.insertionOrderedKeys m) ∧
      ∀ v f, (v ≠ none ∨ vpol = .noop) → (addEQ m (some k) v f).calls cmp = (findQ m (some k)).calls cmp := by
  obtain ⟨m, e, hv, -, r, -⟩ := execAll_spec ho ops (Map.Rel_mk cmp kpol vpol) (by simpa using hn) hl
  refine ⟨_, m, e, fun k => ?_⟩
  have hf := rel_fib r k
  rw [← r.size] at hf
  refine ⟨hf, log_of_fib hf, ?_, ?_⟩
  · intro p hp
    rw [calls_find, calls_tfind k Prod.fst m.tree []] at hp
    obtain ⟨h1, x, hx, h2⟩ := calls_mem k Prod.fst [] p hp
    refine ⟨h1, ?_⟩
    rw [Map.insertionOrderedKeys, r.order, h2]
    exact List.mem_map_of_mem (r.perm.mem_iff.mp hx)
  · intro v f hvf
    rw [calls_addE, if_neg, calls_find]
    rintro ⟨h1, h2⟩
    rcases hvf with h | h
    · exact h h1
    · exact h2 (hv.trans h)

theorem small_cInt {m : Map K V} {A : SMap K V} (r : Rel cmp m A) (hn : A.length < 2 ^ 31) :
    (cInt m.order.length).toNat = A.length := by
  rw [r.order, List.length_map, cInt_small hn]
  rfl

theorem rel_remove (ho : IsOrd cmp) {m : Map K V} {A : SMap K V} (r : Rel cmp m A) (hn : A.length < 2 ^ 31) (k : K) :
    ((∀ x ∈ m.order, cmp k x ≠ 0) → (removeQ m (some k)).calls cmp = (findQ m (some k)).calls cmp) ∧
    ∀ pre x post, m.order = pre ++ x :: post → cmp k x = 0 →
      (removeQ m (some k)).calls cmp =
        (findQ m (some k)).calls cmp ++ (findQ m (some k)).calls cmp ++ (pre ++ [x]).map (k, ·) := by
  have hpr := Map.present_iff ho r k
  constructor
  · intro hx
    have hnp : ¬ Map.Spec.present cmp A k := by
      rintro ⟨e, he, h0⟩
      exact hx e.1 (by rw [r.order]; exact List.mem_map_of_mem he) h0
    rw [hpr, Bool.not_eq_true, Option.isSome_eq_false_iff, Option.isNone_iff_eq_none] at hnp
    rw [calls_find]
    unfold removeQ
    rw [calls_bind, run_tfind, show (fun e : K × Option V => cmp k e.1) = keyCmp cmp k from rfl, hnp]
    exact List.append_nil _
  · intro pre x post ho' h0
    have hp : Map.Spec.present cmp A k := by
      have : x ∈ A.map Prod.fst := by rw [← r.order, ho']; simp
      obtain ⟨e, he, rfl⟩ := List.mem_map.mp this
      exact ⟨e, he, h0⟩
    have hp' := hpr.mp hp
    obtain ⟨old, hold⟩ := Option.isSome_iff_exists.mp hp'
    have hmem : old ∈ A := r.perm.mem_iff.mp (Tree.tfind_some hold).1
    have hpre : ∀ y ∈ pre, cmp k y ≠ 0 := by
      intro y hy hy0
      have hu := r.uniq ho
      have hu' : (A.map Prod.fst).Pairwise (fun a b => cmp a b ≠ 0) := List.pairwise_map.mpr hu
      rw [← r.order, ho', List.pairwise_append] at hu'
      exact hu'.2.2 y hy x (by simp) (Map.ord_congr0 ho hy0 h0)
    obtain ⟨n, hcn⟩ : ∃ n, (cInt m.order.length).toNat = n := ⟨_, rfl⟩
    have hlen : n = A.length := hcn ▸ small_cInt r hn
    have hlt : pre.length < n := by
      have := congrArg List.length ho'
      rw [r.order] at this
      simp at this
      omega
    obtain ⟨t', ht'⟩ : ∃ t', Tree.tdelete (keyCmp cmp k) m.tree = .ok t' := by
      obtain ⟨m', hm', -⟩ := Map.remove_spec ho r hn k
      unfold Map.remove at hm'
      rw [hcn] at hm'
      dsimp only at hm'
      rw [hold] at hm'
      dsimp only at hm'
      split at hm'
      · cases hm'
      · cases hd : Tree.tdelete (keyCmp cmp k) m.tree with
        | ok t' => exact ⟨t', rfl⟩
        | ub => rw [hd] at hm'; cases hm'
        | segv => rw [hd] at hm'; cases hm'
    unfold removeQ
    rw [hcn, calls_find, calls_bind, run_tfind, show (fun e : K × Option V => cmp k e.1) = keyCmp cmp k from rfl, hold]
    dsimp only
    rw [if_neg (by rintro ⟨h1, h2⟩; exact r.nonnull h2 old hmem h1), calls_bind, run_tdelete,
      show (fun e : K × Option V => cmp k e.1) = keyCmp cmp k from rfl, ht', calls_tdelete]
    dsimp only
    rw [calls_map, ho', calls_orderDelete k pre x post hpre h0 n hlt, List.append_assoc]

/-- C115 for removing: a key that is not there costs one search; a key that is there two searches and one call for each
key that was added before it and is still there -/
theorem C115_remove [DecidableEq V] (ho : IsOrd cmp) (kpol vpol : Policy) (ops : List (Op K V))
    (hn : ops.length < 2 ^ 31) (hl : ∀ op ∈ ops, op.legal vpol) :
    ∃ outs m, execAll cmp (Map.mkE kpol vpol) ops = .ok (outs, m) ∧ ∀ k,
      ((∀ x ∈ Map.insertionOrderedKeys m, cmp k x ≠ 0) →
        ((removeQ m (some k)).calls cmp).length = ((findQ m (some k)).calls cmp).length) ∧
      ∀ pre x post, Map.insertionOrderedKeys m = pre ++ x :: post → cmp k x = 0 →
        ((removeQ m (some k)).calls cmp).length = 2 * ((findQ m (some k)).calls cmp).length + pre.length + 1 := by
  obtain ⟨m, e, hv, -, r, hle⟩ := execAll_spec ho ops (Map.Rel_mk cmp kpol vpol) (by simpa using hn) hl
  refine ⟨_, m, e, fun k => ?_⟩
  obtain ⟨h1, h2⟩ := rel_remove ho r (by simp at hle; omega) k
  refine ⟨fun h => by rw [h1 h], fun pre x post h3 h4 => ?_⟩
  rw [h2 pre x post h3 h4]
  simp
  omega

/-- C115 is false for removing: in every map that is not empty there is a key (the one added last) that is found with about
`log2 n` calls, but whose removal takes more than `n` -/
theorem C115_remove_false [DecidableEq V] (ho : IsOrd cmp) (kpol vpol : Policy) (ops : List (Op K V))
    (hn : ops.length < 2 ^ 31) (hl : ∀ op ∈ ops, op.legal vpol) :
    ∃ outs m, execAll cmp (Map.mkE kpol vpol) ops = .ok (outs, m) ∧
      (0 < Map.sizeOf m → ∃ k ∈ Map.insertionOrderedKeys m,
        Map.sizeOf m < ((removeQ m (some k)).calls cmp).length) := by
  obtain ⟨m, e, hv, -, r, hle⟩ := execAll_spec ho ops (Map.Rel_mk cmp kpol vpol) (by simpa using hn) hl
  refine ⟨_, m, e, fun h0 => ?_⟩
  have hlen : m.order.length = m.size := by rw [r.order, List.length_map, r.size]
  have hne : m.order ≠ [] := by
    intro h
    rw [h] at hlen
    simp only [Map.sizeOf, List.length_nil] at h0 hlen
    omega
  obtain ⟨-, h2⟩ := rel_remove ho r (by simp at hle; omega) (m.order.getLast hne)
  have hs := (List.dropLast_append_getLast hne).symm
  refine ⟨m.order.getLast hne, List.getLast_mem hne, ?_⟩
  rw [h2 _ _ [] hs (ho.refl _)]
  have hf : 0 < ((findQ m (some (m.order.getLast hne))).calls cmp).length := by
    rw [calls_find]
    cases ht : m.tree with
    | node k a0 a1 h => simp [tfindQ, calls]
    | nil =>
      have := r.perm.length_eq
      rw [ht, ← r.size] at this
      simp only [inorder, List.length_nil, Map.sizeOf] at this h0
      omega
  have := congrArg List.length hs
  simp only [List.length_append, List.length_cons, List.length_nil, List.length_map, Map.sizeOf] at this ⊢
  omega

/-! ## whole histories -/

/-- a number of calls that no operation exceeds -/
theorem le_of_fib {c n h : Nat} (hc : Nat.fib (c + 2) ≤ n + 1) (hh : n + 1 < Nat.fib (h + 3)) : c ≤ h := by
  by_contra hlt
  have : Nat.fib (h + 3) ≤ Nat.fib (c + 2) := Nat.fib_mono (by omega)
  omega

theorem calls_add_le [DecidableEq V] {m : Map K V} {A : SMap K V} (r : Rel cmp m A) {n h : Nat} (hA : A.length ≤ n)
    (hh : n + 1 < Nat.fib (h + 3)) (key : Option K) (v : Option V) (f : Option (Option V → Option V → Option V)) :
    ((addEQ m key v f).calls cmp).length ≤ h := by
  cases key with
  | none => simp [addEQ]
  | some k =>
    rw [calls_addE]
    split
    · simp
    · rw [← calls_find]
      exact le_of_fib (rel_fib r k) (by omega)

theorem calls_find_le {m : Map K V} {A : SMap K V} (r : Rel cmp m A) {n h : Nat} (hA : A.length ≤ n)
    (hh : n + 1 < Nat.fib (h + 3)) (key : Option K) : ((findQ m key).calls cmp).length ≤ h := by
  cases key with
  | none => simp [findQ]
  | some k => exact le_of_fib (rel_fib r k) (by omega)

theorem calls_remove_le (ho : IsOrd cmp) {m : Map K V} {A : SMap K V} (r : Rel cmp m A) {n h : Nat} (hA : A.length ≤ n)
    (hn : A.length < 2 ^ 31) (hh : n + 1 < Nat.fib (h + 3)) (key : Option K) :
    ((removeQ m key).calls cmp).length ≤ 2 * h + n := by
  cases key with
  | none => simp [removeQ]
  | some k =>
    obtain ⟨h1, h2⟩ := rel_remove ho r hn k
    have hf := calls_find_le r hA hh (some k)
    by_cases hp : ∀ x ∈ m.order, cmp k x ≠ 0
    · rw [h1 hp]; omega
    · simp only [not_forall, not_not] at hp
      obtain ⟨x, hx, h0⟩ := hp
      obtain ⟨pre, post, hs⟩ := List.append_of_mem hx
      rw [h2 pre x post hs h0]
      have := congrArg List.length hs
      rw [r.order] at this
      simp only [List.length_append, List.length_cons, List.length_nil, List.length_map] at this ⊢
      omega

/-- no key is removed or renamed -/
def Growing : Op K V → Prop
  | .remove _ => False
  | .rename _ _ => False
  | _ => True

theorem calls_exec [DecidableEq V] (ho : IsOrd cmp) {m : Map K V} {A : SMap K V} (r : Rel cmp m A) {n h : Nat}
    (hA : A.length ≤ n) (hn : A.length < 2 ^ 31) (hh : n + 1 < Nat.fib (h + 3)) (op : Op K V) :
    (Growing op → ((execQ m op).calls cmp).length ≤ h) ∧ ((execQ m op).calls cmp).length ≤ 3 * h + n := by
  cases op with
  | add k v =>
    have := calls_add_le r hA hh k v none
    simp only [execQ, addQ, calls_map]
    exact ⟨fun _ => this, by omega⟩
  | addE k v f =>
    have := calls_add_le r hA hh k v (some f)
    simp only [execQ, calls_map]
    exact ⟨fun _ => this, by omega⟩
  | remove k =>
    have := calls_remove_le ho r hA hn hh k
    simp only [execQ, calls_map]
    exact ⟨False.elim, by omega⟩
  | rename k k' =>
    refine ⟨False.elim, ?_⟩
    simp only [execQ, calls_map]
    cases k with
    | none => simp [renameQ]
    | some k =>
      cases k' with
      | none => simp [renameQ]
      | some k' =>
        have h1 := calls_remove_le ho r hA hn hh (some k)
        obtain ⟨m1, e1, -, -, r1⟩ := Map.remove_spec ho r hn k
        have hle := Map.erase_length_le (cmp := cmp) A k
        simp only [renameQ, calls_bind, run_remove, e1, List.length_append]
        cases Map.Spec.lookup cmp A k with
        | none => simp only [calls_ret, List.length_nil]; omega
        | some v =>
          have h2 := calls_add_le r1 (le_trans hle hA) hh (some k') (some v) none
          simp only [addQ, calls_map]
          omega
  | find k =>
    have := calls_find_le r hA hh k
    simp only [execQ, calls_map]
    exact ⟨fun _ => this, by omega⟩
  | size => simp [execQ]

theorem calls_execAll [DecidableEq V] (ho : IsOrd cmp) (ops : List (Op K V)) {m : Map K V} {A : SMap K V} (r : Rel cmp m A)
    {n h : Nat} (hA : A.length + ops.length ≤ n) (hn : n < 2 ^ 31) (hh : n + 1 < Nat.fib (h + 3))
    (hl : ∀ op ∈ ops, op.legal m.vpol) :
    ((∀ op ∈ ops, Growing op) → ((execAllQ m ops).calls cmp).length ≤ ops.length * h) ∧
      ((execAllQ m ops).calls cmp).length ≤ ops.length * (3 * h + n) := by
  induction ops generalizing m A with
  | nil => simp [execAllQ]
  | cons op ops ih =>
    simp only [List.length_cons] at hA
    obtain ⟨m1, h1, hv1, -, r1, l1⟩ := exec_spec ho r (by omega) op (hl op (by simp))
    obtain ⟨g1, g2⟩ := calls_exec ho r (by omega) (by omega) hh op
    obtain ⟨i1, i2⟩ := ih r1 (by omega) (by intro o ho'; rw [hv1]; exact hl o (by simp [ho']))
    simp only [execAllQ, calls_bind, run_exec, h1, calls_map, List.length_append, List.length_cons]
    rw [Nat.succ_mul, Nat.succ_mul]
    refine ⟨fun hg => ?_, by omega⟩
    have a1 := g1 (hg op (by simp))
    have a2 := i1 (fun o ho' => hg o (by simp [ho']))
    omega

/-- C115 for whole histories: `L` operations that find and add make at most `L · h` calls, where `h` is about
`1.44 · log2 L`; with removing and renaming they may be `L · (3 · h + L)` -/
theorem C115_history [DecidableEq V] (ho : IsOrd cmp) (kpol vpol : Policy) (ops : List (Op K V))
    (hn : ops.length < 2 ^ 31) (hl : ∀ op ∈ ops, op.legal vpol) {h : Nat} (hh : ops.length + 1 < Nat.fib (h + 3)) :
    ((∀ op ∈ ops, Growing op) →
      ((execAllQ (Map.mkE kpol vpol) ops).calls cmp).length ≤ ops.length * h) ∧
    ((execAllQ (Map.mkE kpol vpol) ops).calls cmp).length ≤ ops.length * (3 * h + ops.length) :=
  calls_execAll ho ops (Map.Rel_mk cmp kpol vpol) (by simp) hn hh hl

/-! ## merging and cloning -/

theorem calls_merge [DecidableEq V] (ho : IsOrd cmp) (f : Option (Option V → Option V → Option V))
    (l : List ((K × Option V) × Tree.Visit × Nat)) {m : Map K V} {A : SMap K V} (r : Rel cmp m A) {n h : Nat}
    (hA : A.length + (l.filter fun e => isFirst e.2.1).length ≤ n) (hn : n < 2 ^ 64) (hh : n + 1 < Nat.fib (h + 3))
    (hl : (∀ e ∈ (l.filter fun e => isFirst e.2.1), e.1.2 ≠ none ∧ ∀ g, f = some g → ∀ o, g o e.1.2 ≠ none) ∨
      m.vpol = .noop) :
    ((mergeQ f l m).calls cmp).length ≤ (l.filter fun e => isFirst e.2.1).length * h := by
  induction l generalizing m A with
  | nil => simp [mergeQ]
  | cons e l ih =>
    rw [mergeQ]
    by_cases hf : isFirst e.2.1
    · rw [List.filter_cons, if_pos hf] at hA hl ⊢
      rw [if_pos hf]
      simp only [List.length_cons] at hA ⊢
      obtain ⟨m1, h1, hv1, hk1, r1⟩ := Map.addE_spec ho r (by omega) e.1.1 e.1.2 f (by
        rcases hl with h | h
        · exact .inl (h e (by simp))
        · exact .inr h)
      have a1 := calls_add_le r (n := n) (by omega) hh (some e.1.1) e.1.2 f
      have a2 := ih r1 (by
        split
        · have := Map.insert_length (cmp := cmp) A e.1.1 (Map.newValue f (Map.Spec.lookup cmp A e.1.1) e.1.2); omega
        · have := Map.insert_length (cmp := cmp) A e.1.1 e.1.2; omega) (by
        rcases hl with h | h
        · exact .inl (fun x hx => h x (List.mem_cons_of_mem _ hx))
        · exact .inr (by rw [hv1]; exact h))
      rw [calls_bind, run_addE, h1, List.length_append, Nat.succ_mul]
      dsimp only
      omega
    · rw [List.filter_cons, if_neg hf] at hA hl ⊢
      rw [if_neg hf]
      exact ih r hA hl

/-- C115 for merging (and cloning, which is merging into an empty map): one addition for each key of the source -/
theorem C115_merge [DecidableEq V] (ho : IsOrd cmp) (kpol vpol kpol' vpol' : Policy)
    (ops1 ops2 : List (Op K V)) (h1 : ops1.length < 2 ^ 31) (h2 : ops2.length < 2 ^ 31)
    (hl1 : ∀ op ∈ ops1, op.legal vpol) (hl2 : ∀ op ∈ ops2, op.legal vpol')
    (f : Option (Option V → Option V → Option V))
    (hleg : (∀ e ∈ (Map.Spec.run cmp [] ops2).2, e.2 ≠ none ∧ ∀ g, f = some g → ∀ o, g o e.2 ≠ none) ∨
      vpol = .noop) :
    ∃ o1 o2 m1 m2, execAll cmp (Map.mkE kpol vpol) ops1 = .ok (o1, m1) ∧
      execAll cmp (Map.mkE kpol' vpol') ops2 = .ok (o2, m2) ∧
      ∀ h, Map.sizeOf m1 + Map.sizeOf m2 + 1 < Nat.fib (h + 3) →
        ((mergeQ f (walk m2.tree 0) m1).calls cmp).length ≤ Map.sizeOf m2 * h := by
  obtain ⟨m1, e1, v1, _, r1, l1⟩ := execAll_spec ho ops1 (Map.Rel_mk cmp kpol vpol) (by simpa using h1) hl1
  obtain ⟨m2, e2, v2, _, r2, l2⟩ := execAll_spec ho ops2 (Map.Rel_mk cmp kpol' vpol') (by simpa using h2) hl2
  refine ⟨_, _, m1, m2, e1, e2, fun h hh => ?_⟩
  have hp := (Tree.visited_perm m2.tree r2.inv).trans r2.perm
  have hlen : ((walk m2.tree 0).filter fun e => isFirst e.2.1).length = m2.size := by
    have := hp.length_eq
    rw [Tree.visited, List.length_map] at this
    rw [this, r2.size]
  simp only [List.length_nil, Nat.zero_add] at l1 l2
  have := calls_merge (n := m1.size + m2.size) ho f (walk m2.tree 0) r1 (by rw [hlen, ← r1.size])
    (by rw [r1.size, r2.size]; omega) hh (by
      rcases hleg with h | h
      · refine .inl fun e he => h e.1 (hp.mem_iff.1 ?_)
        exact List.mem_map_of_mem (f := fun e => e.1) he
      · exact .inr (by rw [v1]; exact h))
  rw [hlen] at this
  exact this

/-! ## sets -/

/-- C115 for sets: finding and adding are one search, removing is two -/
theorem C115_set [DecidableEq E] {cmp : E → E → Int} (ho : IsOrd cmp) (pol : Policy) (ops : List (Set.Spec.Op E))
    (hn : ops.length < 2 ^ 64) :
    ∃ outs s, Set.Props.execAll cmp (Set.mkE pol) ops = .ok (outs, s) ∧ ∀ x,
      Nat.fib (((setFindQ s x).calls cmp).length + 2) ≤ (Set.values s).length + 1 ∧
      (∀ p ∈ (setFindQ s x).calls cmp, p.1 = x ∧ p.2 ∈ Set.values s) ∧
      (setAddQ s x).calls cmp = (setFindQ s x).calls cmp ∧
      ((setRemoveQ s x).calls cmp).length ≤ 2 * ((setFindQ s x).calls cmp).length := by
  obtain ⟨s, h, r, -, -⟩ := Set.Props.execAll_spec ho ops (Set.Rel_mk cmp pol) (by simpa using hn)
  have hp := Tree.visited_perm s.tree r.inv
  refine ⟨_, s, h, fun x => ⟨?_, ?_, ?_, ?_⟩⟩
  · rw [Set.values, hp.length_eq, ← Tree.count_eq_length]
    exact fib_tfind x id r.inv
  · intro p hx
    rw [setFindQ, calls_tfind x id s.tree []] at hx
    obtain ⟨h1, y, hy, h2⟩ := calls_mem x id [] p hx
    exact ⟨h1, by rw [h2]; exact hp.mem_iff.mpr hy⟩
  · rw [setAddQ, calls_map, calls_tsearch]; rfl
  · rw [setRemoveQ, calls_bind, setFindQ]
    split
    · simp; omega
    · rw [calls_map, calls_tdelete, List.length_append]; omega

/-! ## examples -/

/-- the keys 0 to 6 -/
def seven : List (Op Nat Nat) := (List.range 7).map fun i => .add (some i) (some i)

theorem seven_legal : ∀ op ∈ seven, op.legal .del := by
  intro op h
  obtain ⟨i, -, rfl⟩ := List.mem_map.mp h
  exact .inl (by simp)

/-- the hypotheses hold for the history of C01, and `h = 4` is enough for seven operations -/
example : IsOrd natCmp ∧ demoOps.length < 2 ^ 31 ∧ (∀ op ∈ demoOps, op.legal .del) ∧
    (∀ op ∈ seven, op.legal .del) ∧ (∀ op ∈ seven, Growing op) ∧ seven.length + 1 < Nat.fib (4 + 3) := by
  refine ⟨natCmp_ord, by decide, demoOps_legal, seven_legal, ?_, by decide⟩
  intro op h
  obtain ⟨i, -, rfl⟩ := List.mem_map.mp h
  trivial

/-- with seven keys: three calls to find 6, but thirteen to remove it -/
example : ∃ outs m, execAll natCmp (Map.mkE .del .del) seven = .ok (outs, m) ∧
    (findQ m (some 6)).calls natCmp = [(6, 3), (6, 5), (6, 6)] ∧ ((removeQ m (some 6)).calls natCmp).length = 13 ∧
    ((execAllQ (Map.mkE .del .del) seven).calls natCmp).length = 14 := by
  obtain ⟨o, m, e, h⟩ := C115_remove natCmp_ord .del .del seven (by decide) seven_legal
  have e' := e
  rw [show execAll natCmp (Map.mkE .del .del) seven = .ok (_, _) from rfl] at e'
  simp only [Res.ok.injEq, Prod.mk.injEq] at e'
  have hf : (findQ m (some 6)).calls natCmp = [(6, 3), (6, 5), (6, 6)] := by
    rw [← e'.2]; decide
  have hr := (h 6).2 [0, 1, 2, 3, 4, 5] 6 [] (by rw [← e'.2]; rfl) (by decide)
  rw [hf] at hr
  exact ⟨o, m, e, hf, hr, by decide⟩

end Verif.Cost.Props
