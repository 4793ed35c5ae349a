import Verif.Map.Lemmas
import Verif.Set.Model
import Verif.Set.Spec

/-! Helper lemmas for the set model. -/

namespace Verif.Set

open Tree (Tree tsearch tfind tdelete walk isFirst visited inorder Inv Cut count)
open Map.Spec (IsOrd)
open Map (ord_symm0 ord_le_swap ord_trans_lt_le ord_trans_le_lt ord_congr0)

variable {E : Type} {cmp : E → E → Int}

theorem sorted_cut (ho : IsOrd cmp) {l : List E} (hs : l.Pairwise (fun x y => cmp x y < 0)) (k : E) :
    Cut (cmp k) l := by
  refine hs.imp ?_
  intro x y hxy
  constructor
  · intro hy
    have h1 : cmp y k ≤ 0 := (ord_le_swap ho).2 hy
    exact (ho.swap x k).1 (ord_trans_lt_le ho hxy h1)
  · intro hx
    exact ord_trans_le_lt ho hx hxy

/-- the set represents the list of members `A` -/
structure Rel (cmp : E → E → Int) (s : Set E) (A : List E) : Prop where
  inv : Inv s.tree
  sorted : (inorder s.tree).Pairwise (fun x y => cmp x y < 0)
  perm : (inorder s.tree).Perm A

theorem Rel.uniq (ho : IsOrd cmp) {s : Set E} {A : List E} (r : Rel cmp s A) :
    A.Pairwise (fun x y => cmp x y ≠ 0) :=
  r.perm.pairwise (r.sorted.imp (fun h => by omega)) (fun h h' => h (ord_symm0 ho h'))

theorem Rel.count_lt {s : Set E} {A : List E} (r : Rel cmp s A) (hn : A.length < 2 ^ 64) :
    count s.tree < 2 ^ 64 := by
  rw [Tree.count_eq_length, r.perm.length_eq]; exact hn

theorem member_unique (ho : IsOrd cmp) {A : List E} (hu : A.Pairwise (fun x y => cmp x y ≠ 0))
    {k e : E} (he : e ∈ A) (hk : cmp k e = 0) : Spec.member cmp A k = some e := by
  induction A with
  | nil => simp at he
  | cons a A ih =>
    rw [List.pairwise_cons] at hu
    simp only [List.mem_cons] at he
    unfold Spec.member
    rcases he with he | he
    · subst he; simp [hk]
    · have : cmp k a ≠ 0 := fun h0 => hu.1 e he (ord_congr0 ho h0 hk)
      have := ih hu.2 he
      unfold Spec.member at this
      simp [*]

theorem member_none {A : List E} {k : E} :
    Spec.member cmp A k = none ↔ ∀ e ∈ A, cmp k e ≠ 0 := by
  unfold Spec.member
  rw [List.find?_eq_none]
  simp

theorem member_some {A : List E} {k e : E} (h : Spec.member cmp A k = some e) :
    e ∈ A ∧ cmp k e = 0 := by
  unfold Spec.member at h
  exact ⟨List.mem_of_find?_eq_some h, by simpa using List.find?_some h⟩

theorem tfind_member (ho : IsOrd cmp) {s : Set E} {A : List E} (r : Rel cmp s A) (k : E) :
    tfind (cmp k) s.tree = Spec.member cmp A k := by
  cases h : tfind (cmp k) s.tree with
  | some e =>
    obtain ⟨h1, h2⟩ := Tree.tfind_some h
    rw [member_unique ho (r.uniq ho) (r.perm.mem_iff.1 h1) h2]
  | none =>
    have := Tree.tfind_none (sorted_cut ho r.sorted k) h
    exact (member_none.2 (fun e he => this e (r.perm.mem_iff.2 he))).symm

theorem add_spec [DecidableEq E] (ho : IsOrd cmp) {s : Set E} {A : List E} (r : Rel cmp s A)
    (hn : A.length < 2 ^ 64) (x : E) :
    ∃ s', add cmp s x = .ok s' ∧ s'.pol = s.pol ∧ Rel cmp s' (Spec.insert cmp A x) ∧
      s'.size = if x ∈ A ∨ Spec.member cmp A x = none then s.size + 1 else s.size := by
  have hm := tfind_member ho r x
  unfold add
  rcases Tree.tsearch_spec (cmp x) x s.tree r.inv (sorted_cut ho r.sorted x) (r.count_lt hn) with
    ⟨old, hmem, h0, hs, hfind⟩ | ⟨t', L, R, hs, i', hino, hino', hL, hR⟩
  · rw [hs]
    rw [hfind] at hm
    simp only
    have hins : Spec.insert cmp A x = A := by simp [Spec.insert, ← hm]
    by_cases hne : old = x
    · subst hne
      refine ⟨{ s with size := s.size + 1 }, by simp, rfl, ?_, ?_⟩
      · rw [hins]; exact ⟨r.inv, r.sorted, r.perm⟩
      · simp [r.perm.mem_iff.1 hmem]
    · refine ⟨s, by simp [hne], rfl, ?_, ?_⟩
      · rw [hins]; exact r
      · have : x ∉ A := by
          intro hx
          have h1 := member_unique ho (r.uniq ho) hx (ho.refl x)
          rw [h1] at hm
          simp only [Option.some.injEq] at hm
          exact hne hm
        simp [this, ← hm]
  · rw [hs]
    have hnone : Spec.member cmp A x = none := by
      rw [member_none]
      intro e he
      have := r.perm.mem_iff.2 he
      rw [hino, List.mem_append] at this
      rcases this with h | h
      · have := hL e h; omega
      · have := hR e h; omega
    refine ⟨_, rfl, rfl, ?_, by simp [hnone]⟩
    have hins : Spec.insert cmp A x = A ++ [x] := by simp [Spec.insert, hnone]
    rw [hins]
    have hsorted := r.sorted
    rw [hino, List.pairwise_append] at hsorted
    constructor
    · exact i'
    · simp only [hino', List.pairwise_append, List.pairwise_cons, List.mem_cons]
      refine ⟨hsorted.1, ⟨fun y hy => hR y hy, hsorted.2.1⟩, ?_⟩
      intro a ha b hb
      rcases hb with rfl | hb
      · exact (ho.swap a b).2 (hL a ha)
      · exact hsorted.2.2 a ha b hb
    · simp only [hino']
      have hp := r.perm
      rw [hino] at hp
      exact List.perm_middle.trans ((hp.cons _).trans (List.perm_append_singleton _ _).symm)

theorem remove_spec (ho : IsOrd cmp) {s : Set E} {A : List E} (r : Rel cmp s A)
    (hn : A.length < 2 ^ 64) (x : E) :
    ∃ s', remove cmp s x = .ok (Spec.member cmp A x, s') ∧ s'.pol = s.pol ∧
      Rel cmp s' (Spec.erase cmp A x) ∧
      s'.size = if Spec.member cmp A x = none then s.size else decr64 s.size := by
  have hm := tfind_member ho r x
  have hcut := sorted_cut ho r.sorted x
  unfold remove
  cases hf : tfind (cmp x) s.tree with
  | none =>
    rw [hf] at hm
    refine ⟨s, by rw [← hm], rfl, ?_, by simp [← hm]⟩
    have : Spec.erase cmp A x = A := by
      unfold Spec.erase
      rw [List.filter_eq_self]
      intro e he
      simpa using member_none.1 hm.symm e he
    rw [this]; exact r
  | some k =>
    rw [hf] at hm
    obtain ⟨hmem, h0⟩ := Tree.tfind_some hf
    simp only
    rcases Tree.tdelete_spec (cmp x) s.tree r.inv hcut (r.count_lt hn) with
      ⟨hno, _⟩ | ⟨t', L, k1, R, hk1, hd, i', hino, hino', hf'⟩
    · exact absurd h0 (hno k hmem)
    · rw [hd, ← hm]
      refine ⟨_, rfl, rfl, ?_, by simp⟩
      have hsorted := r.sorted
      have hcut' := hcut
      rw [hino] at hsorted hcut'
      rw [Cut, List.pairwise_append, List.pairwise_cons] at hcut'
      obtain ⟨_, ⟨q1, _⟩, q2⟩ := hcut'
      have hfl : (inorder s.tree).filter (fun e => decide (cmp x e ≠ 0)) = L ++ R := by
        rw [hino, List.filter_append, List.filter_cons_of_neg (by simp [hk1])]
        have e1 : L.filter (fun e => decide (cmp x e ≠ 0)) = L := by
          rw [List.filter_eq_self]
          intro y hy
          have := (q2 y hy k1 (by simp)).1 (by omega)
          simp only [decide_eq_true_eq]
          omega
        have e2 : R.filter (fun e => decide (cmp x e ≠ 0)) = R := by
          rw [List.filter_eq_self]
          intro y hy
          have := (q1 y hy).2 (by omega)
          simp only [decide_eq_true_eq]
          omega
        rw [e1, e2]
      constructor
      · exact i'
      · simp only [Option.getD_some, hino']
        rw [List.pairwise_append, List.pairwise_cons] at hsorted
        rw [List.pairwise_append]
        exact ⟨hsorted.1, hsorted.2.1.2, fun a ha b hb => hsorted.2.2 a ha b (by simp [hb])⟩
      · simp only [Option.getD_some, hino', ← hfl]
        exact r.perm.filter _

theorem Rel_mk (cmp : E → E → Int) (pol : Policy) : Rel cmp (mkE pol) [] :=
  ⟨trivial, List.Pairwise.nil, List.Perm.refl _⟩

theorem insert_length (A : List E) (x : E) : (Spec.insert cmp A x).length ≤ A.length + 1 := by
  unfold Spec.insert; split <;> simp

theorem erase_length_le (A : List E) (x : E) : (Spec.erase cmp A x).length ≤ A.length :=
  List.length_filter_le _ _

theorem erase_length (ho : IsOrd cmp) (A : List E) (hu : A.Pairwise (fun x y => cmp x y ≠ 0))
    (x : E) (h : Spec.member cmp A x ≠ none) : (Spec.erase cmp A x).length + 1 = A.length := by
  induction A with
  | nil => simp [Spec.member] at h
  | cons a A ih =>
    rw [List.pairwise_cons] at hu
    by_cases h0 : cmp x a = 0
    · have : Spec.erase cmp (a :: A) x = A := by
        unfold Spec.erase
        rw [List.filter_cons_of_neg (by simp [h0]), List.filter_eq_self]
        intro y hy
        simpa using fun hy0 => hu.1 y hy (ord_congr0 ho h0 hy0)
      rw [this]; rfl
    · have e2 : Spec.erase cmp (a :: A) x = a :: Spec.erase cmp A x := by
        simp [Spec.erase, h0]
      have h' : Spec.member cmp A x ≠ none := by
        intro hn
        apply h
        rw [member_none] at hn ⊢
        intro e he
        simp only [List.mem_cons] at he
        rcases he with rfl | he
        · exact h0
        · exact hn e he
      have := ih hu.2 h'
      rw [e2]; simp only [List.length_cons]; omega

theorem addAll_spec [DecidableEq E] (ho : IsOrd cmp) (l : List E) {s : Set E} {A : List E}
    (r : Rel cmp s A) (hn : A.length + l.length < 2 ^ 64) :
    ∃ s', addAll cmp s l = .ok s' ∧ s'.pol = s.pol ∧
      Rel cmp s' (l.foldl (Spec.insert cmp) A) := by
  induction l generalizing s A with
  | nil => exact ⟨s, rfl, rfl, r⟩
  | cons x l ih =>
    simp only [List.length_cons] at hn
    obtain ⟨s1, h1, p1, r1, _⟩ := add_spec ho r (by omega) x
    obtain ⟨s2, h2, p2, r2⟩ := ih r1 (by have := insert_length (cmp := cmp) A x; omega)
    exact ⟨s2, by simp [addAll, h1, h2], by rw [p2, p1], r2⟩

theorem iterate_eq (s : Set E) (f : σ → E → σ) (a : σ) :
    iterate s f a = (visited s.tree).foldl f a := by
  unfold iterate visited
  generalize walk s.tree 0 = l
  induction l generalizing a with
  | nil => rfl
  | cons e l ih =>
    rw [List.foldl_cons, List.filter_cons, ih]
    split <;> rfl

theorem clone_addAll [DecidableEq E] (cmp : E → E → Int) (s : Set E) :
    clone cmp s = addAll cmp (mkE s.pol) (values s) := by
  unfold clone values
  rw [iterate_eq]
  generalize (mkE s.pol) = d
  generalize visited s.tree = l
  have stuck : ∀ (l : List E) (x : Res (Set E)), x = .ub ∨ x = .segv → l.foldl (fun (acc : Res (Set E)) v =>
      match acc with
      | .ok d => add cmp d v
      | .ub => .ub
      | .segv => .segv) x = x := by
    intro l
    induction l with
    | nil => intros; rfl
    | cons e l ih =>
      rintro x (rfl | rfl)
      · exact ih _ (.inl rfl)
      · exact ih _ (.inr rfl)
  induction l generalizing d with
  | nil => rfl
  | cons e l ih =>
    rw [List.foldl_cons]
    unfold addAll
    simp only
    cases h : add cmp d e with
    | ok d' => exact ih d'
    | ub => exact stuck l _ (.inl rfl)
    | segv => exact stuck l _ (.inr rfl)

end Verif.Set
