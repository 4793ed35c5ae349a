import Verif.Tree.Lemmas
import Verif.Map.Model
import Verif.Map.Spec

/-! Helper lemmas for the map model. -/

namespace Verif.Map

open Tree (Tree tsearch tfind tdelete descend unzip walk isFirst inorder Inv Cut count
  leftOf rightOf)
open Spec (IsOrd SMap)

variable {K V : Type}

section ord
variable {cmp : K → K → Int} (ho : IsOrd cmp)
include ho

theorem ord_symm0 {a b : K} (h : cmp a b = 0) : cmp b a = 0 := by
  have h1 := ho.swap a b
  have h2 := ho.swap b a
  omega

theorem ord_le_swap {a b : K} : cmp a b ≤ 0 ↔ cmp b a ≥ 0 := by
  have h2 := ho.swap b a
  omega

theorem ord_trans_lt_le {a b c : K} (h1 : cmp a b < 0) (h2 : cmp b c ≤ 0) : cmp a c < 0 := by
  have h := ho.trans a b c (by omega) h2
  apply Classical.byContradiction
  intro hn
  have h0 : cmp a c = 0 := by omega
  have h3 : cmp c a ≤ 0 := by have := ord_symm0 ho h0; omega
  have h4 := ho.trans b c a h2 h3
  have h5 := ho.swap a b
  omega

theorem ord_trans_le_lt {a b c : K} (h1 : cmp a b ≤ 0) (h2 : cmp b c < 0) : cmp a c < 0 := by
  have h := ho.trans a b c h1 (by omega)
  apply Classical.byContradiction
  intro hn
  have h0 : cmp a c = 0 := by omega
  have h3 : cmp c a ≤ 0 := by have := ord_symm0 ho h0; omega
  have h4 := ho.trans c a b h3 h1
  have h5 := ho.swap b c
  omega

/-- equal keys compare alike -/
theorem ord_congr0 {a b c : K} (h1 : cmp a b = 0) (h2 : cmp a c = 0) : cmp b c = 0 := by
  have h3 := ord_symm0 ho h1
  have h4 := ho.trans b a c (by omega) (by omega)
  have h5 := ho.trans c a b (by have := ord_symm0 ho h2; omega) (by omega)
  have h6 := ho.swap c b
  have h7 := ho.swap b c
  omega

/-- sorted contents are compatible with every searched key -/
theorem sorted_cut {l : List (K × Option V)}
    (hs : l.Pairwise (fun x y => cmp x.1 y.1 < 0)) (k : K) : Cut (keyCmp cmp k) l := by
  refine hs.imp ?_
  intro x y hxy
  simp only [keyCmp]
  constructor
  · intro hy
    have h1 : cmp y.1 k ≤ 0 := (ord_le_swap ho).2 hy
    have h2 := ord_trans_lt_le ho hxy h1
    exact (ho.swap x.1 k).1 h2
  · intro hx
    exact ord_trans_le_lt ho hx hxy

end ord

/-- concrete map `m` represents the association list `A` -/
structure Rel (cmp : K → K → Int) (m : Map K V) (A : SMap K V) : Prop where
  inv : Inv m.tree
  sorted : (inorder m.tree).Pairwise (fun x y => cmp x.1 y.1 < 0)
  perm : (inorder m.tree).Perm A
  order : m.order = A.map (fun e => e.1)
  size : m.size = A.length
  nonnull : m.vpol ≠ .noop → ∀ e ∈ A, e.2 ≠ none

theorem Rel.uniq {cmp : K → K → Int} (ho : IsOrd cmp) {m : Map K V} {A : SMap K V}
    (r : Rel cmp m A) : A.Pairwise (fun x y => cmp x.1 y.1 ≠ 0) := by
  have h1 : (inorder m.tree).Pairwise (fun x y => cmp x.1 y.1 ≠ 0) :=
    r.sorted.imp (fun h => by omega)
  exact r.perm.pairwise h1 (fun h h' => h (ord_symm0 ho h'))

theorem Rel.count_lt {cmp : K → K → Int} {m : Map K V} {A : SMap K V} (r : Rel cmp m A)
    (hn : A.length < 2 ^ 64) : count m.tree < 2 ^ 64 := by
  rw [Tree.count_eq_length, r.perm.length_eq]; exact hn

/-- at most one element matches a key -/
theorem find_unique {cmp : K → K → Int} (ho : IsOrd cmp) {A : SMap K V}
    (hu : A.Pairwise (fun x y => cmp x.1 y.1 ≠ 0)) {k : K} {e : K × Option V} (he : e ∈ A)
    (hk : cmp k e.1 = 0) : A.find? (fun e => decide (cmp k e.1 = 0)) = some e := by
  induction A with
  | nil => simp at he
  | cons a A ih =>
    rw [List.pairwise_cons] at hu
    simp only [List.mem_cons] at he
    rcases he with he | he
    · subst he; simp [hk]
    · have : cmp k a.1 ≠ 0 := by
        intro h0
        exact hu.1 e he (ord_congr0 ho h0 hk)
      simp [this, ih hu.2 he]

theorem tfind_lookup {cmp : K → K → Int} (ho : IsOrd cmp) {m : Map K V} {A : SMap K V}
    (r : Rel cmp m A) (k : K) :
    tfind (keyCmp cmp k) m.tree = A.find? (fun e => decide (cmp k e.1 = 0)) := by
  cases h : tfind (keyCmp cmp k) m.tree with
  | some e =>
    obtain ⟨h1, h2⟩ := Tree.tfind_some h
    rw [find_unique ho (r.uniq ho) (r.perm.mem_iff.1 h1) h2]
  | none =>
    have := Tree.tfind_none (sorted_cut ho r.sorted k) h
    symm
    rw [List.find?_eq_none]
    intro e he
    simpa [keyCmp] using this e (r.perm.mem_iff.2 he)

theorem lookup_eq {cmp : K → K → Int} (ho : IsOrd cmp) {m : Map K V} {A : SMap K V}
    (r : Rel cmp m A) (k : K) :
    Spec.lookup cmp A k = match tfind (keyCmp cmp k) m.tree with
      | some e => e.2
      | none => none := by
  rw [tfind_lookup ho r]; rfl

theorem present_iff {cmp : K → K → Int} (ho : IsOrd cmp) {m : Map K V} {A : SMap K V}
    (r : Rel cmp m A) (k : K) :
    Spec.present cmp A k ↔ (tfind (keyCmp cmp k) m.tree).isSome := by
  rw [tfind_lookup ho r, List.find?_isSome]
  simp [Spec.present]

/-! setValue -/

theorem Inv_congr_key {e e' : K × Option V} {a0 a1 : Tree (K × Option V)} {h : Nat}
    (i : Inv (.node e a0 a1 h)) : Inv (.node e' a0 a1 h) := i

theorem setValue_spec {c : K × Option V → Int} {t : Tree (K × Option V)} (v : Option V)
    (i : Inv t) (hc : Cut c (inorder t)) (hf : tfind c t ≠ none) :
    Inv (setValue c t v) ∧
    inorder (setValue c t v) = (inorder t).map (fun e => if c e = 0 then (e.1, v) else e) := by
  obtain ⟨ctx, isub⟩ := Tree.descend_Ctx c t i
  obtain ⟨hl, hr⟩ := Tree.descend_sides c t hc
  have hino := Tree.descend_inorder c t
  have hfd := Tree.tfind_descend c t
  unfold setValue
  cases hd : descend c t [] with
  | mk fs s =>
    rw [hd] at ctx isub hl hr hino hfd
    simp only at ctx isub hl hr hino hfd
    cases s with
    | nil => simp only at hfd; exact absurd hfd hf
    | node e a0 a1 h =>
      have he : c e = 0 := Tree.descend_found c t hd
      simp only
      refine ⟨Tree.unzip_Inv fs _ isub ctx, ?_⟩
      rw [Tree.inorder_unzip, hino]
      simp only [inorder, List.map_append, List.map_cons]
      have hsub : Cut c (inorder (.node e a0 a1 h)) := by
        have h1 := hc
        rw [hino] at h1
        exact h1.left.right
      simp only [inorder] at hsub
      rw [Cut, List.pairwise_append, List.pairwise_cons] at hsub
      obtain ⟨_, ⟨q1, _⟩, q2⟩ := hsub
      have m1 : ∀ l : List (K × Option V), (∀ x ∈ l, c x ≠ 0) →
          l.map (fun e => if c e = 0 then (e.1, v) else e) = l := by
        intro l hl
        conv => rhs; rw [← List.map_id l]
        apply List.map_congr_left
        intro x hx
        simp [hl x hx]
      rw [m1 (leftOf fs) (fun x hx => by have := hl x hx; omega),
        m1 (rightOf fs) (fun x hx => by have := hr x hx; omega),
        m1 (inorder a0) (fun x hx => by have := (q2 x hx e (by simp)).1 (by omega); omega),
        m1 (inorder a1) (fun x hx => by have := (q1 x hx).2 (by omega); omega)]
      simp [he]

/-! abstract list facts -/

theorem orderDelete_spec {cmp : K → K → Int} (ho : IsOrd cmp) (k : K) (A : SMap K V)
    (hu : A.Pairwise (fun x y => cmp x.1 y.1 ≠ 0)) (hp : Spec.present cmp A k) :
    orderDelete cmp k A.length (A.map (fun e => e.1)) =
      .ok ((Spec.erase cmp A k).map (fun e => e.1)) := by
  induction A with
  | nil => obtain ⟨e, he, _⟩ := hp; simp at he
  | cons a A ih =>
    rw [List.pairwise_cons] at hu
    simp only [List.length_cons, List.map_cons, orderDelete]
    by_cases h0 : cmp k a.1 = 0
    · rw [if_pos h0]
      have : Spec.erase cmp (a :: A) k = A := by
        unfold Spec.erase
        rw [List.filter_cons_of_neg (by simp [h0])]
        rw [List.filter_eq_self]
        intro x hx
        simp only [decide_not, Bool.not_eq_true', decide_eq_false_iff_not]
        intro hx0
        exact hu.1 x hx (ord_congr0 ho h0 hx0)
      rw [this]
    · rw [if_neg h0]
      have hp' : Spec.present cmp A k := by
        obtain ⟨e, he, hk⟩ := hp
        simp only [List.mem_cons] at he
        rcases he with he | he
        · subst he; exact absurd hk h0
        · exact ⟨e, he, hk⟩
      rw [ih hu.2 hp']
      simp [Spec.erase, h0]

theorem erase_length_of_present {cmp : K → K → Int} (ho : IsOrd cmp) (k : K) (A : SMap K V)
    (hu : A.Pairwise (fun x y => cmp x.1 y.1 ≠ 0)) (hp : Spec.present cmp A k) :
    (Spec.erase cmp A k).length = A.length - 1 := by
  induction A with
  | nil => obtain ⟨e, he, _⟩ := hp; simp at he
  | cons a A ih =>
    rw [List.pairwise_cons] at hu
    by_cases h0 : cmp k a.1 = 0
    · have : Spec.erase cmp (a :: A) k = A := by
        unfold Spec.erase
        rw [List.filter_cons_of_neg (by simp [h0])]
        rw [List.filter_eq_self]
        intro x hx
        simp only [decide_not, Bool.not_eq_true', decide_eq_false_iff_not]
        intro hx0
        exact hu.1 x hx (ord_congr0 ho h0 hx0)
      rw [this]; simp
    · have hp' : Spec.present cmp A k := by
        obtain ⟨e, he, hk⟩ := hp
        simp only [List.mem_cons] at he
        rcases he with he | he
        · subst he; exact absurd hk h0
        · exact ⟨e, he, hk⟩
      have := ih hu.2 hp'
      have hpos : 0 < A.length := by
        obtain ⟨e, he, _⟩ := hp'
        exact List.length_pos_of_mem he
      have e2 : Spec.erase cmp (a :: A) k = a :: Spec.erase cmp A k := by
        simp [Spec.erase, h0]
      rw [e2]; simp only [List.length_cons]; omega

theorem erase_of_not_present {cmp : K → K → Int} (k : K) (A : SMap K V)
    (hp : ¬ Spec.present cmp A k) : Spec.erase cmp A k = A := by
  unfold Spec.erase
  rw [List.filter_eq_self]
  intro x hx
  simp only [decide_not, Bool.not_eq_true', decide_eq_false_iff_not]
  intro hx0
  exact hp ⟨x, hx, hx0⟩

theorem lookup_of_not_present {cmp : K → K → Int} (k : K) (A : SMap K V)
    (hp : ¬ Spec.present cmp A k) : Spec.lookup cmp A k = none := by
  unfold Spec.lookup
  have : A.find? (fun e => decide (cmp k e.1 = 0)) = none := by
    rw [List.find?_eq_none]
    intro x hx
    simp only [decide_eq_true_eq]
    intro hx0
    exact hp ⟨x, hx, hx0⟩
  rw [this]

/-- inserting never lengthens by more than one -/
theorem insert_length {cmp : K → K → Int} (A : SMap K V) (k : K) (v : Option V) :
    (Spec.insert cmp A k v).length ≤ A.length + 1 := by
  unfold Spec.insert; split <;> simp

theorem erase_length_le {cmp : K → K → Int} (A : SMap K V) (k : K) :
    (Spec.erase cmp A k).length ≤ A.length := by
  unfold Spec.erase; exact List.length_filter_le _ _

/-! operations -/

/-- overwriting with the value already there changes nothing -/
theorem map_same {cmp : K → K → Int} (ho : IsOrd cmp) {A : SMap K V}
    (hu : A.Pairwise (fun x y => cmp x.1 y.1 ≠ 0)) {k : K} {e : K × Option V} (he : e ∈ A)
    (hk : cmp k e.1 = 0) :
    A.map (fun x => if cmp k x.1 = 0 then (x.1, e.2) else x) = A := by
  conv => rhs; rw [← List.map_id A]
  apply List.map_congr_left
  intro x hx
  by_cases h0 : cmp k x.1 = 0
  · have h1 := find_unique ho hu hx h0
    have h2 := find_unique ho hu he hk
    rw [h1] at h2
    simp only [Option.some.injEq] at h2
    subst h2
    simp
  · simp [h0]

theorem addE_spec [DecidableEq V] {cmp : K → K → Int} (ho : IsOrd cmp) {m : Map K V}
    {A : SMap K V} (r : Rel cmp m A) (hn : A.length < 2 ^ 64) (k : K) (v : Option V)
    (f : Option (Option V → Option V → Option V))
    (hv : (v ≠ none ∧ ∀ g, f = some g → ∀ o, g o v ≠ none) ∨ m.vpol = .noop) :
    ∃ m', addE cmp m (some k) v f = .ok (Spec.lookup cmp A k, m') ∧ m'.vpol = m.vpol ∧
      m'.kpol = m.kpol ∧
      Rel cmp m' (if Spec.present cmp A k then
          Spec.insert cmp A k (newValue f (Spec.lookup cmp A k) v)
        else Spec.insert cmp A k v) := by
  have hcut := sorted_cut ho r.sorted k
  have hlk := lookup_eq ho r k
  have hpr := present_iff ho r k
  unfold addE
  simp only
  rw [if_neg (by rcases hv with ⟨h, _⟩ | h <;> simp [h])]
  rcases Tree.tsearch_spec (keyCmp cmp k) (k, v) m.tree r.inv hcut (r.count_lt hn) with
    ⟨t1, hmem, h0, hs, hfind⟩ | ⟨t', L, R, hs, i', hino, hino', hL, hR⟩
  · rw [hfind] at hlk hpr
    simp only [Option.isSome_some, iff_true] at hpr
    simp only at hlk
    rw [if_pos hpr, hs, hlk]
    simp only
    generalize hnv : newValue f t1.2 v = newv
    have hnn : m.vpol ≠ .noop → newv ≠ none := by
      intro hne
      rcases hv with ⟨h1, h2⟩ | h
      · subst hnv
        cases f with
        | none => exact h1
        | some g => exact h2 g rfl _
      · exact absurd h hne
    have hmemA : t1 ∈ A := r.perm.mem_iff.1 hmem
    by_cases hsame : newv = t1.2
    · rw [if_pos hsame]
      refine ⟨m, rfl, rfl, rfl, ?_⟩
      unfold Spec.insert
      rw [if_pos hpr, hsame, map_same ho (r.uniq ho) hmemA h0]
      exact r
    · rw [if_neg hsame, if_neg (by
        intro ⟨h1, h2⟩
        exact r.nonnull h2 t1 hmemA h1)]
      obtain ⟨iv, hin⟩ := setValue_spec newv r.inv hcut (by rw [hfind]; simp)
      refine ⟨_, rfl, rfl, rfl, ?_⟩
      unfold Spec.insert
      rw [if_pos hpr]
      constructor
      · exact iv
      · rw [hin, List.pairwise_map]
        refine r.sorted.imp ?_
        intro x y hxy
        split <;> split <;> exact hxy
      · rw [hin]; exact r.perm.map _
      · simp only [List.map_map, r.order]
        apply List.map_congr_left
        intro x hx
        simp only [Function.comp_apply]
        split <;> rfl
      · simp [r.size]
      · intro hne e he
        simp only [List.mem_map] at he
        obtain ⟨x, hx, rfl⟩ := he
        split
        · exact hnn hne
        · exact r.nonnull hne x hx
  · have hnp : ¬ Spec.present cmp A k := by
      rintro ⟨e, he, hk⟩
      have := r.perm.mem_iff.2 he
      rw [hino, List.mem_append] at this
      rcases this with h | h
      · have := hL e h; simp only [keyCmp] at this; omega
      · have := hR e h; simp only [keyCmp] at this; omega
    rw [if_neg hnp, hs, lookup_of_not_present k A hnp]
    refine ⟨_, rfl, rfl, rfl, ?_⟩
    unfold Spec.insert
    rw [if_neg hnp]
    have hsorted := r.sorted
    rw [hino, List.pairwise_append] at hsorted
    constructor
    · exact i'
    · simp only [hino', List.pairwise_append, List.pairwise_cons, List.mem_cons]
      refine ⟨hsorted.1, ⟨?_, hsorted.2.1⟩, ?_⟩
      · intro x hx; exact hR x hx
      · intro x hx y hy
        rcases hy with rfl | hy
        · exact (ho.swap x.1 k).2 (hL x hx)
        · exact hsorted.2.2 x hx y hy
    · simp only [hino']
      have hp := r.perm
      rw [hino] at hp
      exact List.perm_middle.trans ((hp.cons _).trans (List.perm_append_singleton _ _).symm)
    · simp [r.order]
    · simp [r.size]
    · intro hne e he
      simp only [List.mem_append, List.mem_singleton] at he
      rcases he with he | rfl
      · exact r.nonnull hne e he
      · rcases hv with ⟨h1, _⟩ | h
        · exact h1
        · exact absurd h hne

theorem find_spec {cmp : K → K → Int} (ho : IsOrd cmp) {m : Map K V} {A : SMap K V}
    (r : Rel cmp m A) (k : K) : find cmp m (some k) = Spec.lookup cmp A k := by
  rw [lookup_eq ho r]
  unfold find
  simp only
  cases tfind (keyCmp cmp k) m.tree <;> rfl

theorem remove_spec {cmp : K → K → Int} (ho : IsOrd cmp) {m : Map K V} {A : SMap K V}
    (r : Rel cmp m A) (hn : A.length < 2 ^ 31) (k : K) :
    ∃ m', remove cmp m (some k) = .ok (Spec.lookup cmp A k, m') ∧ m'.vpol = m.vpol ∧
      m'.kpol = m.kpol ∧ Rel cmp m' (Spec.erase cmp A k) := by
  have hcut := sorted_cut ho r.sorted k
  have hlk := lookup_eq ho r k
  have hpr := present_iff ho r k
  unfold remove
  simp only
  cases hf : tfind (keyCmp cmp k) m.tree with
  | none =>
    rw [hf] at hlk hpr
    simp only at hlk
    rw [hlk]
    refine ⟨m, rfl, rfl, rfl, ?_⟩
    rw [erase_of_not_present k A (by rw [hpr]; simp)]
    exact r
  | some old =>
    rw [hf] at hlk hpr
    simp only [Option.isSome_some, iff_true] at hpr
    simp only at hlk
    obtain ⟨hm, h0⟩ := Tree.tfind_some hf
    have hmA := r.perm.mem_iff.1 hm
    simp only
    rw [if_neg (by rintro ⟨h1, h2⟩; exact r.nonnull h2 old hmA h1)]
    have hord : orderDelete cmp k (cInt m.order.length).toNat m.order =
        .ok ((Spec.erase cmp A k).map (fun e => e.1)) := by
      rw [r.order, List.length_map, cInt_small hn, Int.toNat_natCast]
      exact orderDelete_spec ho k A (r.uniq ho) hpr
    rcases Tree.tdelete_spec (keyCmp cmp k) m.tree r.inv hcut (r.count_lt (by omega)) with
      ⟨hno, _⟩ | ⟨t', L, k1, R, hk1, hd, i', hino, hino', hf'⟩
    · exact absurd h0 (hno old hm)
    · rw [hd]
      rw [hlk, hord]
      refine ⟨_, rfl, rfl, rfl, ?_⟩
      have hsorted := r.sorted
      rw [hino] at hsorted
      have hfl : (inorder m.tree).filter (fun e => decide (cmp k e.1 ≠ 0)) = L ++ R := by
        have hcut' := hcut
        rw [hino] at hcut' ⊢
        rw [Cut, List.pairwise_append, List.pairwise_cons] at hcut'
        obtain ⟨_, ⟨q1, _⟩, q2⟩ := hcut'
        have hk1' : cmp k k1.1 = 0 := hk1
        rw [List.filter_append, List.filter_cons_of_neg (by simp [hk1'])]
        have e1 : L.filter (fun e => decide (cmp k e.1 ≠ 0)) = L := by
          rw [List.filter_eq_self]
          intro x hx
          have := (q2 x hx k1 (by simp)).1 (by omega)
          simp only [keyCmp] at this
          simp only [decide_eq_true_eq]
          omega
        have e2 : R.filter (fun e => decide (cmp k e.1 ≠ 0)) = R := by
          rw [List.filter_eq_self]
          intro x hx
          have := (q1 x hx).2 (by omega)
          simp only [keyCmp] at this
          simp only [decide_eq_true_eq]
          omega
        rw [e1, e2]
      constructor
      · exact i'
      · simp only [Option.getD_some, hino']
        rw [List.pairwise_append, List.pairwise_cons] at hsorted
        rw [List.pairwise_append]
        exact ⟨hsorted.1, hsorted.2.1.2, fun x hx y hy => hsorted.2.2 x hx y (by simp [hy])⟩
      · simp only [Option.getD_some, hino', ← hfl]
        exact r.perm.filter _
      · rfl
      · show m.size - 1 = _
        rw [r.size, erase_length_of_present ho k A (r.uniq ho) hpr]
      · intro hne e he
        exact r.nonnull hne e ((List.mem_filter.1 he).1)

theorem Rel_mk (cmp : K → K → Int) (kp vp : Policy) : Rel cmp (mkE kp vp : Map K V) [] where
  inv := trivial
  sorted := List.Pairwise.nil
  perm := List.Perm.refl _
  order := rfl
  size := rfl
  nonnull := by simp

end Verif.Map
