import Verif.Set.Lemmas

/-! # Properties of `cee_set` (C07, C08, C09, C51) -/

namespace Verif.Set.Props

open Tree (visited inorder)
open Map.Spec (IsOrd)
open Map (ord_symm0 ord_congr0)
open Spec (Op)

variable {E : Type} [DecidableEq E] {cmp : E → E → Int}

/-- run one user operation on the model of set.c -/
def exec (cmp : E → E → Int) (s : Set E) : Op E → Res (Option E × Set E)
  | .add x => (Set.add cmp s x).map (fun s' => (none, s'))
  | .remove x => Set.remove cmp s x
  | .clear => .ok (none, Set.clear s)
  | .find x => .ok (Set.find cmp s x, s)

def execAll (cmp : E → E → Int) (s : Set E) : List (Op E) → Res (List (Option E) × Set E)
  | [] => .ok ([], s)
  | op :: ops =>
    (exec cmp s op).bind (fun r => (execAll cmp r.2 ops).map (fun r' => (r.1 :: r'.1, r'.2)))

theorem exec_spec (ho : IsOrd cmp) {s : Set E} {A : List E} (r : Rel cmp s A)
    (hn : A.length < 2 ^ 64) (op : Op E) :
    ∃ s', exec cmp s op = .ok ((Spec.step cmp A op).1, s') ∧
      Rel cmp s' (Spec.step cmp A op).2 ∧ (Spec.step cmp A op).2.length ≤ A.length + 1 ∧
      (s.size = A.length → (∀ x, op = .add x → x ∉ A) →
        s'.size = (Spec.step cmp A op).2.length) := by
  cases op with
  | add x =>
    obtain ⟨s', h, _, r', hs⟩ := add_spec ho r hn x
    refine ⟨s', by simp [exec, h, Res.map, Spec.step], r', insert_length _ _, ?_⟩
    intro hsz hx
    rw [hs]
    simp only [hx x rfl, false_or, Spec.step, Spec.insert]
    cases Spec.member cmp A x <;> simp [hsz]
  | remove x =>
    obtain ⟨s', h, _, r', hs⟩ := remove_spec ho r hn x
    refine ⟨s', h, r', ?_, ?_⟩
    · have := erase_length_le (cmp := cmp) A x
      simp only [Spec.step]; omega
    · intro hsz _
      rw [hs]
      simp only [Spec.step]
      split
      · next hnone =>
        have : Spec.erase cmp A x = A := by
          unfold Spec.erase
          rw [List.filter_eq_self]
          intro e he
          simpa using member_none.1 hnone e he
        rw [this, hsz]
      · next hne =>
        have := erase_length ho A (r.uniq ho) x hne
        rw [hsz, decr64, if_neg (by omega)]
        omega
  | clear =>
    exact ⟨Set.clear s, rfl, Rel_mk cmp s.pol, by simp [Spec.step], fun _ _ => rfl⟩
  | find x =>
    exact ⟨s, by simp [exec, Set.find, tfind_member ho r, Spec.step], r, by simp [Spec.step],
      fun h _ => by simpa [Spec.step] using h⟩

theorem execAll_spec (ho : IsOrd cmp) (ops : List (Op E)) {s : Set E} {A : List E}
    (r : Rel cmp s A) (hn : A.length + ops.length < 2 ^ 64) :
    ∃ s', execAll cmp s ops = .ok ((Spec.run cmp A ops).1, s') ∧
      Rel cmp s' (Spec.run cmp A ops).2 ∧ (Spec.run cmp A ops).2.length ≤ A.length + ops.length ∧
      (s.size = A.length → Spec.NoReadd cmp A ops → s'.size = (Spec.run cmp A ops).2.length) := by
  induction ops generalizing s A with
  | nil => exact ⟨s, rfl, r, by simp [Spec.run], fun h _ => by simpa [Spec.run] using h⟩
  | cons op ops ih =>
    simp only [List.length_cons] at hn
    obtain ⟨s1, h1, r1, l1, z1⟩ := exec_spec ho r (by omega) op
    obtain ⟨s2, h2, r2, l2, z2⟩ := ih r1 (by omega)
    refine ⟨s2, by simp [execAll, h1, Res.bind, Res.map, h2, Spec.run], r2, ?_, ?_⟩
    · simp only [Spec.run, List.length_cons] at *; omega
    · intro hsz hnr
      apply z2
      · apply z1 hsz
        intro x hx; subst hx
        exact hnr.1
      · cases op <;> first | exact hnr.2 | exact hnr

/-- **C07.**  Any history of fewer than 2^64 set operations on a fresh set with any total-order
comparator: no undefined behaviour, every pointer returned by `cee_set_find` and `cee_set_remove` is
the one of the abstract set (first of equal elements kept), `cee_set_values` lists each member
exactly once, and if no stored pointer was added again `cee_set_size` is the number of members. -/
theorem C07_set_refines (ho : IsOrd cmp) (pol : Policy) (ops : List (Op E))
    (hn : ops.length < 2 ^ 64) :
    ∃ s, execAll cmp (Set.mkE pol) ops = .ok ((Spec.run cmp [] ops).1, s) ∧
      (Set.values s).Perm (Spec.run cmp [] ops).2 ∧
      (Set.values s).Pairwise (fun a b => cmp a b ≠ 0) ∧
      (Spec.NoReadd cmp [] ops → Set.sizeOf s = (Spec.run cmp [] ops).2.length) := by
  obtain ⟨s, h, r, _, hz⟩ := execAll_spec ho ops (Rel_mk cmp pol) (by simpa using hn)
  have hp := (Tree.visited_perm s.tree r.inv).trans r.perm
  exact ⟨s, h, hp, hp.symm.pairwise (r.uniq ho) (fun h h' => h (ord_symm0 ho h')), hz rfl⟩

/-- compare pairs by their first component: equal elements may be different pointers -/
def fstCmp (a b : Nat × Nat) : Int := (a.1 : Int) - b.1

theorem fstCmp_ord : IsOrd fstCmp where
  refl a := by simp [fstCmp]
  swap a b := by simp only [fstCmp]; omega
  trans a b c := by simp only [fstCmp]; omega

def demoOps : List (Op (Nat × Nat)) :=
  [.add (5, 1), .add (3, 1), .add (5, 2), .find (5, 9), .remove (3, 7), .add (8, 1), .find (3, 1)]

/-- a history that adds an equal but different element meets the hypotheses (also `NoReadd`); the
first of the two equal elements is the one found -/
example : IsOrd fstCmp ∧ demoOps.length < 2 ^ 64 ∧ Spec.NoReadd fstCmp [] demoOps ∧
    Spec.run fstCmp [] demoOps =
      ([none, none, none, some (5, 1), some (3, 1), none, none], [(5, 1), (8, 1)]) := by
  refine ⟨fstCmp_ord, by decide, ?_, by decide⟩
  simp only [demoOps, Spec.NoReadd]
  decide

/-- **C08 is false of the code.**  Adding a stored pointer again increments `cee_set_size`. -/
theorem C08_readd_size_false :
    ∃ (s s' : Set Nat), Set.add (fun a b : Nat => (a : Int) - b) (Set.mkE .noop) 7 = .ok s ∧
      Set.add (fun a b : Nat => (a : Int) - b) s 7 = .ok s' ∧
      Set.values s' = [7] ∧ Set.sizeOf s = 1 ∧ Set.sizeOf s' = 2 := by
  refine ⟨_, _, rfl, rfl, ?_, ?_, ?_⟩ <;> decide

/-- **C08, what does hold** (`_partial`: only for an element that equals a member without being the
very same pointer; the full claim is refuted by `C08_readd_size_false`): after any history, adding an
element equal to a member, but not itself a member, changes nothing at all. -/
theorem C08_readd_partial (ho : IsOrd cmp) (pol : Policy) (ops : List (Op E))
    (hn : ops.length < 2 ^ 64 - 1) (x : E)
    (heq : ∃ e ∈ (Spec.run cmp [] ops).2, cmp x e = 0) (hne : x ∉ (Spec.run cmp [] ops).2) :
    ∃ o s, execAll cmp (Set.mkE pol) ops = .ok (o, s) ∧ Set.add cmp s x = .ok s := by
  obtain ⟨s, h, r, l, hz⟩ := execAll_spec ho ops (Rel_mk cmp pol) (by simp; omega)
  refine ⟨_, s, h, ?_⟩
  obtain ⟨e, he, hx⟩ := heq
  have hm : Spec.member cmp (Spec.run cmp [] ops).2 x = some e := member_unique ho (r.uniq ho) he hx
  have hcnt := r.count_lt (by simp only [List.length_nil] at l; omega)
  unfold Set.add
  rcases Tree.tsearch_spec (cmp x) x s.tree r.inv (sorted_cut ho r.sorted x) hcnt with
    ⟨old, hmem, h0, hs, hfind⟩ | ⟨t', L, R, hs, i', hino, hino', hL, hR⟩
  · rw [hs]
    have : old ≠ x := by
      rintro rfl
      exact hne (r.perm.mem_iff.1 hmem)
    simp [this]
  · have := r.perm.mem_iff.2 he
    rw [hino, List.mem_append] at this
    rcases this with h | h
    · have := hL e h; omega
    · have := hR e h; omega

example : (∃ e ∈ (Spec.run fstCmp [] demoOps).2, fstCmp (5, 2) e = 0) ∧
    (5, 2) ∉ (Spec.run fstCmp [] demoOps).2 := by decide

/-- members up to `cmp` equality -/
def Has (cmp : E → E → Int) (l : List E) (k : E) : Prop := ∃ e ∈ l, cmp k e = 0

omit [DecidableEq E] in
theorem insert_has (ho : IsOrd cmp) (A : List E) (x k : E) :
    Has cmp (Spec.insert cmp A x) k ↔ Has cmp A k ∨ cmp k x = 0 := by
  unfold Spec.insert Has
  cases hm : Spec.member cmp A x with
  | none =>
    simp only [Option.isSome_none, Bool.false_eq_true, if_false, List.mem_append,
      List.mem_singleton]
    constructor
    · rintro ⟨e, he | rfl, h⟩
      · exact .inl ⟨e, he, h⟩
      · exact .inr h
    · rintro (⟨e, he, h⟩ | h)
      · exact ⟨e, .inl he, h⟩
      · exact ⟨x, .inr rfl, h⟩
  | some y =>
    simp only [Option.isSome_some, if_true]
    obtain ⟨hy, h0⟩ := member_some hm
    constructor
    · exact .inl
    · rintro (h | h)
      · exact h
      · exact ⟨y, hy, ord_congr0 ho (ord_symm0 ho h) h0⟩

omit [DecidableEq E] in
theorem foldl_insert_has (ho : IsOrd cmp) (l A : List E) (k : E) :
    Has cmp (l.foldl (Spec.insert cmp) A) k ↔ Has cmp A k ∨ Has cmp l k := by
  induction l generalizing A with
  | nil => simp [Has]
  | cons x l ih =>
    rw [List.foldl_cons, ih, insert_has ho]
    have : Has cmp (x :: l) k ↔ cmp k x = 0 ∨ Has cmp l k := by simp [Has]
    rw [this, or_assoc]

omit [DecidableEq E] in
/-- a member that was there first stays -/
theorem foldl_insert_keeps (l A : List E) (x : E) (h : x ∈ A) :
    x ∈ l.foldl (Spec.insert cmp) A := by
  induction l generalizing A with
  | nil => exact h
  | cons y l ih =>
    rw [List.foldl_cons]
    apply ih
    unfold Spec.insert
    split
    · exact h
    · simp [h]

omit [DecidableEq E] in
theorem foldl_insert_copy (ho : IsOrd cmp) (l A : List E)
    (hu : (A ++ l).Pairwise (fun a b => cmp a b ≠ 0)) : l.foldl (Spec.insert cmp) A = A ++ l := by
  induction l generalizing A with
  | nil => simp
  | cons x l ih =>
    have : Spec.insert cmp A x = A ++ [x] := by
      unfold Spec.insert
      have : Spec.member cmp A x = none := by
        rw [member_none]
        intro e he h0
        rw [List.pairwise_append] at hu
        exact hu.2.2 e he x (by simp) (ord_symm0 ho h0)
      simp [this]
    rw [List.foldl_cons, this, ih _ (by simpa using hu)]
    simp

omit [DecidableEq E] in
theorem foldl_insert_length (l A : List E) :
    (l.foldl (Spec.insert cmp) A).length ≤ A.length + l.length := by
  induction l generalizing A with
  | nil => simp
  | cons x l ih =>
    have h1 := ih (Spec.insert cmp A x)
    have h2 := insert_length (cmp := cmp) A x
    simp only [List.foldl_cons, List.length_cons]
    omega

/-- size bookkeeping while adding a list none of whose elements is stored -/
theorem addAll_size (ho : IsOrd cmp) (l : List E) {s : Set E} {A : List E} (r : Rel cmp s A)
    (hn : A.length + l.length < 2 ^ 64) (hsz : s.size = A.length)
    (hd : ∀ x ∈ l, x ∉ A) (hnd : l.Pairwise (fun a b => a ≠ b)) :
    ∃ s', addAll cmp s l = .ok s' ∧ s'.size = (l.foldl (Spec.insert cmp) A).length := by
  induction l generalizing s A with
  | nil => exact ⟨s, rfl, hsz⟩
  | cons x l ih =>
    simp only [List.length_cons] at hn
    obtain ⟨s1, h1, p1, r1, z1⟩ := add_spec ho r (by omega) x
    rw [List.pairwise_cons] at hnd
    have hx := hd x (by simp)
    have hsz1 : s1.size = (Spec.insert cmp A x).length := by
      rw [z1]
      simp only [hx, false_or, Spec.insert]
      cases Spec.member cmp A x <;> simp [hsz]
    obtain ⟨s2, h2, z2⟩ := ih r1 (by have := insert_length (cmp := cmp) A x; omega) hsz1
      (by
        intro y hy hyA
        unfold Spec.insert at hyA
        split at hyA
        · exact hd y (by simp [hy]) hyA
        · simp only [List.mem_append, List.mem_singleton] at hyA
          rcases hyA with h | rfl
          · exact hd y (by simp [hy]) h
          · exact hnd.1 y hy rfl) hnd.2
    exact ⟨s2, by simp [addAll, h1, h2], z2⟩

/-- **C09 (union).**  For two sets produced by arbitrary histories (fewer than 2^31 operations each)
with the same comparator, the union has no undefined behaviour, its members up to `cmp` equality are
exactly those of both arguments, each class once, and every element of the first argument is itself a
member.  If the two sets share no pointer, the size of the union is its number of members. -/
theorem C09_union (ho : IsOrd cmp) (p1 p2 : Policy) (ops1 ops2 : List (Op E))
    (h1 : ops1.length < 2 ^ 31) (h2 : ops2.length < 2 ^ 31) :
    ∃ o1 o2 s1 s2 s, execAll cmp (Set.mkE p1) ops1 = .ok (o1, s1) ∧
      execAll cmp (Set.mkE p2) ops2 = .ok (o2, s2) ∧ Set.union cmp s1 s2 = .ok s ∧
      (∀ k, Has cmp (Set.values s) k ↔ Has cmp (Set.values s1) k ∨ Has cmp (Set.values s2) k) ∧
      (Set.values s).Pairwise (fun a b => cmp a b ≠ 0) ∧
      (∀ x ∈ Set.values s1, x ∈ Set.values s) ∧
      ((∀ x ∈ Set.values s2, x ∉ Set.values s1) → Set.sizeOf s = (Set.values s).length) := by
  obtain ⟨s1, e1, r1, l1, _⟩ := execAll_spec ho ops1 (Rel_mk cmp p1) (by simp; omega)
  obtain ⟨s2, e2, r2, l2, _⟩ := execAll_spec ho ops2 (Rel_mk cmp p2) (by simp; omega)
  simp only [List.length_nil, Nat.zero_add] at l1 l2
  have hp1 := (Tree.visited_perm s1.tree r1.inv).trans r1.perm
  have hp2 := (Tree.visited_perm s2.tree r2.inv).trans r2.perm
  have len1 : (Set.values s1).length < 2 ^ 31 := by
    unfold Set.values; rw [hp1.length_eq]; omega
  have len2 : (Set.values s2).length < 2 ^ 31 := by
    unfold Set.values; rw [hp2.length_eq]; omega
  have u1 : (Set.values s1).Pairwise (fun a b => cmp a b ≠ 0) :=
    hp1.symm.pairwise (r1.uniq ho) (fun h h' => h (ord_symm0 ho h'))
  have u2 : (Set.values s2).Pairwise (fun a b => cmp a b ≠ 0) :=
    hp2.symm.pairwise (r2.uniq ho) (fun h h' => h (ord_symm0 ho h'))
  have nd : ∀ {l : List E}, l.Pairwise (fun a b => cmp a b ≠ 0) → l.Pairwise (fun a b => a ≠ b) :=
    fun h => h.imp (fun hab heq => hab (by subst heq; exact ho.refl _))
  obtain ⟨s0, e0, _, r0⟩ := addAll_spec ho (Set.values s1) (Rel_mk cmp .rc) (by simp; omega)
  obtain ⟨s0', e0', z0⟩ := addAll_size ho (Set.values s1) (Rel_mk cmp .rc) (by simp; omega) rfl
    (by simp) (nd u1)
  rw [foldl_insert_copy ho _ [] (by simpa using u1)] at r0 z0
  simp only [List.nil_append] at r0 z0
  rw [e0] at e0'
  simp only [Res.ok.injEq] at e0'
  subst e0'
  obtain ⟨s, e, _, r⟩ := addAll_spec ho (Set.values s2) r0 (by omega)
  have hp := (Tree.visited_perm s.tree r.inv).trans r.perm
  have hhas : ∀ {l l' : List E}, l.Perm l' → ∀ k, Has cmp l k ↔ Has cmp l' k := by
    intro l l' hperm k
    exact ⟨fun ⟨e, he, h⟩ => ⟨e, hperm.mem_iff.1 he, h⟩, fun ⟨e, he, h⟩ => ⟨e, hperm.mem_iff.2 he, h⟩⟩
  refine ⟨_, _, s1, s2, s, e1, e2, ?_, ?_, ?_, ?_, ?_⟩
  · unfold Set.union
    rw [if_neg (by omega)]
    have e0'' : addAll cmp Set.mkDefault (Set.values s1) = .ok s0 := e0
    rw [e0'']
    exact e
  · intro k
    unfold Set.values at *
    rw [hhas hp k, foldl_insert_has ho]
  · exact hp.symm.pairwise (r.uniq ho) (fun h h' => h (ord_symm0 ho h'))
  · intro x hx
    exact hp.mem_iff.2 (foldl_insert_keeps _ _ _ hx)
  · intro hdis
    obtain ⟨s', e', z⟩ := addAll_size ho (Set.values s2) r0 (by omega) z0 hdis (nd u2)
    rw [e] at e'
    simp only [Res.ok.injEq] at e'
    subst e'
    unfold Set.sizeOf Set.values
    rw [z, hp.length_eq]

/-- two overlapping sets: class 5 is in both (different pointers), the pointer of the first wins -/
example :
    let ops2 : List (Op (Nat × Nat)) := [.add (5, 7), .add (6, 7)]
    demoOps.length < 2 ^ 31 ∧ ops2.length < 2 ^ 31 ∧
    (match execAll fstCmp (Set.mkE .rc) demoOps, execAll fstCmp (Set.mkE .rc) ops2 with
     | .ok (_, s1), .ok (_, s2) =>
       (match Set.union fstCmp s1 s2 with
        | .ok s => decide (Set.values s = [(6, 7), (5, 1), (8, 1)] ∧ Set.sizeOf s = 3 ∧
                     ∀ x ∈ Set.values s2, x ∉ Set.values s1)
        | _ => false)
     | _, _ => false) = true := by decide

/-- **C09 (clone).**  The clone of a set produced by any history has exactly the same members and
its size is their number. -/
theorem C09_clone (ho : IsOrd cmp) (pol : Policy) (ops : List (Op E)) (h : ops.length < 2 ^ 64) :
    ∃ o s s', execAll cmp (Set.mkE pol) ops = .ok (o, s) ∧ Set.clone cmp s = .ok s' ∧
      (Set.values s').Perm (Set.values s) ∧ Set.sizeOf s' = (Set.values s).length ∧
      (∀ k, Set.find cmp s' k = Set.find cmp s k) := by
  obtain ⟨s, e, r, l, _⟩ := execAll_spec ho ops (Rel_mk cmp pol) (by simpa using h)
  simp only [List.length_nil, Nat.zero_add] at l
  have hp := (Tree.visited_perm s.tree r.inv).trans r.perm
  have len : (Set.values s).length < 2 ^ 64 := by
    unfold Set.values; rw [hp.length_eq]; omega
  have u : (Set.values s).Pairwise (fun a b => cmp a b ≠ 0) :=
    hp.symm.pairwise (r.uniq ho) (fun h h' => h (ord_symm0 ho h'))
  have nd : (Set.values s).Pairwise (fun a b => a ≠ b) :=
    u.imp (fun hab heq => hab (by subst heq; exact ho.refl _))
  obtain ⟨s', e', _, r'⟩ := addAll_spec ho (Set.values s) (Rel_mk cmp s.pol) (by simpa using len)
  obtain ⟨s'', e'', z⟩ := addAll_size ho (Set.values s) (Rel_mk cmp s.pol) (by simpa using len) rfl
    (by simp) nd
  rw [e'] at e''
  simp only [Res.ok.injEq] at e''
  subst e''
  rw [foldl_insert_copy ho _ [] (by simpa using u)] at r' z
  simp only [List.nil_append] at r' z
  have hp' := (Tree.visited_perm s'.tree r'.inv).trans r'.perm
  refine ⟨_, s, s', e, by rw [clone_addAll]; exact e', hp', z, ?_⟩
  intro k
  unfold Set.find
  rw [tfind_member ho r', tfind_member ho r]
  cases hm : Spec.member cmp (Spec.run cmp [] ops).2 k with
  | none =>
    rw [member_none] at hm ⊢
    intro e he
    exact hm e (hp.mem_iff.1 he)
  | some x =>
    obtain ⟨hx, h0⟩ := member_some hm
    exact member_unique ho u (hp.mem_iff.2 hx) h0

example : IsOrd fstCmp ∧ demoOps.length < 2 ^ 64 ∧ (Spec.run fstCmp [] demoOps).2.length = 2 :=
  ⟨fstCmp_ord, by decide, by decide⟩

omit [DecidableEq E] in
/-- **C51 is false of the code.**  Deleting a set (`cee_del`, which traces with DEL_FOLLOW) has
undefined behaviour for every non-empty set: the NULL context of `musl_tdestroy` is dereferenced.
Only the empty set can be deleted. -/
theorem C51_set_delete_false (s : Set E) : Set.delFollow s = .ok () ↔ s.tree = .nil := by
  unfold Set.delFollow
  have hp := Tree.tdestroy_perm s.tree
  cases ht : s.tree with
  | nil => simp [Tree.tdestroy]
  | node k a0 a1 h =>
    rw [ht] at hp
    have hlen := hp.length_eq
    simp only [inorder, List.length_append, List.length_cons] at hlen
    cases hd : Tree.tdestroy (.node k a0 a1 h) with
    | nil => rw [hd] at hlen; simp only [List.length_nil] at hlen; omega
    | cons x xs => simp

/-- witness: a set with one element -/
example : ∃ s : Set Nat, Set.add (fun a b : Nat => (a : Int) - b) (Set.mkE .del) 7 = .ok s ∧
    Set.delFollow s = .ub := ⟨_, rfl, rfl⟩

end Verif.Set.Props
