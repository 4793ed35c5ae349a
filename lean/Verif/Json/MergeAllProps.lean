import Verif.Json.MergeAll
import Verif.Json.MergeProps

/-!
# Merging JSON files: the properties (C96)
-/

namespace Verif.Json

/-! ## values that differ in the order of keys only -/

/-- the same value up to the order of the keys of its objects -/
inductive KeyEq : Val → Val → Prop
  | atom (a : Atom) : KeyEq (.atom a) (.atom a)
  | arr {xs ys : List Val} : xs.length = ys.length →
      (∀ (i : Nat) (x y : Val), xs[i]? = some x → ys[i]? = some y → KeyEq x y) → KeyEq (.arr xs) (.arr ys)
  | obj {a b : List (List Byte × Val)} : (a.map (·.1)).Nodup → (b.map (·.1)).Nodup →
      (∀ k, (a.lookup k).isSome = (b.lookup k).isSome) →
      (∀ (k : List Byte) (x y : Val), a.lookup k = some x → b.lookup k = some y → KeyEq x y) → KeyEq (.obj a) (.obj b)

theorem lookup_of_mem {l : List (List Byte × Val)} (hn : (l.map (·.1)).Nodup) {e : List Byte × Val} (he : e ∈ l) :
    l.lookup e.1 = some e.2 := by
  induction l with
  | nil => simp at he
  | cons a l ih =>
    rw [List.map_cons, List.nodup_cons] at hn
    rw [List.lookup_cons]
    rcases List.mem_cons.1 he with rfl | he
    · simp
    · have : e.1 ≠ a.1 := fun h => hn.1 (h ▸ List.mem_map.2 ⟨e, he, rfl⟩)
      rw [beq_false_of_ne this]
      exact ih hn.2 he

/-- the entry of the one object that belongs to an entry of the other -/
theorem partner {a b : List (List Byte × Val)} (hn : (b.map (·.1)).Nodup)
    (hk : ∀ k, (a.lookup k).isSome = (b.lookup k).isSome) {e : List Byte × Val} (he : e ∈ b) :
    ∃ x, a.lookup e.1 = some x ∧ b.lookup e.1 = some e.2 := by
  have h := lookup_of_mem hn he
  have := hk e.1
  rw [h] at this
  obtain ⟨x, hx⟩ := Option.isSome_iff_exists.1 this
  exact ⟨x, hx, h⟩

theorem KeyEq.all {pa : Atom → Prop} {pk : List Byte → Prop} {v w : Val} (h : KeyEq v w) :
    v.All pa pk → w.All pa pk := by
  induction h with
  | atom => exact id
  | arr hl _ ih =>
    intro hv
    rw [Val.All, allL_mem] at hv ⊢
    intro y hy
    obtain ⟨i, hi, rfl⟩ := List.getElem_of_mem hy
    exact ih i _ _ (List.getElem?_eq_getElem (by omega)) (List.getElem?_eq_getElem hi) (hv _ (List.getElem_mem _))
  | obj h1 h2 hk _ ih =>
    intro hv
    rw [Val.All, allF_mem] at hv ⊢
    intro e he
    obtain ⟨x, hx, hy⟩ := partner h2 hk he
    have := hv _ (lookup_mem hx)
    exact ⟨this.1, ih _ _ _ hx hy this.2⟩

theorem heightL_le {xs : List Val} {n : Nat} (h : ∀ x ∈ xs, x.height ≤ n) : heightL xs ≤ n := by
  induction xs with
  | nil => simp [heightL]
  | cons x xs ih =>
    rw [List.forall_mem_cons] at h
    rw [heightL]
    have := ih h.2
    have := h.1
    omega

theorem heightF_le {xs : List (List Byte × Val)} {n : Nat} (h : ∀ x ∈ xs, x.2.height ≤ n) : heightF xs ≤ n := by
  induction xs with
  | nil => simp [heightF]
  | cons x xs ih =>
    obtain ⟨k, x⟩ := x
    rw [List.forall_mem_cons] at h
    rw [heightF]
    have := ih h.2
    have : x.height ≤ n := h.1
    omega

theorem KeyEq.height {v w : Val} (h : KeyEq v w) : w.height ≤ v.height := by
  induction h with
  | atom => exact Nat.le_refl _
  | arr hl _ ih =>
    rw [Val.height, Val.height]
    refine Nat.add_le_add_left (heightL_le fun y hy => ?_) 1
    obtain ⟨i, hi, rfl⟩ := List.getElem_of_mem hy
    exact Nat.le_trans (ih i _ _ (List.getElem?_eq_getElem (by omega)) (List.getElem?_eq_getElem hi))
      (heightL_mem (List.getElem_mem _))
  | obj h1 h2 hk _ ih =>
    rw [Val.height, Val.height]
    refine Nat.add_le_add_left (heightF_le fun e he => ?_) 1
    obtain ⟨x, hx, hy⟩ := partner h2 hk he
    exact Nat.le_trans (ih _ _ _ hx hy) (heightF_mem (lookup_mem hx))

theorem KeyEq.distinct {v w : Val} (h : KeyEq v w) : v.Distinct → w.Distinct := by
  induction h with
  | atom => exact id
  | arr hl _ ih =>
    intro hv
    rw [Val.Distinct, distinctL_mem] at hv ⊢
    intro y hy
    obtain ⟨i, hi, rfl⟩ := List.getElem_of_mem hy
    exact ih i _ _ (List.getElem?_eq_getElem (by omega)) (List.getElem?_eq_getElem hi) (hv _ (List.getElem_mem _))
  | obj h1 h2 hk _ ih =>
    intro hv
    rw [Val.Distinct, distinctF_mem] at hv ⊢
    refine ⟨h2, fun e he => ?_⟩
    obtain ⟨x, hx, hy⟩ := partner h2 hk he
    exact ih _ _ _ hx hy (hv.2 _ (lookup_mem hx))

theorem nodesF_sum (l : List (List Byte × Val)) (hn : (l.map (·.1)).Nodup) :
    nodesF l = ((l.map (·.1)).map fun k => ((l.lookup k).map Val.nodes).getD 0).sum := by
  have key : ∀ l', (∀ e ∈ l', l.lookup e.1 = some e.2) →
      nodesF l' = ((l'.map (·.1)).map fun k => ((l.lookup k).map Val.nodes).getD 0).sum := by
    intro l' h
    induction l' with
    | nil => rfl
    | cons e l' ih =>
      obtain ⟨k, x⟩ := e
      rw [List.forall_mem_cons] at h
      have h1 := h.1
      simp only at h1
      rw [nodesF, ih h.2, List.map_cons, List.map_cons, List.sum_cons, h1]
      rfl
  exact key l fun e he => lookup_of_mem hn he

theorem sum_perm {l l' : List Nat} (h : l.Perm l') : l.sum = l'.sum := by
  induction h with
  | nil => rfl
  | cons _ _ ih => rw [List.sum_cons, List.sum_cons, ih]
  | swap => simp only [List.sum_cons]; omega
  | trans _ _ h1 h2 => rw [h1, h2]

theorem nodesL_eq {xs ys : List Val} (hl : xs.length = ys.length)
    (ih : ∀ (i : Nat) (x y : Val), xs[i]? = some x → ys[i]? = some y → y.nodes = x.nodes) : nodesL ys = nodesL xs := by
  induction xs generalizing ys with
  | nil => cases ys with
    | nil => rfl
    | cons _ _ => simp at hl
  | cons x xs ih' =>
    cases ys with
    | nil => simp at hl
    | cons y ys =>
      rw [nodesL, nodesL, ih 0 x y rfl rfl, ih' (by simpa using hl) fun i x y h1 h2 => ih (i + 1) x y h1 h2]

theorem KeyEq.nodes {v w : Val} (h : KeyEq v w) : w.nodes = v.nodes := by
  induction h with
  | atom => rfl
  | @arr xs ys hl _ ih =>
    rw [Val.nodes, Val.nodes]
    rw [nodesL_eq hl ih]
  | @obj a b h1 h2 hk _ ih =>
    rw [Val.nodes, Val.nodes, nodesF_sum a h1, nodesF_sum b h2]
    congr 1
    have hp : (b.map (·.1)).Perm (a.map (·.1)) :=
      (List.perm_ext_iff_of_nodup h2 h1).2 fun k => by rw [← lookup_isSome, ← lookup_isSome, hk]
    refine (sum_perm (hp.map _)).trans ?_
    congr 1
    refine List.map_congr_left fun k hka => ?_
    obtain ⟨x, hx⟩ := Option.isSome_iff_exists.1 (lookup_isSome.2 hka)
    have := hk k
    rw [hx] at this
    obtain ⟨y, hy⟩ := Option.isSome_iff_exists.1 this.symm
    rw [hx, hy, Option.map_some, Option.map_some, ih k x y hx hy]

theorem nsteps_le (v : Val) : nsteps v ≤ 2 * v.nodes - 1 := by
  induction v using Val.ind with
  | h0 a => rw [nsteps, Val.nodes]; omega
  | ha xs ih =>
    have : nstepsL xs ≤ 2 * nodesL xs := by
      induction xs with
      | nil => simp [nstepsL, nodesL]
      | cons x xs ih' =>
        rw [nstepsL, nodesL]
        have h1 := ih x (by simp)
        have h2 := ih' fun y hy => ih y (by simp [hy])
        have := x.nodes_pos
        omega
    rw [nsteps, Val.nodes]; omega
  | ho xs ih =>
    have : nstepsF xs ≤ 2 * nodesF xs := by
      induction xs with
      | nil => simp [nstepsF, nodesF]
      | cons x xs ih' =>
        obtain ⟨k, x⟩ := x
        rw [nstepsF, nodesF]
        have h1 := ih (k, x) (by simp)
        simp only at h1
        have h2 := ih' fun y hy => ih y (by simp [hy])
        have := x.nodes_pos
        omega
    rw [nsteps, Val.nodes]; omega

/-! ## what the printer sees -/

theorem readElems_spec {f : Nat → Res (Option Val)} (rs : List Nat) (xs : List Val) (hl : rs.length = xs.length)
    (hf : ∀ (i : Nat) (c : Nat) (x : Val), rs[i]? = some c → xs[i]? = some x → ∃ y, f c = .ok (some y) ∧ KeyEq x y) :
    ∃ ys, readElems f rs = .ok (some ys) ∧ KeyEq (.arr xs) (.arr ys) := by
  induction rs generalizing xs with
  | nil =>
    cases xs with
    | nil => exact ⟨[], rfl, .arr rfl (by simp)⟩
    | cons _ _ => simp at hl
  | cons c rs ih =>
    cases xs with
    | nil => simp at hl
    | cons x xs =>
      obtain ⟨y, e, hy⟩ := hf 0 c x rfl rfl
      obtain ⟨ys, e', hys⟩ := ih xs (by simpa using hl) fun i c x h1 h2 => hf (i + 1) c x h1 h2
      refine ⟨y :: ys, by rw [readElems, e, Res.bind_ok]; dsimp only; rw [e']; rfl, ?_⟩
      cases hys with
      | arr h1 h2 =>
        refine .arr (by simp [h1]) fun i a b ha hb => ?_
        cases i with
        | zero =>
          simp only [List.getElem?_cons_zero, Option.some.injEq] at ha hb
          subst ha hb; exact hy
        | succ i => exact h2 i a b ha hb

theorem readKeys_spec {f : Nat → Res (Option Val)} {m : ObjMap} {kvs : List (List Byte × Val)} (ks : List (List Byte))
    (hin : ∀ k ∈ ks, ∃ c x y, Map.find strcmp m (some k) = some c ∧ kvs.lookup k = some x ∧ f c = .ok (some y) ∧ KeyEq x y) :
    ∃ es, readKeys f m ks = .ok (some es) ∧ es.map (·.1) = ks ∧
      ∀ k y, es.lookup k = some y → ∃ x, kvs.lookup k = some x ∧ KeyEq x y := by
  induction ks with
  | nil => exact ⟨[], rfl, rfl, by simp⟩
  | cons k ks ih =>
    rw [List.forall_mem_cons] at hin
    obtain ⟨⟨c, x, y, h1, h2, h3, h4⟩, hin⟩ := hin
    obtain ⟨es, e, e1, e2⟩ := ih hin
    refine ⟨(k, y) :: es, ?_, by simp [e1], fun k' y' hk => ?_⟩
    · rw [readKeys, h1]; dsimp only; rw [h3, Res.bind_ok]; dsimp only; rw [e]; rfl
    · rw [List.lookup_cons] at hk
      by_cases he : k' = k
      · subst he
        simp only [beq_self_eq_true, Option.some.injEq] at hk
        subst hk
        exact ⟨x, h2, h4⟩
      · rw [beq_false_of_ne he] at hk
        exact e2 k' y' hk

theorem readVal_spec {h : Heap} {S : List Step → Nat → Prop} {p : List Step} {r : Nat} {v : Val}
    (hr : Reps h S p r v) : ∀ n, v.height ≤ n → ∃ w, readVal h n r = .ok (some w) ∧ KeyEq v w := by
  induction hr with
  | @atom p r a hs hn =>
    intro n hle
    obtain ⟨n, rfl⟩ : ∃ k, n = k + 1 := ⟨n - 1, by rw [Val.height] at hle; omega⟩
    exact ⟨_, by rw [readVal, hn], .atom a⟩
  | @arr p r rs xs hs hn hl _ ih =>
    intro n hle
    rw [Val.height] at hle
    obtain ⟨n, rfl⟩ : ∃ k, n = k + 1 := ⟨n - 1, by omega⟩
    obtain ⟨ys, e, hys⟩ := readElems_spec (f := readVal h n) rs xs hl fun i c x h1 h2 =>
      ih i c x h1 h2 n (by have := heightL_mem (List.mem_of_getElem? h2); omega)
    exact ⟨.arr ys, by rw [readVal, hn]; dsimp only; rw [e]; rfl, hys⟩
  | @obj p r m kvs hs hn ho _ ih =>
    intro n hle
    rw [Val.height] at hle
    obtain ⟨n, rfl⟩ : ∃ k, n = k + 1 := ⟨n - 1, by omega⟩
    obtain ⟨A, hA, -⟩ := ho.rel
    have hord : ∀ k, k ∈ m.order ↔ (Map.find strcmp m (some k)).isSome := by
      intro k
      rw [hA.order, Map.find_spec strcmp_ord hA]
      constructor
      · intro hk
        obtain ⟨e, he, rfl⟩ := List.mem_map.1 hk
        rw [Map.Spec.lookup, Map.find_unique strcmp_ord (hA.uniq strcmp_ord) he (strcmp_self _)]
        exact Option.isSome_iff_ne_none.2 (hA.nonnull ho.pol e he)
      · intro hk
        apply Classical.byContradiction
        intro hn
        rw [Map.lookup_of_not_present k A] at hk
        · simp at hk
        · rintro ⟨e, he, h0⟩
          exact hn (List.mem_map.2 ⟨e, he, (strcmp_eq.1 h0).symm⟩)
    have hnd : m.order.Nodup := by
      rw [hA.order, List.Nodup, List.pairwise_map]
      exact (hA.uniq strcmp_ord).imp fun h e => h (by rw [e]; exact strcmp_self _)
    obtain ⟨es, e, e1, e2⟩ := readKeys_spec (f := readVal h n) (m := m) (kvs := kvs) m.order fun k hk => by
      have h1 := (hord k).1 hk
      have h2 := h1
      rw [ho.keys] at h2
      obtain ⟨c, hc⟩ := Option.isSome_iff_exists.1 h1
      obtain ⟨x, hx⟩ := Option.isSome_iff_exists.1 h2
      obtain ⟨y, hy, hxy⟩ := ih k c x hc hx n (by have := heightF_mem (lookup_mem hx); simp only at this; omega)
      exact ⟨c, x, y, hc, hx, hy, hxy⟩
    refine ⟨.obj es, ?_, .obj ho.nodup (by rw [e1]; exact hnd) (fun k => ?_) fun k x y h1 h2 => ?_⟩
    · rw [readVal, hn]; dsimp only; rw [Map.insertionOrderedKeys, e]; rfl
    · rw [← ho.keys, Bool.eq_iff_iff, ← hord, lookup_isSome, e1]
    · obtain ⟨x', hx', hk⟩ := e2 k y h2
      rw [h1, Option.some.injEq] at hx'
      exact hx' ▸ hk

/-! ## sizes and contents of merged values -/

theorem nodesF_insertKey (k : List Byte) (y : Val) (a : List (List Byte × Val)) :
    nodesF (insertKey k y a) + ((a.lookup k).map Val.nodes).getD 0 = nodesF a + y.nodes := by
  induction a with
  | nil => simp [insertKey, nodesF]
  | cons e a ih =>
    obtain ⟨k', x⟩ := e
    rw [insertKey]
    split
    · next e =>
      subst e
      simp [nodesF, List.lookup_cons]; omega
    · next e =>
      rw [List.lookup_cons, beq_false_of_ne (fun h => e h.symm), nodesF, nodesF]
      dsimp only
      omega

theorem nodes_merge (s : Val) : ∀ d : Val, (mergeVal d s).nodes ≤ d.nodes + s.nodes := by
  induction s using Val.ind with
  | h0 a => intro d; rw [mergeVal_not (by cases d <;> rfl)]; omega
  | ha ys _ =>
    intro d
    cases h : mergeable d (.arr ys) with
    | false => rw [mergeVal_not h]; omega
    | true =>
      cases d with
      | atom _ => cases h
      | obj _ => cases h
      | arr xs =>
        have : ∀ l l' : List Val, nodesL (l ++ l') = nodesL l + nodesL l' := by
          intro l l'
          induction l with
          | nil => simp [nodesL]
          | cons x l ih => rw [List.cons_append, nodesL, nodesL, ih]; omega
        rw [mergeVal, Val.nodes, Val.nodes, Val.nodes, this]; omega
  | ho b ih =>
    intro d
    cases h : mergeable d (.obj b) with
    | false => rw [mergeVal_not h]; omega
    | true =>
      cases d with
      | atom _ => cases h
      | arr _ => cases h
      | obj a =>
        have key : ∀ l, (∀ kv ∈ l, ∀ d : Val, (mergeVal d kv.2).nodes ≤ d.nodes + kv.2.nodes) → ∀ a,
            nodesF (mergeF a l) ≤ nodesF a + nodesF l := by
          intro l
          induction l with
          | nil => intro _ a; rw [mergeF]; simp [nodesF]
          | cons e l ih' =>
            obtain ⟨k, y⟩ := e
            intro hl a
            rw [List.forall_mem_cons] at hl
            rw [mergeF, nodesF]
            have h1 := ih' hl.2 (insertKey k (match a.lookup k with
              | none => y
              | some x => mergeVal x y) a)
            have h2 := nodesF_insertKey k (match a.lookup k with
              | none => y
              | some x => mergeVal x y) a
            cases hk : a.lookup k with
            | none =>
              rw [hk] at h1 h2
              simp only [Option.map_none, Option.getD_none] at h1 h2 ⊢
              omega
            | some x =>
              rw [hk] at h1 h2
              simp only [Option.map_some, Option.getD_some] at h1 h2 ⊢
              have h3 := hl.1 x
              simp only at h3
              omega
        rw [mergeVal, Val.nodes, Val.nodes, Val.nodes]
        have := key b ih a
        omega

/-- what holds of an entry of a list with an entry put into it -/
theorem mem_insertKey {k : List Byte} {y : Val} {a : List (List Byte × Val)} {e : List Byte × Val}
    (h : e ∈ insertKey k y a) : e = (k, y) ∨ e ∈ a := by
  induction a with
  | nil => simp only [insertKey, List.mem_singleton] at h; exact .inl h
  | cons x a ih =>
    obtain ⟨k', x⟩ := x
    rw [insertKey] at h
    split at h
    · next e' =>
      subst e'
      rcases List.mem_cons.1 h with h | h
      · exact .inl h
      · exact .inr (by simp [h])
    · rcases List.mem_cons.1 h with h | h
      · exact .inr (by simp [h])
      · rcases ih h with h | h
        · exact .inl h
        · exact .inr (by simp [h])

/-- something that holds of two values holds of their merge if it holds of containers just when it holds of
what is in them -/
theorem merge_pred {Q : Val → Prop} {K : List Byte → Prop} (hQa : ∀ xs, Q (.arr xs) ↔ ∀ x ∈ xs, Q x)
    (hQo : ∀ kvs, Q (.obj kvs) ↔ ∀ e ∈ kvs, K e.1 ∧ Q e.2) (s : Val) : ∀ d : Val, Q d → Q s → Q (mergeVal d s) := by
  induction s using Val.ind with
  | h0 a => intro d _ hs; rw [mergeVal_not (by cases d <;> rfl)]; exact hs
  | ha ys _ =>
    intro d hd hs
    cases h : mergeable d (.arr ys) with
    | false => rw [mergeVal_not h]; exact hs
    | true =>
      cases d with
      | atom _ => cases h
      | obj _ => cases h
      | arr xs =>
        rw [mergeVal, hQa]
        intro x hx
        rcases List.mem_append.1 hx with hx | hx
        · exact (hQa _).1 hd x hx
        · exact (hQa _).1 hs x hx
  | ho b ih =>
    intro d hd hs
    cases h : mergeable d (.obj b) with
    | false => rw [mergeVal_not h]; exact hs
    | true =>
      cases d with
      | atom _ => cases h
      | arr _ => cases h
      | obj a =>
        have key : ∀ l : List (List Byte × Val), (∀ kv ∈ l, ∀ d : Val, Q d → Q kv.2 → Q (mergeVal d kv.2)) →
            (∀ e ∈ l, K e.1 ∧ Q e.2) → ∀ a : List (List Byte × Val), (∀ e ∈ a, K e.1 ∧ Q e.2) → ∀ e ∈ mergeF a l, K e.1 ∧ Q e.2 := by
          intro l
          induction l with
          | nil => intro _ _ a ha; rw [mergeF]; exact ha
          | cons e l ih' =>
            obtain ⟨k, y⟩ := e
            intro hl hq a ha
            rw [List.forall_mem_cons] at hl hq
            rw [mergeF]
            refine ih' hl.2 hq.2 _ fun e he => ?_
            rcases mem_insertKey he with rfl | he
            · refine ⟨hq.1.1, ?_⟩
              dsimp only
              split
              · exact hq.1.2
              · next x hx => exact hl.1 x (ha _ (lookup_mem hx)).2 hq.1.2
            · exact ha e he
        rw [mergeVal, hQo]
        exact key b ih ((hQo _).1 hs) a ((hQo _).1 hd)

theorem all_merge {pa : Atom → Prop} {pk : List Byte → Prop} {d s : Val} (hd : d.All pa pk) (hs : s.All pa pk) :
    (mergeVal d s).All pa pk :=
  merge_pred (Q := fun v => v.All pa pk) (K := pk) (fun xs => by rw [Val.All, allL_mem])
    (fun kvs => by rw [Val.All, allF_mem]) s d hd hs

theorem height_mergeVal (s : Val) : ∀ d : Val, ∀ n, d.height ≤ n → s.height ≤ n → (mergeVal d s).height ≤ n := by
  induction s using Val.ind with
  | h0 a => intro d n _ hs; rw [mergeVal_not (by cases d <;> rfl)]; exact hs
  | ha ys _ =>
    intro d n hd hs
    cases h : mergeable d (.arr ys) with
    | false => rw [mergeVal_not h]; exact hs
    | true =>
      cases d with
      | atom _ => cases h
      | obj _ => cases h
      | arr xs =>
        rw [Val.height] at hd hs
        have : heightL (xs ++ ys) ≤ n - 1 := heightL_le fun x hx => by
          rcases List.mem_append.1 hx with hx | hx
          · have := heightL_mem hx; omega
          · have := heightL_mem hx; omega
        rw [mergeVal, Val.height]; omega
  | ho b ih =>
    intro d n hd hs
    cases h : mergeable d (.obj b) with
    | false => rw [mergeVal_not h]; exact hs
    | true =>
      cases d with
      | atom _ => cases h
      | arr _ => cases h
      | obj a =>
        rw [Val.height] at hd hs
        have key : ∀ l : List (List Byte × Val),
            (∀ kv ∈ l, ∀ d : Val, ∀ n, d.height ≤ n → kv.2.height ≤ n → (mergeVal d kv.2).height ≤ n) →
            (∀ e ∈ l, e.2.height ≤ n - 1) → ∀ a : List (List Byte × Val), (∀ e ∈ a, e.2.height ≤ n - 1) →
            ∀ e ∈ mergeF a l, e.2.height ≤ n - 1 := by
          intro l
          induction l with
          | nil => intro _ _ a ha; rw [mergeF]; exact ha
          | cons e l ih' =>
            obtain ⟨k, y⟩ := e
            intro hl hq a ha
            rw [List.forall_mem_cons] at hl hq
            rw [mergeF]
            refine ih' hl.2 hq.2 _ fun e he => ?_
            rcases mem_insertKey he with rfl | he
            · dsimp only
              split
              · exact hq.1
              · next x hx => exact hl.1 x _ (ha _ (lookup_mem hx)) hq.1
            · exact ha e he
        have := heightF_le (key b ih (fun e he => by have := heightF_mem he; omega) a (fun e he => by have := heightF_mem he; omega))
        rw [mergeVal, Val.height]; omega

/-! ## what is loaded has different keys -/

theorem syn_distinct (x : Syn) : x.val.Distinct := by
  induction x using Syn.ind with
  | hs s => trivial
  | hl a => trivial
  | ha xs tr ih =>
    rw [Syn.val, Val.Distinct, distinctL_mem]
    intro v hv
    induction xs with
    | nil => simp [valL] at hv
    | cons x xs ih' =>
      rw [valL, List.mem_cons] at hv
      rcases hv with rfl | hv
      · exact ih x (by simp)
      · exact ih' (fun y hy => ih y (by simp [hy])) hv
  | ho kvs tr ih =>
    have key : ∀ (l : List (List Byte × Syn)) (acc : List (List Byte × Val)), (∀ e ∈ l, e.2.val.Distinct) →
        (acc.map (·.1)).Nodup → (∀ e ∈ acc, e.2.Distinct) →
        ((valF l acc).map (·.1)).Nodup ∧ ∀ e ∈ valF l acc, e.2.Distinct := by
      intro l
      induction l with
      | nil => intro acc _ h1 h2; rw [valF]; exact ⟨h1, h2⟩
      | cons e l ih' =>
        obtain ⟨k, x⟩ := e
        intro acc hl h1 h2
        rw [List.forall_mem_cons] at hl
        rw [valF]
        refine ih' _ hl.2 (nodup_insertKey h1) fun e he => ?_
        rcases mem_insertKey he with rfl | he
        · exact hl.1
        · exact h2 e he
    rw [Syn.val, Val.Distinct, distinctF_mem]
    exact key kvs [] ih (by simp) (by simp)

/-- what is loaded -/
theorem load_distinct [Libc] {n : Nat} {c : List Byte} {v : Val} (h : loadFileno n c = .ok (some (some v))) :
    v.Distinct := by
  rw [loadFileno] at h
  obtain ⟨r, e1, e2⟩ := Res.bind_eq_ok.1 h
  cases r with
  | none => simp at e2
  | some r =>
    obtain ⟨o, t⟩ := r
    cases o with
    | einval => simp at e2
    | value w =>
      obtain ⟨x, -, -, -, hx, -⟩ := parsex_doc e1
      subst hx
      simp only [Option.map_some, Res.ok.injEq, Option.some.injEq] at e2
      exact e2 ▸ syn_distinct x

/-! ## the loop -/

/-- the pointer `d` stands for the value, its nodes are not shared -/
def Own (h : Heap) (d : Nat) (v : Val) : Prop :=
  ∃ P, Reps h (lab P) [] d v ∧ ∀ r, P r ≠ none → r < h.length

theorem place_spec (h : Heap) (v : Val) (hd : v.Distinct) (hs : v.nodes < 2 ^ 31) :
    ∃ t s Q, place h v = .ok (s, h ++ t) ∧ Reps (h ++ t) (lab Q) [] s v ∧
      ∀ r, Q r ≠ none → h.length ≤ r ∧ r < (h ++ t).length := by
  obtain ⟨t, s, P, e, hr⟩ := builds v hd hs h []
  refine ⟨t, s, fun r => if h.length ≤ r ∧ r < (h ++ t).length then some (P r) else none, e,
    hr.mono fun q c hc => ?_, fun r hr => ?_⟩
  · simp only [lab, if_pos hc.2, hc.1]
  · by_cases hc : h.length ≤ r ∧ r < (h ++ t).length
    · exact hc
    · simp only [if_neg hc] at hr; exact absurd rfl hr

/-- two lists of the same length, related element by element -/
inductive Each {α β : Type} (R : α → β → Prop) : List α → List β → Prop
  | nil : Each R [] []
  | cons {a b l l'} : R a b → Each R l l' → Each R (a :: l) (b :: l')

theorem Reps.distinct {h : Heap} {S : List Step → Nat → Prop} {p : List Step} {r : Nat} {v : Val}
    (hr : Reps h S p r v) : v.Distinct := by
  induction hr with
  | atom => trivial
  | arr _ _ hl _ ih =>
    rw [Val.Distinct, distinctL_mem]
    intro x hx
    obtain ⟨i, hi, rfl⟩ := List.getElem_of_mem hx
    exact ih i _ _ (List.getElem?_eq_getElem (by omega)) (List.getElem?_eq_getElem hi)
  | obj _ _ ho _ ih =>
    rw [Val.Distinct, distinctF_mem]
    refine ⟨ho.nodup, fun e he => ?_⟩
    have hl := lookup_of_mem ho.nodup he
    have := ho.keys e.1
    rw [hl] at this
    obtain ⟨c, hc⟩ := Option.isSome_iff_exists.1 this
    exact ih _ _ _ hc hl

/-- files one after the other -/
def mergedVal (v : Val) (vs : List Val) : Val := vs.foldl (fun a v => if mergeable a v then mergeVal a v else a) v

/-- the number of nodes of all -/
def sumNodes (vs : List Val) : Nat := (vs.map Val.nodes).sum

theorem mergeLoop_spec [Libc] (n : Nat) (io : Io) (d : Nat) (vs : List Val) : ∀ (fs : List (List Byte)) (h : Heap) (v : Val),
    Each (fun f v => ∃ c, io.read f = some c ∧ loadFileno n c = .ok (some (some v)) ∧ v.nodes < n) fs vs →
    v.nodes + sumNodes vs < 2 ^ 31 → Own h d v →
    ∃ h', mergeLoop n io d fs h = .ok (some (some h')) ∧ Own h' d (mergedVal v vs) ∧
      (mergedVal v vs).nodes ≤ v.nodes + sumNodes vs := by
  induction vs with
  | nil =>
    intro fs h v hf _ ho
    cases hf
    exact ⟨h, rfl, ho, by simp [mergedVal, sumNodes]⟩
  | cons w vs ih =>
    intro fs h v hf hsz ho
    cases hf with
    | @cons f _ fs _ h1 h2 =>
      obtain ⟨c, e1, e2, e3⟩ := h1
      rw [sumNodes, List.map_cons, List.sum_cons] at hsz
      obtain ⟨P, hr, hP⟩ := ho
      obtain ⟨t, s, Q, g1, g2, g3⟩ := place_spec h w (load_distinct e2) (by omega)
      have hr' : Reps (h ++ t) (lab P) [] d v := hr.frame fun q c hc => by
        rw [List.getElem?_append_left (hP c (by rw [show P c = _ from hc]; simp))]
      obtain ⟨h', P', k1, k2, k3, k4, -⟩ := Props.C40_again (n := n) hr' g2
        (fun r hq => by
          cases hp : P r with
          | none => rfl
          | some p =>
            have h1 := hP r (by rw [hp]; simp)
            have h2 := (g3 r hq).1
            omega) (by omega) e3
      have hlen : (h ++ t).length = h.length + t.length := List.length_append
      have hn : (if mergeable v w then mergeVal v w else v).nodes ≤ v.nodes + w.nodes := by
        split
        · exact nodes_merge w v
        · omega
      obtain ⟨h2', m1, m2, m3⟩ := ih fs h' _ h2 (by rw [sumNodes]; omega) ⟨P', k3, fun r hr => by
        rw [k2]
        rcases k4 r hr with hp | hq
        · have := hP r hp; omega
        · exact (g3 r hq).2⟩
      refine ⟨h2', ?_, m2, ?_⟩
      · rw [mergeLoop, e1]
        dsimp only
        rw [e2, Res.bind_ok]
        dsimp only
        rw [g1, Res.bind_ok]
        dsimp only
        rw [k1, Res.bind_ok]
        exact m1
      · refine Nat.le_trans m3 ?_
        rw [sumNodes, sumNodes, List.map_cons, List.sum_cons]
        omega

/-! ## the names -/

theorem appendNames_spec (a : Nat) (names : List (List Byte)) : ∀ (g : Heap) (rs : List Nat), g[a]? = some (.arr rs) →
    ∃ g' rs', appendNames a names g = .ok g' ∧ g'[a]? = some (.arr (rs ++ rs')) ∧ rs'.length = names.length ∧
      (∀ (i c : Nat) (f : List Byte), rs'[i]? = some c → names[i]? = some f → g'[c]? = some (.atom (.str f))) ∧
      (∀ r, r < g.length → r ≠ a → g'[r]? = g[r]?) := by
  induction names with
  | nil => intro g rs ha; exact ⟨g, [], rfl, by simpa using ha, rfl, by simp, fun _ _ _ => rfl⟩
  | cons f names ih =>
    intro g rs ha
    have hal : a < g.length := (List.getElem?_eq_some_iff.1 ha).1
    have ha1 : (g ++ [Node.atom (.str f)])[a]? = some (.arr rs) := by rw [List.getElem?_append_left hal]; exact ha
    obtain ⟨g', rs', e1, e2, e3, e4, e5⟩ := ih ((g ++ [Node.atom (.str f)]).set a (.arr (rs ++ [g.length]))) (rs ++ [g.length])
      (set_same ha1)
    rw [List.length_set, List.length_append, List.length_singleton] at e5
    refine ⟨g', g.length :: rs', ?_, by rw [e2, List.append_assoc]; rfl, by simp [e3], ?_, ?_⟩
    · rw [appendNames, place, Res.bind_ok]
      dsimp only
      rw [arrAppend, ha1]
      exact e1
    · intro i c f' h1 h2
      cases i with
      | zero =>
        simp only [List.getElem?_cons_zero, Option.some.injEq] at h1 h2
        subst h1 h2
        rw [e5 _ (by omega) (by omega), set_other (by omega)]
        simp
      | succ i => exact e4 i c f' h1 h2
    · intro r hr hne
      rw [e5 r (by omega) hne, set_other hne, List.getElem?_append_left hr]

/-- the value with the names in it -/
def withNames (names : List (List Byte)) (kvs : List (List Byte × Val)) : Val :=
  .obj (insertKey originals (.arr (names.map fun f => Val.atom (.str f))) kvs)

theorem finish_spec {h : Heap} {d : Nat} {kvs : List (List Byte × Val)} (ho : Own h d (.obj kvs))
    (hs : kvs.length < 2 ^ 31) (names : List (List Byte)) :
    ∃ h1 h2, place h (.arr []) = .ok (h.length, h ++ [.arr []]) ∧ objSet (h ++ [.arr []]) d originals h.length = .ok h1 ∧
      appendNames h.length names h1 = .ok h2 ∧ Reps h2 (fun _ _ => True) [] d (withNames names kvs) := by
  obtain ⟨P, hr, hP⟩ := ho
  cases hr with
  | @obj _ _ m _ hd hn hrel hc =>
    have hd : P d = some [] := hd
    have hdl : d < h.length := (List.getElem?_eq_some_iff.1 hn).1
    have hn1 : (h ++ [Node.arr []])[d]? = some (.obj m) := by rw [List.getElem?_append_left hdl]; exact hn
    obtain ⟨m1, old, e1, o1, f1⟩ := hrel.add hs originals h.length none (.arr (names.map fun f => Val.atom (.str f))) (by simp)
    have ha : ((h ++ [Node.arr []]).set d (.obj m1))[h.length]? = some (.arr []) := by
      rw [set_other (by omega)]; simp
    obtain ⟨g', rs', a1, a2, a3, a4, a5⟩ := appendNames_spec h.length names _ [] ha
    rw [List.nil_append] at a2
    rw [List.length_set, List.length_append, List.length_singleton] at a5
    refine ⟨_, g', ?_, ?_, a1, ?_⟩
    · rw [place, placeL]; rfl
    · rw [objSet, hn1]
      dsimp only
      rw [if_pos (by simp), Map.add, e1]; rfl
    · have hd' : g'[d]? = some (.obj m1) := by rw [a5 d (by omega) (by omega)]; exact set_same hn1
      refine .obj trivial hd' o1 fun k c x h1 h2 => ?_
      rw [f1] at h1
      rw [lookup_insertKey] at h2
      by_cases hk : k = originals
      · rw [if_pos hk] at h1 h2
        have hc1 : c = h.length := by
          cases hf : Map.find strcmp m (some originals) with
          | none => rw [hf] at h1; simpa using h1.symm
          | some o => rw [hf] at h1; simpa [Map.newValue] using h1.symm
        simp only [Option.some.injEq] at h2
        subst hc1 h2
        refine .arr trivial a2 (by simp [a3]) fun i c x hi hx => ?_
        rw [List.getElem?_map] at hx
        obtain ⟨f, hf, rfl⟩ := Option.map_eq_some_iff.1 hx
        exact .atom trivial (a4 i c f hi hf)
      · rw [if_neg hk] at h1 h2
        refine ((hc k c x h1 h2).frame fun q r hr => ?_).mono fun _ _ _ => trivial
        have hr : P r = _ := hr
        have hrl := hP r (by rw [hr]; simp)
        have hrd : r ≠ d := by
          rintro rfl
          rw [hd] at hr; simp at hr
        rw [a5 r (by omega) (by omega), set_other hrd, List.getElem?_append_left hrl]

/-- a file that is loaded as the value -/
def Loads [Libc] (c : List Byte) (v : Val) : Prop := ∃ N, ∀ m, N ≤ m → loadFileno m c = .ok (some (some v))
/-- a file that is refused -/
def Refused [Libc] (c : List Byte) : Prop := ∃ N, ∀ m, N ≤ m → loadFileno m c = .ok (some none)

/-- the files `fs` are there and have the values `vs` in them -/
def Holds [Libc] (io : Io) (fs : List (List Byte)) (vs : List Val) : Prop :=
  Each (fun f v => ∃ c, io.read f = some c ∧ Loads c v) fs vs

theorem Holds.fuel [Libc] {io : Io} {fs : List (List Byte)} {vs : List Val} (h : Holds io fs vs) : ∃ N, ∀ n, N ≤ n →
    Each (fun f v => ∃ c, io.read f = some c ∧ loadFileno n c = .ok (some (some v)) ∧ v.nodes < n) fs vs := by
  induction h with
  | nil => exact ⟨0, fun _ _ => .nil⟩
  | @cons f v fs vs h1 _ ih =>
    obtain ⟨c, e, N1, h1⟩ := h1
    obtain ⟨N, hN⟩ := ih
    exact ⟨max (max N1 N) (v.nodes + 1), fun n hn => .cons ⟨c, e, h1 n (by omega), by omega⟩ (hN n (by omega))⟩

theorem mergedVal_obj (kvs : List (List Byte × Val)) (vs : List Val) : ∃ kvs', mergedVal (.obj kvs) vs = .obj kvs' := by
  induction vs generalizing kvs with
  | nil => exact ⟨kvs, rfl⟩
  | cons w vs ih =>
    rw [mergedVal, List.foldl_cons]
    cases h : mergeable (.obj kvs) w with
    | false => simpa [mergedVal] using ih kvs
    | true =>
      cases w with
      | atom _ => cases h
      | arr _ => cases h
      | obj b => rw [if_pos rfl, mergeVal]; simpa [mergedVal] using ih (mergeF kvs b)

theorem mergedVal_other (v : Val) (hv : ∀ kvs, v ≠ .obj kvs) (vs : List Val) : ∀ kvs, mergedVal v vs ≠ .obj kvs := by
  induction vs generalizing v with
  | nil => exact hv
  | cons w vs ih =>
    rw [mergedVal, List.foldl_cons]
    refine ih _ ?_
    cases h : mergeable v w with
    | false => simpa using hv
    | true =>
      cases v with
      | atom _ => cases w <;> cases h
      | obj _ => exact absurd rfl (hv _)
      | arr a =>
        cases w with
        | atom _ => cases h
        | obj _ => cases h
        | arr b => rw [if_pos rfl, mergeVal]; simp

theorem mergedVal_pred {Q : Val → Prop} (hQ : ∀ a b, Q a → Q b → Q (mergeVal a b)) (v : Val) (vs : List Val) (hv : Q v)
    (hvs : ∀ w ∈ vs, Q w) : Q (mergedVal v vs) := by
  induction vs generalizing v with
  | nil => exact hv
  | cons w vs ih =>
    rw [List.forall_mem_cons] at hvs
    rw [mergedVal, List.foldl_cons]
    refine ih _ ?_ hvs.2
    split
    · exact hQ _ _ hv hvs.1
    · exact hv

/-- all files loaded and merged -/
theorem start_spec [Libc] {io : Io} {f0 : List Byte} {fs : List (List Byte)} {v0 : Val} {vs : List Val}
    (hall : Holds io (f0 :: fs) (v0 :: vs)) (hsz : v0.nodes + sumNodes vs < 2 ^ 31) : ∃ N, ∀ n, N ≤ n → ∃ d h,
      mergeAll n io (f0 :: fs) = mergeFinish n io (f0 :: fs) d h ∧ Own h d (mergedVal v0 vs) ∧
      (mergedVal v0 vs).nodes ≤ v0.nodes + sumNodes vs := by
  obtain ⟨N, hN⟩ := hall.fuel
  refine ⟨N, fun n hn => ?_⟩
  cases hN n hn with
  | cons h1 h2 =>
    obtain ⟨c, e1, e2, e3⟩ := h1
    obtain ⟨t, s, Q, g1, g2, g3⟩ := place_spec [] v0 (load_distinct e2) (by omega)
    obtain ⟨h', m1, m2, m3⟩ := mergeLoop_spec n io s vs fs ([] ++ t) v0 h2 hsz ⟨Q, g2, fun r hr => (g3 r hr).2⟩
    refine ⟨s, h', ?_, m2, m3⟩
    rw [mergeAll, e1]
    dsimp only
    rw [e2, Res.bind_ok]
    dsimp only
    rw [g1, Res.bind_ok]
    dsimp only
    rw [m1]
    rfl

namespace Props

theorem rtText_originals : rtText originals := ⟨⟨"originals".toList, by decide, by decide +kernel⟩, by decide⟩

/-- what comes out when the first file holds an object, whatever `write` does -/
theorem mergeAll_core [Libc] {io : Io} {f0 : List Byte} {fs : List (List Byte)} {kvs : List (List Byte × Val)}
    {vs : List Val} (hall : Holds io (f0 :: fs) (.obj kvs :: vs)) (hc : io.create = true)
    (hrt : ∀ v ∈ Val.obj kvs :: vs, v.All rtAtom rtText ∧ v.height ≤ 128) (hnames : ∀ f ∈ f0 :: fs, rtText f)
    (hsz : (Val.obj kvs).nodes + sumNodes vs + fs.length + 2 < 2 ^ 31) :
    ∃ res, mergedVal (.obj kvs) vs = .obj res ∧ ∃ N, ∀ n, N ≤ n → ∃ text v,
      mergeAll n io (f0 :: fs) = ⟨.ok (some 0), some ((text.map some).take (io.wrote text.length))⟩ ∧
      Loads text v ∧ KeyEq (withNames (f0 :: fs) res) v := by
  obtain ⟨res, hres⟩ := mergedVal_obj kvs vs
  refine ⟨res, hres, ?_⟩
  obtain ⟨N, hN⟩ := start_spec hall (by omega)
  rw [List.forall_mem_cons] at hrt
  have hall' : (Val.obj res).All rtAtom rtText := hres ▸ mergedVal_pred (Q := fun v => v.All rtAtom rtText)
    (fun a b ha hb => all_merge ha hb) _ vs hrt.1.1 fun w hw => (hrt.2 w hw).1
  have hh' : (Val.obj res).height ≤ 128 := hres ▸ mergedVal_pred (Q := fun v => v.height ≤ 128)
    (fun a b ha hb => height_mergeVal b a 128 ha hb) _ vs hrt.1.2 fun w hw => (hrt.2 w hw).2
  have hall2 : (withNames (f0 :: fs) res).All rtAtom rtText := by
    rw [Val.All, allF_mem] at hall'
    rw [withNames, Val.All, allF_mem]
    intro e he
    rcases mem_insertKey he with rfl | he
    · refine ⟨rtText_originals, ?_⟩
      rw [Val.All, allL_mem]
      intro x hx
      obtain ⟨f, hf, rfl⟩ := List.mem_map.1 hx
      exact hnames f hf
    · exact hall' e he
  have hh2 : (withNames (f0 :: fs) res).height ≤ 128 := by
    rw [Val.height] at hh'
    rw [withNames, Val.height]
    have : heightF (insertKey originals (.arr ((f0 :: fs).map fun f => Val.atom (.str f))) res) ≤ 127 := heightF_le fun e he => by
      rcases mem_insertKey he with rfl | he
      · have : heightL ((f0 :: fs).map fun f => Val.atom (.str f)) ≤ 1 := heightL_le fun x hx => by
          obtain ⟨f, hf, rfl⟩ := List.mem_map.1 hx
          rw [Val.height]; omega
        rw [Val.height]; omega
      · have := heightF_mem he; omega
    omega
  refine ⟨max N (2 * (withNames (f0 :: fs) res).nodes + (withNames (f0 :: fs) res).height), fun n hn => ?_⟩
  obtain ⟨d, h, e, ho, hnodes⟩ := hN n (by omega)
  rw [hres] at ho hnodes
  have hlen := nodesF_length res
  rw [Val.nodes] at hnodes
  obtain ⟨h1, h2, g1, g2, g3, g4⟩ := finish_spec ho (by omega) (f0 :: fs)
  obtain ⟨v, r1, r2⟩ := readVal_spec g4 n (by omega)
  have hdist : (withNames (f0 :: fs) res).Distinct := g4.distinct
  have hvh := r2.height
  obtain ⟨text, s1, s2⟩ := C61_save_load true v (by rintro a rfl; cases r2) (r2.all hall2) (r2.distinct hdist)
    (by omega) (fun _ => by omega) n (by have := nsteps_le v; rw [r2.nodes] at this; omega)
  refine ⟨text, v, ?_, s2, r2⟩
  rw [e, mergeFinish, if_pos hc, g1, Res.bind_ok]
  dsimp only
  rw [g2, Res.bind_ok, g3, Res.bind_ok, r1, Res.bind_ok]
  dsimp only
  rw [s1]
  simp

/-- **C96** (the part that holds): when all files are there and can be parsed, the first one with an object in it,
and `merged` can be opened and written, `cee_json_merge_all` returns 0 and `merged` can be loaded: it holds, up to
the order of keys, the first object with the further objects merged into it one after the other (C40), and under
`originals` the names of the files.  (Values as in C35; at most 128 high.) -/
theorem C96_partial [Libc] {io : Io} {f0 : List Byte} {fs : List (List Byte)} {kvs : List (List Byte × Val)}
    {vs : List Val} (hall : Holds io (f0 :: fs) (.obj kvs :: vs)) (hc : io.create = true) (hw : ∀ s, s ≤ io.wrote s)
    (hrt : ∀ v ∈ Val.obj kvs :: vs, v.All rtAtom rtText ∧ v.height ≤ 128) (hnames : ∀ f ∈ f0 :: fs, rtText f)
    (hsz : (Val.obj kvs).nodes + sumNodes vs + fs.length + 2 < 2 ^ 31) :
    ∃ res, mergedVal (.obj kvs) vs = .obj res ∧ ∃ N, ∀ n, N ≤ n → ∃ text v,
      mergeAll n io (f0 :: fs) = ⟨.ok (some 0), some (text.map some)⟩ ∧
      Loads text v ∧ KeyEq (withNames (f0 :: fs) res) v := by
  obtain ⟨res, h1, N, hN⟩ := mergeAll_core hall hc hrt hnames hsz
  refine ⟨res, h1, N, fun n hn => ?_⟩
  obtain ⟨text, v, e, h2, h3⟩ := hN n hn
  refine ⟨text, v, ?_, h2, h3⟩
  rw [e, List.take_of_length_le (by rw [List.length_map]; exact hw _)]

/-- **C96 is false**: when `write` fails (or transfers only a part), the function still returns 0; with nothing
written the file is left empty. -/
theorem C96_write_false [Libc] {io : Io} {f0 : List Byte} {fs : List (List Byte)} {kvs : List (List Byte × Val)}
    {vs : List Val} (hall : Holds io (f0 :: fs) (.obj kvs :: vs)) (hc : io.create = true) (hw : ∀ s, io.wrote s = 0)
    (hrt : ∀ v ∈ Val.obj kvs :: vs, v.All rtAtom rtText ∧ v.height ≤ 128) (hnames : ∀ f ∈ f0 :: fs, rtText f)
    (hsz : (Val.obj kvs).nodes + sumNodes vs + fs.length + 2 < 2 ^ 31) :
    ∃ N, ∀ n, N ≤ n → mergeAll n io (f0 :: fs) = ⟨.ok (some 0), some []⟩ := by
  obtain ⟨res, h1, N, hN⟩ := mergeAll_core hall hc hrt hnames hsz
  refine ⟨N, fun n hn => ?_⟩
  obtain ⟨text, v, e, h2, h3⟩ := hN n hn
  rw [e, hw]; rfl

/-- **C96 is false**: when the first file holds something that is no object, the program crashes after `merged`
was emptied. -/
theorem C96_truncated_false [Libc] {io : Io} {f0 : List Byte} {fs : List (List Byte)} {v0 : Val} {vs : List Val}
    (hall : Holds io (f0 :: fs) (v0 :: vs)) (hv : ∀ kvs, v0 ≠ .obj kvs) (hc : io.create = true)
    (hsz : v0.nodes + sumNodes vs < 2 ^ 31) :
    ∃ N, ∀ n, N ≤ n → mergeAll n io (f0 :: fs) = ⟨.segv, some []⟩ := by
  obtain ⟨N, hN⟩ := start_spec hall hsz
  refine ⟨N, fun n hn => ?_⟩
  obtain ⟨d, h, e, ⟨P, hr, -⟩, -⟩ := hN n hn
  have hno := mergedVal_other v0 hv vs
  have hs : objSet (h ++ [.arr []]) d originals h.length = .segv := by
    generalize mergedVal v0 vs = v at hr hno
    cases hr with
    | obj _ _ => exact absurd rfl (hno _)
    | atom _ hn =>
      rw [objSet, List.getElem?_append_left (List.getElem?_eq_some_iff.1 hn).1, hn]
    | arr _ hn =>
      rw [objSet, List.getElem?_append_left (List.getElem?_eq_some_iff.1 hn).1, hn]
  rw [e, mergeFinish, if_pos hc, place, placeL]
  simp only [Res.map, Res.bind_ok]
  rw [hs]
  rfl

/-- **C96 is false**: a further file that holds no object is left out in silence (except for its name): the result
is that of the files without it. -/
theorem C96_ignored_false (kvs : List (List Byte × Val)) (before after : List Val) (v : Val) (hv : ∀ b, v ≠ .obj b) :
    mergedVal (.obj kvs) (before ++ v :: after) = mergedVal (.obj kvs) (before ++ after) := by
  obtain ⟨res, h⟩ := mergedVal_obj kvs before
  rw [mergedVal] at h ⊢
  rw [mergedVal, List.foldl_append, List.foldl_append, h, List.foldl_cons]
  congr 1
  cases v with
  | obj b => exact absurd rfl (hv b)
  | _ => rfl

/-- a file that is missing or refused -/
def Bad [Libc] (io : Io) (f : List Byte) : Prop := io.read f = none ∨ ∃ c, io.read f = some c ∧ Refused c

theorem mergeLoop_bad [Libc] (n : Nat) (io : Io) (d : Nat) (bad : List Byte) (post : List (List Byte))
    (hb : io.read bad = none ∨ ∃ c, io.read bad = some c ∧ loadFileno n c = .ok (some none)) (vs : List Val) :
    ∀ (fs : List (List Byte)) (h : Heap) (v : Val),
    Each (fun f v => ∃ c, io.read f = some c ∧ loadFileno n c = .ok (some (some v)) ∧ v.nodes < n) fs vs →
    v.nodes + sumNodes vs < 2 ^ 31 → Own h d v →
    mergeLoop n io d (fs ++ bad :: post) h = .ok (some none) := by
  induction vs with
  | nil =>
    intro fs h v hf _ ho
    cases hf
    rw [List.nil_append, mergeLoop]
    rcases hb with e | ⟨c, e, e'⟩
    · rw [e]
    · rw [e]; dsimp only; rw [e']; rfl
  | cons w vs ih =>
    intro fs h v hf hsz ho
    cases hf with
    | @cons f _ fs _ h1 h2 =>
      rw [sumNodes, List.map_cons, List.sum_cons] at hsz
      obtain ⟨h', e', ho', hn'⟩ := mergeLoop_spec n io d [w] [f] h v (.cons h1 .nil) (by simp [sumNodes]; omega) ho
      have := ih fs h' _ h2 (by simp [sumNodes] at hn' ⊢; omega) ho'
      obtain ⟨c, e1, e2, e3⟩ := h1
      rw [List.cons_append, mergeLoop, e1]
      rw [mergeLoop, e1] at e'
      dsimp only at e' ⊢
      rw [e2, Res.bind_ok] at e' ⊢
      dsimp only at e' ⊢
      obtain ⟨r, p1, p2⟩ := Res.bind_eq_ok.1 e'
      rw [p1, Res.bind_ok]
      obtain ⟨r', q1, q2⟩ := Res.bind_eq_ok.1 p2
      rw [q1, Res.bind_ok]
      cases r' with
      | none => simp at q2
      | some r' =>
        dsimp only at q2 ⊢
        rw [mergeLoop] at q2
        simp only [Res.ok.injEq, Option.some.injEq] at q2
        rw [q2]
        exact this

/-- **C96**: when one of the files cannot be opened or parsed (the ones before it can), the function returns 1 and
`merged` is not touched; nor is it when it cannot be opened. -/
theorem C96_input_error [Libc] {io : Io} {pre post : List (List Byte)} {bad : List Byte} {vs : List Val}
    (hpre : Holds io pre vs) (hb : Bad io bad) (hsz : sumNodes vs < 2 ^ 31) :
    ∃ N, ∀ n, N ≤ n → mergeAll n io (pre ++ bad :: post) = ⟨.ok (some 1), none⟩ := by
  obtain ⟨N, hN⟩ := hpre.fuel
  obtain ⟨M, hM⟩ : ∃ M, ∀ n, M ≤ n →
      (io.read bad = none ∨ ∃ c, io.read bad = some c ∧ loadFileno n c = .ok (some none)) := by
    rcases hb with e | ⟨c, e, M, h⟩
    · exact ⟨0, fun _ _ => .inl e⟩
    · exact ⟨M, fun n hn => .inr ⟨c, e, h n hn⟩⟩
  refine ⟨max N M, fun n hn => ?_⟩
  have hn' := hN n (by omega)
  have hbad := hM n (by omega)
  cases hn' with
  | nil =>
    rw [List.nil_append, mergeAll]
    rcases hbad with e | ⟨c, e, e'⟩
    · rw [e]
    · rw [e]; dsimp only; rw [e']; rfl
  | @cons f v fs vs h1 h2 =>
    rw [sumNodes, List.map_cons, List.sum_cons] at hsz
    obtain ⟨c, e1, e2, e3⟩ := h1
    obtain ⟨t, s, Q, g1, g2, g3⟩ := place_spec [] v (load_distinct e2) (by omega)
    have := mergeLoop_bad n io s bad post hbad vs fs ([] ++ t) v h2 hsz ⟨Q, g2, fun r hr => (g3 r hr).2⟩
    rw [List.cons_append, mergeAll, e1]
    dsimp only
    rw [e2, Res.bind_ok]
    dsimp only
    rw [g1, Res.bind_ok]
    dsimp only
    rw [this]
    rfl

/-- **C96**: nor is it when it cannot be opened -/
theorem C96_output_error [Libc] {io : Io} {f0 : List Byte} {fs : List (List Byte)} {v0 : Val} {vs : List Val}
    (hall : Holds io (f0 :: fs) (v0 :: vs)) (hc : io.create = false) (hsz : v0.nodes + sumNodes vs < 2 ^ 31) :
    ∃ N, ∀ n, N ≤ n → mergeAll n io (f0 :: fs) = ⟨.ok (some 1), none⟩ := by
  obtain ⟨N, hN⟩ := start_spec hall hsz
  refine ⟨N, fun n hn => ?_⟩
  obtain ⟨d, h, e, -, -⟩ := hN n hn
  rw [e, mergeFinish, hc]; rfl

/-- two files with objects in them, to be merged key by key: `{"a":{"b":null}}` in the file `x`, `{"a":{"c":[]}}` in `y` -/
theorem C96_files [Libc] (v w : Val) (hv : ∀ a, v ≠ .atom a) (hw : ∀ a, w ≠ .atom a)
    (ha : v.All rtAtom rtText) (hb : w.All rtAtom rtText) (h1 : v.Distinct) (h2 : w.Distinct)
    (k1 : v.height < 500) (k2 : w.height < 500) (create : Bool) (wrote : Nat → Nat) :
    ∃ io : Io, Holds io [[120], [121]] [v, w] ∧ io.read [122] = none ∧ io.create = create ∧ io.wrote = wrote := by
  obtain ⟨c, -, h3⟩ := C61_save_load false v hv ha h1 k1 (by simp) _ (Nat.le_refl _)
  obtain ⟨c', -, h4⟩ := C61_save_load false w hw hb h2 k2 (by simp) _ (Nat.le_refl _)
  exact ⟨⟨fun f => if f = [120] then some c else if f = [121] then some c' else none, create, wrote⟩,
    .cons ⟨c, rfl, h3⟩ (.cons ⟨c', rfl, h4⟩ .nil), rfl, rfl, rfl⟩

example [Libc] : ∃ (io : Io) (f0 : List Byte) (fs : List (List Byte)) (kvs : List (List Byte × Val)) (vs : List Val),
    Holds io (f0 :: fs) (.obj kvs :: vs) ∧ io.create = true ∧ (∀ s, s ≤ io.wrote s) ∧
    (∀ v ∈ Val.obj kvs :: vs, v.All rtAtom rtText ∧ v.height ≤ 128) ∧ (∀ f ∈ f0 :: fs, rtText f) ∧
    (Val.obj kvs).nodes + sumNodes vs + fs.length + 2 < 2 ^ 31 ∧
    mergedVal (.obj kvs) vs = .obj [([97], .obj [([98], .atom .null), ([99], .arr [])])] := by
  have ht : ∀ c : Char, c.toNat ≠ 0 → (String.utf8EncodeChar c).length < 9 → rtText (String.utf8EncodeChar c) := by
    intro c hc hl
    exact ⟨⟨[c], by simpa using hc, by simp⟩, by omega⟩
  have t97 : rtText [97] := ht 'a' (by decide) (by decide)
  have t98 : rtText [98] := ht 'b' (by decide) (by decide)
  have t99 : rtText [99] := ht 'c' (by decide) (by decide)
  have t120 : rtText [120] := ht 'x' (by decide) (by decide)
  have t121 : rtText [121] := ht 'y' (by decide) (by decide)
  have a1 : (Val.obj [([97], .obj [([98], .atom .null)])]).All rtAtom rtText := by
    simp [Val.All, AllF, t97, t98, rtAtom]
  have a2 : (Val.obj [([97], .obj [([99], .arr [])])]).All rtAtom rtText := by
    simp [Val.All, AllF, AllL, t97, t99]
  obtain ⟨io, h1, -, h2, h3⟩ := C96_files (.obj [([97], .obj [([98], .atom .null)])]) (.obj [([97], .obj [([99], .arr [])])])
    (by simp) (by simp) a1 a2 (by simp [Val.Distinct, DistinctF]) (by simp [Val.Distinct, DistinctF, DistinctL])
    (by decide) (by decide) true id
  refine ⟨io, _, _, _, _, h1, h2, by rw [h3]; exact fun s => Nat.le_refl s, ?_, ?_, by decide, ?_⟩
  · intro v hv
    simp only [List.mem_cons, List.not_mem_nil, or_false] at hv
    rcases hv with rfl | rfl
    · exact ⟨a1, by decide⟩
    · exact ⟨a2, by decide⟩
  · intro f hf
    simp only [List.mem_cons, List.not_mem_nil, or_false] at hf
    rcases hf with rfl | rfl
    · exact t120
    · exact t121
  · simp [mergedVal, mergeable, mergeVal, mergeF, insertKey, List.lookup]

/-- an array in the first file, an object in the second, and a third that is missing -/
example [Libc] : ∃ io : Io, Holds io [[120], [121]] [.arr [], .obj []] ∧ Bad io [122] ∧ io.create = true := by
  obtain ⟨io, h1, h2, h3, -⟩ := C96_files (.arr []) (.obj []) (by simp) (by simp) (by simp [Val.All, AllL]) (by simp [Val.All, AllF])
    (by simp [Val.Distinct, DistinctL]) (by simp [Val.Distinct, DistinctF]) (by decide) (by decide) true id
  exact ⟨io, h1, .inl h2, h3⟩

end Props

end Verif.Json
