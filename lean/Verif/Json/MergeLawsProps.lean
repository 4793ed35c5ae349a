import Verif.Json.MergeLaws

/-!
# Laws of merging documents: the properties (C114)
-/

namespace Verif.Json

theorem KeyEq.symm {v w : Val} (h : KeyEq v w) : KeyEq w v := by
  induction h with
  | atom a => exact .atom a
  | arr hl _ ih => exact .arr hl.symm fun i x y hx hy => ih i y x hy hx
  | obj h1 h2 h3 _ ih => exact .obj h2 h1 (fun k => (h3 k).symm) fun k x y hx hy => ih k y x hy hx

theorem KeyEq.trans {u v w : Val} (h : KeyEq u v) : KeyEq v w → KeyEq u w := by
  induction h generalizing w with
  | atom a => exact id
  | @arr xs ys hl _ ih =>
    intro h
    cases h with
    | @arr _ zs hl' h' =>
      refine .arr (hl.trans hl') fun i x z hx hz => ?_
      have hi : i < ys.length := by
        have := (List.getElem?_eq_some_iff.1 hz).1
        omega
      exact ih i x ys[i] hx (List.getElem?_eq_getElem hi) (h' i _ _ (List.getElem?_eq_getElem hi) hz)
  | @obj a b h1 h2 h3 _ ih =>
    intro h
    cases h with
    | @obj _ c _ k2 k3 h' =>
      refine .obj h1 k2 (fun k => (h3 k).trans (k3 k)) fun k x z hx hz => ?_
      have : (b.lookup k).isSome = true := by rw [← h3, hx]; rfl
      obtain ⟨y, hy⟩ := Option.isSome_iff_exists.1 this
      exact ih k x y hx hy (h' k y z hy hz)

theorem height_le_nodes (v : Val) : v.height ≤ v.nodes := by
  induction v using Val.ind with
  | h0 a => rw [Val.height, Val.nodes]; exact Nat.le_refl 1
  | ha xs ih =>
    rw [Val.height, Val.nodes]
    have : ∀ l : List Val, (∀ x ∈ l, x.height ≤ x.nodes) → heightL l ≤ nodesL l := by
      intro l
      induction l with
      | nil => intro _; simp [heightL, nodesL]
      | cons x l ihl =>
        intro h
        have h1 := h x (by simp)
        have h2 := ihl fun y hy => h y (by simp [hy])
        rw [heightL, nodesL]; omega
    have := this xs ih
    omega
  | ho kvs ih =>
    rw [Val.height, Val.nodes]
    have : ∀ l : List (List Byte × Val), (∀ x ∈ l, x.2.height ≤ x.2.nodes) → heightF l ≤ nodesF l := by
      intro l
      induction l with
      | nil => intro _; simp [heightF, nodesF]
      | cons x l ihl =>
        intro h
        have h1 := h x (by simp)
        have h2 := ihl fun y hy => h y (by simp [hy])
        obtain ⟨k, x⟩ := x
        rw [heightF, nodesF]; dsimp only at h1; omega
    have := this kvs ih
    omega

/-! ## programs -/

/-- the document `v` is built and merged into the one at `d` (`cee_json_merge`, value.c:231-250) -/
def into (n : Nat) (h : Heap) (d : Nat) (v : Val) : Res (Option (Bool × Heap)) :=
  (place h v).bind fun r => merge n r.2 d r.1

/-- one after the other into the one at `d` (the loop of cee_json_merge.c:26-41) -/
def inTurn (n : Nat) (h : Heap) (d : Nat) (v w : Val) : Res (Option (Bool × Heap)) :=
  (into n h d v).bind fun r =>
  match r with
  | none => .ok none
  | some r => into n r.2 d w

/-- the second into the first, and both into the one at `d` -/
def grouped (n : Nat) (h : Heap) (d : Nat) (v w : Val) : Res (Option (Bool × Heap)) :=
  (place h v).bind fun p =>
  (place p.2 w).bind fun q =>
  (merge n q.2 p.1 q.1).bind fun r =>
  match r with
  | none => .ok none
  | some r => merge n r.2 d p.1

theorem into_spec {n : Nat} {h : Heap} {d : Nat} {a w : Val} (ho : Own h d a) (hw : w.Distinct)
    (hm : mergeable a w = true) (hsz : a.nodes + w.nodes < 2 ^ 31) (hn : w.nodes < n) :
    ∃ h', into n h d w = .ok (some (true, h')) ∧ Own h' d (mergeVal a w) := by
  obtain ⟨P, hr, hP⟩ := ho
  obtain ⟨t, s, Q, g1, g2, g3⟩ := place_spec h w hw (by omega)
  have hr' : Reps (h ++ t) (lab P) [] d a := hr.frame fun q c hc => by
    rw [List.getElem?_append_left (hP c (by rw [show P c = _ from hc]; simp))]
  obtain ⟨h', P', k1, k2, k3, k4, -⟩ := Props.C40_again (n := n) hr' g2
    (fun r hq => by
      cases hp : P r with
      | none => rfl
      | some p =>
        have h1 := hP r (by rw [hp]; simp)
        have h2 := (g3 r hq).1
        omega) hsz hn
  rw [hm] at k1 k3
  refine ⟨h', by rw [into, g1, Res.bind_ok]; exact k1, P', by simpa using k3, fun r hr => ?_⟩
  rw [k2]
  rcases k4 r hr with hp | hq
  · have := hP r hp; rw [List.length_append]; omega
  · exact (g3 r hq).2

theorem grouped_spec {n : Nat} {h : Heap} {d : Nat} {a b c : List (List Byte × Val)} (ho : Own h d (.obj a))
    (hb : (Val.obj b).Distinct) (hc : (Val.obj c).Distinct)
    (hsz : (Val.obj a).nodes + (Val.obj b).nodes + (Val.obj c).nodes < 2 ^ 31)
    (hn : (Val.obj b).nodes + (Val.obj c).nodes < n) :
    ∃ h', grouped n h d (.obj b) (.obj c) = .ok (some (true, h')) ∧
      Own h' d (mergeVal (.obj a) (mergeVal (.obj b) (.obj c))) := by
  obtain ⟨P, hr, hP⟩ := ho
  obtain ⟨t, s, Q, g1, g2, g3⟩ := place_spec h (.obj b) hb (by omega)
  obtain ⟨t', s', R, f1, f2, f3⟩ := place_spec (h ++ t) (.obj c) hc (by omega)
  have hl1 : (h ++ t).length = h.length + t.length := List.length_append
  have hl2 : (h ++ t ++ t').length = (h ++ t).length + t'.length := List.length_append
  have hr2 : Reps (h ++ t ++ t') (lab P) [] d (.obj a) := hr.frame fun q c hc => by
    have := hP c (by rw [show P c = _ from hc]; simp)
    rw [List.getElem?_append_left (by omega), List.getElem?_append_left this]
  have g2' : Reps (h ++ t ++ t') (lab Q) [] s (.obj b) := g2.frame fun q c hc => by
    have := (g3 c (by rw [show Q c = _ from hc]; simp)).2
    rw [List.getElem?_append_left this]
  obtain ⟨h1, Q', k1, k2, k3, k4, k5⟩ := Props.C40_again (n := n) g2' f2
    (fun r hq => by
      cases hp : Q r with
      | none => rfl
      | some p =>
        have h1 := (g3 r (by rw [hp]; simp)).2
        have h2 := (f3 r hq).1
        omega) (by omega) (by omega)
  have hfar : ∀ r, Q' r ≠ none → h.length ≤ r ∧ r < h1.length := by
    intro r hr
    rw [k2]
    rcases k4 r hr with hq | hq
    · have := g3 r hq; omega
    · have := f3 r hq; omega
  have hr3 : Reps h1 (lab P) [] d (.obj a) := hr2.frame fun q c hc => by
    have := hP c (by rw [show P c = _ from hc]; simp)
    refine k5 c ?_
    cases hq : Q c with
    | none => rfl
    | some p => have := (g3 c (by rw [hq]; simp)).1; omega
  have hmb : mergeable (.obj b) (.obj c) = true := rfl
  rw [hmb] at k1 k3
  have hnodes := nodes_merge (.obj c) (.obj b)
  obtain ⟨kvs, hkvs⟩ : ∃ kvs, mergeVal (.obj b) (.obj c) = .obj kvs := ⟨_, by rw [mergeVal]⟩
  rw [if_pos rfl] at k3
  rw [hkvs] at k3 hnodes ⊢
  obtain ⟨h2, P', m1, m2, m3, m4, -⟩ := Props.C40_again (n := n) hr3 k3
    (fun r hq => by
      cases hp : P r with
      | none => rfl
      | some p =>
        have h1 := hP r (by rw [hp]; simp)
        have h2 := (hfar r hq).1
        omega) (by omega) (by omega)
  have hma : mergeable (.obj a) (.obj kvs) = true := rfl
  rw [hma] at m1 m3
  refine ⟨h2, ?_, P', by simpa using m3, fun r hr => ?_⟩
  · rw [grouped, g1, Res.bind_ok]
    dsimp only
    rw [f1, Res.bind_ok]
    dsimp only
    rw [k1, Res.bind_ok]
    exact m1
  · rw [m2]
    rcases m4 r hr with hp | hq
    · have := hP r hp; omega
    · exact (hfar r hq).2

theorem inTurn_spec {n : Nat} {h : Heap} {d : Nat} {a b c : List (List Byte × Val)} (ho : Own h d (.obj a))
    (hb : (Val.obj b).Distinct) (hc : (Val.obj c).Distinct)
    (hsz : (Val.obj a).nodes + (Val.obj b).nodes + (Val.obj c).nodes < 2 ^ 31)
    (hn : (Val.obj b).nodes + (Val.obj c).nodes < n) :
    ∃ h', inTurn n h d (.obj b) (.obj c) = .ok (some (true, h')) ∧
      Own h' d (mergeVal (mergeVal (.obj a) (.obj b)) (.obj c)) := by
  obtain ⟨h1, e1, o1⟩ := into_spec (n := n) ho hb rfl (by omega) (by omega)
  have hnodes := nodes_merge (.obj b) (.obj a)
  obtain ⟨h2, e2, o2⟩ := into_spec (n := n) o1 hc (by rw [mergeable_merge]; rfl) (by omega) (by omega)
  exact ⟨h2, by rw [inTurn, e1, Res.bind_ok]; exact e2, o2⟩

theorem own_read {h : Heap} {d : Nat} {v : Val} (ho : Own h d v) {m : Nat} (hm : v.nodes ≤ m) :
    ∃ w, readVal h m d = .ok (some w) ∧ KeyEq v w := by
  obtain ⟨P, hr, -⟩ := ho
  exact readVal_spec hr m (Nat.le_trans (height_le_nodes v) hm)

theorem own_distinct {h : Heap} {d : Nat} {v : Val} (ho : Own h d v) : v.Distinct := by
  obtain ⟨P, hr, -⟩ := ho
  exact hr.distinct

namespace Props

/-- **C114** (grouping): three objects are merged, two into the one at `d` in turn, or the third into the second and then both
into `d`.  Both programs succeed.  What is read from `d` afterwards is the same, up to the order of keys, exactly when the
documents do not clash. -/
theorem C114_partial {n m : Nat} {h : Heap} {d : Nat} {a b c : List (List Byte × Val)} (ho : Own h d (.obj a))
    (hb : (Val.obj b).Distinct) (hc : (Val.obj c).Distinct)
    (hsz : (Val.obj a).nodes + (Val.obj b).nodes + (Val.obj c).nodes < 2 ^ 31)
    (hn : (Val.obj b).nodes + (Val.obj c).nodes < n)
    (hm : (Val.obj a).nodes + (Val.obj b).nodes + (Val.obj c).nodes ≤ m) :
    ∃ h1 h2 v1 v2, inTurn n h d (.obj b) (.obj c) = .ok (some (true, h1)) ∧
      grouped n h d (.obj b) (.obj c) = .ok (some (true, h2)) ∧
      readVal h1 m d = .ok (some v1) ∧ readVal h2 m d = .ok (some v2) ∧
      (KeyEq v1 v2 ↔ ¬ Clash (.obj a) (.obj b) (.obj c)) := by
  obtain ⟨h1, e1, o1⟩ := inTurn_spec (n := n) ho hb hc hsz hn
  obtain ⟨h2, e2, o2⟩ := grouped_spec (n := n) ho hb hc hsz hn
  have n1 := nodes_merge (.obj c) (mergeVal (.obj a) (.obj b))
  have n2 := nodes_merge (.obj b) (.obj a)
  have n3 := nodes_merge (mergeVal (.obj b) (.obj c)) (.obj a)
  have n4 := nodes_merge (.obj c) (.obj b)
  obtain ⟨v1, r1, q1⟩ := own_read o1 (m := m) (by omega)
  obtain ⟨v2, r2, q2⟩ := own_read o2 (m := m) (by omega)
  refine ⟨h1, h2, v1, v2, e1, e2, r1, r2, ?_⟩
  rw [← assoc_iff _ _ _ (own_distinct ho) hb hc]
  exact ⟨fun h => q1.trans (h.trans q2.symm), fun h => q1.symm.trans (h.trans q2)⟩

/-- **C114** (again): an object that is merged a second time changes what is read exactly when an array with elements can be
reached in it through keys of objects -/
theorem C114_again {n m : Nat} {h : Heap} {d : Nat} {a b : List (List Byte × Val)} (ho : Own h d (.obj a))
    (hb : (Val.obj b).Distinct) (hsz : (Val.obj a).nodes + (Val.obj b).nodes + (Val.obj b).nodes < 2 ^ 31)
    (hn : (Val.obj b).nodes + (Val.obj b).nodes < n)
    (hm : (Val.obj a).nodes + (Val.obj b).nodes + (Val.obj b).nodes ≤ m) :
    ∃ h1 h2 v1 v2, into n h d (.obj b) = .ok (some (true, h1)) ∧ into n h1 d (.obj b) = .ok (some (true, h2)) ∧
      readVal h1 m d = .ok (some v1) ∧ readVal h2 m d = .ok (some v2) ∧ (KeyEq v1 v2 ↔ ¬ HasArray (.obj b)) := by
  have n1 := nodes_merge (.obj b) (mergeVal (.obj a) (.obj b))
  have n2 := nodes_merge (.obj b) (.obj a)
  obtain ⟨h1, e1, o1⟩ := into_spec (n := n) ho hb rfl (by omega) (by omega)
  obtain ⟨h2, e2, o2⟩ := into_spec (n := n) o1 hb (by rw [mergeable_merge]; rfl) (by omega) (by omega)
  obtain ⟨v1, r1, q1⟩ := own_read o1 (m := m) (by omega)
  obtain ⟨v2, r2, q2⟩ := own_read o2 (m := m) (by omega)
  refine ⟨h1, h2, v1, v2, e1, e2, r1, r2, ?_⟩
  rw [← again_iff _ _ (own_distinct ho) hb]
  exact ⟨fun h => q1.trans (h.trans q2.symm), fun h => q1.symm.trans (h.trans q2)⟩

/-- **C114** (order): two objects that are apart can be merged in either order -/
theorem C114_order {n m : Nat} {h : Heap} {d : Nat} {a b c : List (List Byte × Val)} (ho : Own h d (.obj a))
    (hb : (Val.obj b).Distinct) (hc : (Val.obj c).Distinct) (hap : Apart (.obj b) (.obj c))
    (hsz : (Val.obj a).nodes + (Val.obj b).nodes + (Val.obj c).nodes < 2 ^ 31)
    (hn : (Val.obj b).nodes + (Val.obj c).nodes < n)
    (hm : (Val.obj a).nodes + (Val.obj b).nodes + (Val.obj c).nodes ≤ m) :
    ∃ h1 h2 v1 v2, inTurn n h d (.obj b) (.obj c) = .ok (some (true, h1)) ∧
      inTurn n h d (.obj c) (.obj b) = .ok (some (true, h2)) ∧
      readVal h1 m d = .ok (some v1) ∧ readVal h2 m d = .ok (some v2) ∧ KeyEq v1 v2 := by
  obtain ⟨h1, e1, o1⟩ := inTurn_spec (n := n) ho hb hc hsz hn
  obtain ⟨h2, e2, o2⟩ := inTurn_spec (n := n) ho hc hb (by omega) (by omega)
  have n1 := nodes_merge (.obj c) (mergeVal (.obj a) (.obj b))
  have n2 := nodes_merge (.obj b) (.obj a)
  have n3 := nodes_merge (.obj b) (mergeVal (.obj a) (.obj c))
  have n4 := nodes_merge (.obj c) (.obj a)
  obtain ⟨v1, r1, q1⟩ := own_read o1 (m := m) (by omega)
  obtain ⟨v2, r2, q2⟩ := own_read o2 (m := m) (by omega)
  exact ⟨h1, h2, v1, v2, e1, e2, r1, r2,
    q1.symm.trans ((apart_order hap _ (own_distinct ho) hb hc).trans q2)⟩

/-- **C114** (neutral): merging an empty object changes nothing, and merging into an empty object gives the other one -/
theorem C114_neutral {n m : Nat} {h : Heap} {d : Nat} {a : List (List Byte × Val)} (ho : Own h d (.obj a)) :
    (1 < n → (Val.obj a).nodes + 1 < 2 ^ 31 → (Val.obj a).nodes + 1 ≤ m →
      ∃ h' v, into n h d (.obj []) = .ok (some (true, h')) ∧ readVal h' m d = .ok (some v) ∧ KeyEq (.obj a) v) ∧
    (∀ b, a = [] → (Val.obj b).Distinct → (Val.obj b).nodes < n → (Val.obj b).nodes + 1 < 2 ^ 31 →
      (Val.obj b).nodes + 1 ≤ m →
      ∃ h' v, into n h d (.obj b) = .ok (some (true, h')) ∧ readVal h' m d = .ok (some v) ∧ KeyEq (.obj b) v) := by
  have e0 : (Val.obj []).nodes = 1 := by rw [Val.nodes, nodesF]
  constructor
  · intro h1 h2 h3
    obtain ⟨h', e, o⟩ := into_spec (n := n) ho (w := .obj []) (by simp [Val.Distinct, DistinctF]) rfl (by omega) (by omega)
    have : mergeVal (.obj a) (.obj []) = .obj a := by rw [mergeVal, mergeF]
    rw [this] at o
    obtain ⟨v, r, q⟩ := own_read o (m := m) (by omega)
    exact ⟨h', v, e, r, q⟩
  · rintro b rfl hb h1 h2 h3
    obtain ⟨h', e, o⟩ := into_spec (n := n) ho hb rfl (by omega) (by omega)
    have hb' := hb
    rw [Val.Distinct] at hb'
    have : mergeVal (.obj []) (.obj b) = .obj b := by rw [mergeVal, mergeF_nil hb'.1]
    rw [this] at o
    obtain ⟨v, r, q⟩ := own_read o (m := m) (by omega)
    exact ⟨h', v, e, r, q⟩

/-! ## concrete cases -/

/-- every object can be at some address -/
theorem own_exists (v : Val) (hv : v.Distinct) (hs : v.nodes < 2 ^ 31) : ∃ h d, Own h d v := by
  obtain ⟨t, s, Q, -, g2, g3⟩ := place_spec [] v hv hs
  exact ⟨_, s, Q, g2, fun r hr => (g3 r hr).2⟩

/-- `{"k":{"a":1}}` -/
def docA : List (List Byte × Val) := [([107], .obj [([97], .atom (.i64 1))])]
/-- `{"k":null}` -/
def docB : List (List Byte × Val) := [([107], .atom .null)]
/-- `{"k":{"b":2}}` -/
def docC : List (List Byte × Val) := [([107], .obj [([98], .atom (.i64 2))])]
/-- `{"k":[1]}` -/
def docR : List (List Byte × Val) := [([107], .arr [.atom (.i64 1)])]

theorem doc_distinct : (Val.obj docA).Distinct ∧ (Val.obj docB).Distinct ∧ (Val.obj docC).Distinct ∧
    (Val.obj docR).Distinct := by
  simp [docA, docB, docC, docR, Val.Distinct, DistinctF, DistinctL]

theorem docs_clash : Clash (.obj docA) (.obj docB) (.obj docC) := by
  refine .under (k := [107]) rfl rfl rfl (.here rfl rfl fun h => ?_)
  rw [mergeVal, keyEq_obj] at h
  have := h.2.2.1 [97]
  rw [lookup_mergeF _ _ (by simp)] at this
  simp [List.lookup] at this

/-- **C114 is false**: `{"k":{"a":1}}`, `{"k":null}` and `{"k":{"b":2}}` merged in turn give something else than the second
and the third merged first: the key `a` comes back -/
theorem C114_group_false : ∃ h d h1 h2 v1 v2, Own h d (.obj docA) ∧
    inTurn 10 h d (.obj docB) (.obj docC) = .ok (some (true, h1)) ∧
    grouped 10 h d (.obj docB) (.obj docC) = .ok (some (true, h2)) ∧
    readVal h1 10 d = .ok (some v1) ∧ readVal h2 10 d = .ok (some v2) ∧ ¬ KeyEq v1 v2 := by
  obtain ⟨hA, hB, hC, -⟩ := doc_distinct
  obtain ⟨h, d, ho⟩ := own_exists _ hA (by decide)
  obtain ⟨h1, h2, v1, v2, e1, e2, r1, r2, hk⟩ := C114_partial (n := 10) (m := 10) ho hB hC (by decide) (by decide) (by decide)
  exact ⟨h, d, h1, h2, v1, v2, ho, e1, e2, r1, r2, fun h => hk.1 h docs_clash⟩

/-- **C114 is false**: `{"k":[1]}` merged into an object a second time changes it -/
theorem C114_again_false : ∃ h d h1 h2 v1 v2, Own h d (.obj docA) ∧ into 10 h d (.obj docR) = .ok (some (true, h1)) ∧
    into 10 h1 d (.obj docR) = .ok (some (true, h2)) ∧
    readVal h1 10 d = .ok (some v1) ∧ readVal h2 10 d = .ok (some v2) ∧ ¬ KeyEq v1 v2 := by
  obtain ⟨hA, -, -, hR⟩ := doc_distinct
  obtain ⟨h, d, ho⟩ := own_exists _ hA (by decide)
  obtain ⟨h1, h2, v1, v2, e1, e2, r1, r2, hk⟩ := C114_again (n := 10) (m := 10) ho hR (by decide) (by decide) (by decide)
  exact ⟨h, d, h1, h2, v1, v2, ho, e1, e2, r1, r2, fun h => hk.1 h (.under (k := [107]) rfl (.here (by simp)))⟩

/-- documents with nested objects that do not clash, and that are apart -/
example : ¬ Clash (.obj docA) (.obj docC) (.obj docC) ∧ Apart (.obj docA) (.obj docC) ∧ ¬ HasArray (.obj docC) := by
  refine ⟨fun h => ?_, .obj fun k y z hy hz => ?_, fun h => ?_⟩
  · cases h with
    | here _ h2 => cases h2
    | @under _ _ _ k x y z e1 e2 e3 h =>
      have hk : k = [107] := by
        by_cases e : k = [107]
        · exact e
        · simp [docA, List.lookup, beq_false_of_ne e] at e1
      subst hk
      simp only [docA, docC, List.lookup, beq_self_eq_true, Option.some.injEq] at e1 e2 e3
      subst e1 e2 e3
      cases h with
      | here _ h2 => cases h2
      | @under _ _ _ k x y z e1 e2 e3 h =>
        by_cases e : k = [97]
        · subst e; simp [List.lookup] at e2
        · simp [List.lookup, beq_false_of_ne e] at e1
  · have hk : k = [107] := by
      by_cases e : k = [107]
      · exact e
      · simp [docA, List.lookup, beq_false_of_ne e] at hy
    subst hk
    simp only [docA, docC, List.lookup, beq_self_eq_true, Option.some.injEq] at hy hz
    subst hy hz
    refine .obj fun k y z hy hz => ?_
    by_cases e : k = [97]
    · subst e; simp [List.lookup] at hz
    · simp [List.lookup, beq_false_of_ne e] at hy
  · cases h with
    | @under _ k x e h =>
      by_cases ek : k = [107]
      · subst ek
        simp only [docC, List.lookup, beq_self_eq_true, Option.some.injEq] at e
        subst e
        cases h with
        | @under _ k x e h =>
          by_cases ek : k = [98]
          · subst ek; simp only [List.lookup, beq_self_eq_true, Option.some.injEq] at e; subst e; cases h
          · simp [List.lookup, beq_false_of_ne ek] at e
      · simp [docC, List.lookup, beq_false_of_ne ek] at e

end Props
end Verif.Json
