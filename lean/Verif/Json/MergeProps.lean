import Verif.Json.HeapProps
import Verif.Json.RoundTrip

/-!
# Search and merge: the properties (C39, C40, C62-C65)
-/

namespace Verif.Json

open Tree (visited)

/-! ## every value can be built -/

theorem ObjRel.empty : ObjRel (Map.mkE .rc .rc) [] where
  rel := ⟨[], Map.Rel_mk strcmp _ _, rfl⟩
  pol := by simp [Map.mkE]
  nodup := by simp
  keys k := by simp [Map.mkE, Map.find, Tree.tfind]

theorem lookup_none {α : Type} {es : List (List Byte × α)} {k : List Byte} (hk : k ∉ es.map (·.1)) : es.lookup k = none := by
  induction es with
  | nil => rfl
  | cons a es ih =>
    simp only [List.map_cons, List.mem_cons, not_or] at hk
    rw [List.lookup_cons, beq_false_of_ne hk.1]
    exact ih hk.2

theorem map_of (kvs : List (List Byte × Val)) : ∀ (es : List (List Byte × Nat)) (m : ObjMap) (cur : List (List Byte × Val)),
    es.map (·.1) = kvs.map (·.1) → ObjRel m cur → cur.length + kvs.length < 2 ^ 31 →
    ((cur ++ kvs).map (·.1)).Nodup →
    ∃ m', entries m es = .ok m' ∧ ObjRel m' (cur ++ kvs) ∧ ∀ k, Map.find strcmp m' (some k) = (es.lookup k).or (Map.find strcmp m (some k)) := by
  induction kvs with
  | nil =>
    intro es m cur he ho _ _
    rw [List.map_nil, List.map_eq_nil_iff] at he
    subst he
    exact ⟨m, rfl, by simpa using ho, by simp⟩
  | cons kv kvs ih =>
    intro es m cur he ho hl hn
    obtain ⟨k, x⟩ := kv
    cases es with
    | nil => simp at he
    | cons e es =>
      obtain ⟨k', c⟩ := e
      simp only [List.map_cons, List.cons.injEq] at he
      obtain ⟨rfl, he⟩ := he
      rw [List.length_cons] at hl
      have hk : k' ∉ cur.map (·.1) := by
        rw [List.map_append, List.nodup_append] at hn
        intro hm
        exact hn.2.2 k' hm k' (by simp) rfl
      have hk' : k' ∉ kvs.map (·.1) := by
        rw [List.map_append, List.nodup_append, List.map_cons, List.nodup_cons] at hn
        exact hn.2.1.1
      obtain ⟨m1, old, e0, o1, f1⟩ := ho.add (by omega) k' c none x (by simp)
      rw [insertKey_new hk] at o1
      have hnone : Map.find strcmp m (some k') = none := by
        rw [← Option.not_isSome_iff_eq_none, ho.keys, lookup_isSome]; exact hk
      rw [hnone] at f1
      obtain ⟨m2, e2, o2, f2⟩ := ih es m1 _ he o1 (by simp; omega) (by simpa using hn)
      refine ⟨m2, by rw [entries, Map.add, e0, Res.bind_ok]; exact e2, by simpa using o2, fun k => ?_⟩
      rw [f2, f1, List.lookup_cons]
      by_cases e : k = k'
      · subst e
        have : es.lookup k = none := lookup_none (by rw [he]; exact hk')
        simp [this]
      · rw [if_neg e, beq_false_of_ne e]

/-- the nodes of a value that was built on top of the heap `h`: none of the nodes of `h` -/
def fresh (P : Nat → List Step) (lo hi : Nat) (p : List Step) (i : Nat) : Prop := P i = p ∧ lo ≤ i ∧ i < hi

/-- the value `v` can be built on any heap, without sharing, at any path -/
def Builds (v : Val) : Prop :=
  ∀ (h : Heap) (p : List Step), ∃ t r P, place h v = .ok (r, h ++ t) ∧ Reps (h ++ t) (fresh P h.length (h ++ t).length) p r v

theorem Reps.grow {h t : Heap} {P Q : Nat → List Step} {lo lo' hi hi' : Nat} {p r v}
    (hr : Reps h (fresh P lo hi) p r v) (h1 : hi ≤ h.length) (h2 : lo' ≤ lo) (h3 : hi ≤ hi')
    (hq : ∀ i, lo ≤ i → i < hi → Q i = P i) : Reps (h ++ t) (fresh Q lo' hi') p r v := by
  refine (hr.frame fun q c hc => ?_).mono fun q c hc => ?_
  · rw [List.getElem?_append_left]; have := hc.2.2; omega
  · exact ⟨by rw [hq c hc.2.1 hc.2.2]; exact hc.1, by have := hc.2.1; omega, by have := hc.2.2; omega⟩

theorem builds_list (xs : List Val) (hb : ∀ x ∈ xs, Builds x) : ∀ (h : Heap) (f : Nat → List Step),
    ∃ (t : Heap) (rs : List Nat) (P : Nat → List Step), placeL h xs = .ok (rs, h ++ t) ∧ rs.length = xs.length ∧ ∀ (i c : Nat) (x : Val), rs[i]? = some c → xs[i]? = some x →
      Reps (h ++ t) (fresh P h.length (h ++ t).length) (f i) c x := by
  induction xs with
  | nil => intro h f; exact ⟨[], [], fun _ => [], by simp [placeL], rfl, by simp⟩
  | cons y ys ih =>
    intro h f
    rw [List.forall_mem_cons] at hb
    obtain ⟨t1, r, P1, g1, h1⟩ := hb.1 h (f 0)
    obtain ⟨t2, rs, P2, g2, hl, h2⟩ := ih hb.2 (h ++ t1) (fun i => f (i + 1))
    refine ⟨t1 ++ t2, r :: rs, fun i => if i < (h ++ t1).length then P1 i else P2 i,
      by rw [placeL, g1, Res.bind_ok, g2, ← List.append_assoc]; rfl, by simp [hl], ?_⟩
    intro i c x e1 e2
    rw [← List.append_assoc]
    cases i with
    | zero =>
      simp only [List.getElem?_cons_zero, Option.some.injEq] at e1 e2
      subst e1 e2
      exact h1.grow (by omega) (by omega) (by simp) fun i _ hi => by simp only [hi, if_true]
    | succ i =>
      simp only [List.getElem?_cons_succ] at e1 e2
      refine (h2 i c x e1 e2).mono fun q j hj => ⟨?_, by have := hj.2.1; simp at this; omega, hj.2.2⟩
      have := hj.2.1
      simp only [if_neg (show ¬ j < (h ++ t1).length by omega)]
      exact hj.1

theorem builds_fields (xs : List (List Byte × Val)) (hn : (xs.map (·.1)).Nodup) (hb : ∀ x ∈ xs, Builds x.2) :
    ∀ (h : Heap) (f : List Byte → List Step),
    ∃ (t : Heap) (es : List (List Byte × Nat)) (P : Nat → List Step), placeF h xs = .ok (es, h ++ t) ∧ es.map (·.1) = xs.map (·.1) ∧ ∀ (k : List Byte) (c : Nat) (x : Val), es.lookup k = some c → xs.lookup k = some x →
      Reps (h ++ t) (fresh P h.length (h ++ t).length) (f k) c x := by
  induction xs with
  | nil => intro h f; exact ⟨[], [], fun _ => [], by simp [placeF], rfl, by simp⟩
  | cons y ys ih =>
    intro h f
    obtain ⟨ky, y⟩ := y
    rw [List.forall_mem_cons] at hb
    rw [List.map_cons, List.nodup_cons] at hn
    obtain ⟨t1, r, P1, g1, h1⟩ := hb.1 h (f ky)
    obtain ⟨t2, rs, P2, g2, hl, h2⟩ := ih hn.2 hb.2 (h ++ t1) f
    refine ⟨t1 ++ t2, (ky, r) :: rs, fun i => if i < (h ++ t1).length then P1 i else P2 i,
      by rw [placeF, g1, Res.bind_ok, g2, ← List.append_assoc]; rfl, by simp [hl], ?_⟩
    intro k c x e1 e2
    rw [← List.append_assoc]
    rw [List.lookup_cons] at e1 e2
    by_cases e : k = ky
    · subst e
      simp only [beq_self_eq_true, Option.some.injEq] at e1 e2
      subst e1 e2
      exact h1.grow (by omega) (by omega) (by simp) fun i _ hi => by simp only [hi, if_true]
    · rw [beq_false_of_ne e] at e1 e2
      refine (h2 k c x e1 e2).mono fun q j hj => ⟨?_, by have := hj.2.1; simp at this; omega, hj.2.2⟩
      have := hj.2.1
      simp only [if_neg (show ¬ j < (h ++ t1).length by omega)]
      exact hj.1

theorem distinctL_mem {xs : List Val} : DistinctL xs ↔ ∀ x ∈ xs, x.Distinct := by
  induction xs with
  | nil => simp [DistinctL]
  | cons x xs ih => rw [DistinctL, ih, List.forall_mem_cons]

theorem distinctF_mem {xs : List (List Byte × Val)} : DistinctF xs ↔ ∀ x ∈ xs, x.2.Distinct := by
  induction xs with
  | nil => simp [DistinctF]
  | cons x xs ih => obtain ⟨k, x⟩ := x; rw [DistinctF, ih, List.forall_mem_cons]

theorem builds (v : Val) (hd : v.Distinct) (hs : v.nodes < 2 ^ 31) : Builds v := by
  have top : ∀ (h t : Heap) (n : Node) (p : List Step) (P : Nat → List Step),
      fresh (fun i => if i = (h ++ t).length then p else P i) h.length (h ++ (t ++ [n])).length p (h ++ t).length := by
    intro h t n p P
    refine ⟨by simp, by simp, by simp⟩
  have below : ∀ {h t : Heap} {n : Node} {p q : List Step} {P : Nat → List Step} {c x},
      Reps (h ++ t) (fresh P h.length (h ++ t).length) q c x →
      Reps (h ++ (t ++ [n])) (fresh (fun i => if i = (h ++ t).length then p else P i) h.length (h ++ (t ++ [n])).length) q c x := by
    intro h t n p q P c x hr
    rw [← List.append_assoc]
    refine hr.grow (by omega) (by omega) (by simp) fun i _ hi => ?_
    rw [if_neg (by omega)]
  have node : ∀ (h t : Heap) (n : Node), (h ++ (t ++ [n]))[(h ++ t).length]? = some n := by
    intro h t n
    rw [← List.append_assoc]; simp
  induction v using Val.ind with
  | h0 a =>
    intro h p
    exact ⟨[] ++ [.atom a], (h ++ []).length, _, by rw [place]; simp, .atom (top h [] _ p fun _ => []) (node h [] _)⟩
  | ha xs ih =>
    intro h p
    rw [Val.Distinct, distinctL_mem] at hd
    rw [Val.nodes] at hs
    obtain ⟨t, rs, P, g, hl, hc⟩ := builds_list xs
      (fun x hx => ih x hx (hd x hx) (by have := nodesL_mem hx; omega)) h (fun i => p ++ [.idx i])
    exact ⟨t ++ [.arr rs], (h ++ t).length, _, by rw [place, g]; simp [Res.map],
      .arr (top h t _ p P) (node h t _) hl fun i c x h1 h2 => below (hc i c x h1 h2)⟩
  | ho kvs ih =>
    intro h p
    rw [Val.Distinct, distinctF_mem] at hd
    rw [Val.nodes] at hs
    obtain ⟨t, es, P, g, hl, hc⟩ := builds_fields kvs hd.1
      (fun x hx => ih x hx (hd.2 x hx) (by have := nodesF_mem hx; omega)) h (fun k => p ++ [.key k])
    obtain ⟨m, e, o, f⟩ := map_of kvs es _ [] hl ObjRel.empty (by have := nodesF_length kvs; simp; omega) (by simpa using hd.1)
    refine ⟨t ++ [.obj m], (h ++ t).length, _, by rw [place, g, Res.bind_ok, e]; simp [Res.map],
      .obj (top h t _ p P) (node h t _) (by simpa using o) fun k c x h1 h2 => below (hc k c x ?_ h2)⟩
    rw [f] at h1
    simpa [Map.mkE, Map.find, Tree.tfind] using h1

end Verif.Json

namespace Verif.Json.Props

/-- **C39**: `cee_json_has` returns NULL only if no object inside the value has the key, and otherwise a node
that stands for the value of such a key.  (No assumption on sharing.) -/
theorem C39_has {h : Heap} {j n : Nat} {v : Val} (key : List Byte) (hr : Reps h (fun _ _ => True) [] j v)
    (hs : v.nodes < 2 ^ 31) (hn : v.height ≤ n) :
    ∃ res, has h key n j = .ok (some res) ∧ (res = none ↔ ∀ x, ¬ HasKey v key x) ∧
      ∀ c, res = some c → ∃ x, HasKey v key x ∧ Reps h (fun _ _ => True) [] c x := by
  obtain ⟨res, h1, h2, h3⟩ := has_spec key v hr hs hn
  refine ⟨res, h1, ⟨h2, fun hx => ?_⟩, fun c e => ?_⟩
  · cases res with
    | none => rfl
    | some c => obtain ⟨x, _, hk, _⟩ := h3 c rfl; exact absurd hk (hx x)
  · obtain ⟨x, q, hk, hq⟩ := h3 c e
    exact ⟨x, hk, (hq.move (T := fun _ => True) (q := [])).mono fun _ _ _ => trivial⟩

/-- every value (with different keys in each object) is in memory somewhere -/
theorem C39_exists (v : Val) (hd : v.Distinct) (hs : v.nodes < 2 ^ 31) :
    ∃ h j, Reps h (fun _ _ => True) [] j v := by
  obtain ⟨t, r, P, -, hr⟩ := builds v hd hs [] []
  exact ⟨_, r, hr.mono fun _ _ _ => trivial⟩

example : ∃ h j, Reps h (fun _ _ => True) [] j (.arr [.obj [([97], .atom .null)], .atom (.bool true)]) ∧
    ∃ c, has h [97] 9 j = .ok (some (some c)) := by
  have hd : (Val.arr [.obj [([97], .atom .null)], .atom (.bool true)]).Distinct := by
    simp [Val.Distinct, DistinctL, DistinctF]
  have hs : (Val.arr [.obj [([97], .atom .null)], .atom (.bool true)]).nodes < 2 ^ 31 := by decide
  obtain ⟨h, j, hr⟩ := C39_exists _ hd hs
  obtain ⟨res, h1, h2, -⟩ := C39_has (n := 9) [97] hr hs (by decide)
  refine ⟨h, j, hr, ?_⟩
  cases res with
  | some c => exact ⟨c, h1⟩
  | none => exact absurd (.inArr (y := .obj [([97], .atom .null)]) (by simp) (.here (x := .atom .null) rfl)) (h2.1 rfl (.atom .null))

/-- **C40**: for a destination tree whose nodes are not shared (each has one path `P`) and a source that has
none of these nodes, `cee_json_merge` returns true iff both are objects or both arrays; then the destination
stands for `mergeVal` of both, otherwise nothing has changed.  The source still stands for the same value. -/
theorem C40_merge {h : Heap} {P : Nat → Option (List Step)} {d s n : Nat} {dv sv : Val}
    (hd : Reps h (lab P) [] d dv) (hs : Reps h (un P) [] s sv) (hsz : dv.nodes + sv.nodes < 2 ^ 31)
    (hn : sv.nodes < n) :
    ∃ h', merge n h d s = .ok (some (mergeable dv sv, h')) ∧
      Reps h' (fun _ _ => True) [] d (if mergeable dv sv then mergeVal dv sv else dv) ∧
      Reps h' (un P) [] s sv := by
  obtain ⟨h', h1, -, h2, h3, h4⟩ := merge_spec P (un P) (fun _ _ h => h) (reloc dv) sv n [] hn h d dv s hd hs
    (fun _ => rfl) hsz
  refine ⟨h', h1, ?_, ?_⟩
  · cases e : mergeable dv sv with
    | true => simpa using (h3 e).mono fun _ _ _ => trivial
    | false => rw [h4 e]; simpa using hd.mono fun _ _ _ => trivial
  · refine hs.frame fun q c hc => h2 c fun q' => ?_
    rw [show P c = none from hc]; simp

/-- **C40**, once more: when the source is not shared either (each of its nodes has one path `Q`, and none is in
the destination), then the destination is not shared afterwards, and has only nodes of both; so merging can go on
with further sources. -/
theorem C40_again {h : Heap} {P Q : Nat → Option (List Step)} {d s n : Nat} {dv sv : Val}
    (hd : Reps h (lab P) [] d dv) (hs : Reps h (lab Q) [] s sv) (hPQ : ∀ r, Q r ≠ none → P r = none)
    (hsz : dv.nodes + sv.nodes < 2 ^ 31) (hn : sv.nodes < n) :
    ∃ h' P', merge n h d s = .ok (some (mergeable dv sv, h')) ∧ h'.length = h.length ∧
      Reps h' (lab P') [] d (if mergeable dv sv then mergeVal dv sv else dv) ∧
      (∀ r, P' r ≠ none → P r ≠ none ∨ Q r ≠ none) ∧ (∀ r, P r = none → h'[r]? = h[r]?) := by
  obtain ⟨h', h1, h0, h2, h3, h4⟩ := merge_spec P (lab Q) (fun q r e => hPQ r (by rw [show Q r = some q from e]; simp))
    (reloc dv) sv n [] hn h d dv s hd hs (fun _ => rfl) hsz
  have hfr : ∀ r, P r = none → h'[r]? = h[r]? := fun r hr => h2 r (by intro q; rw [hr]; simp)
  cases e : mergeable dv sv with
  | true =>
    refine ⟨h', fun r => match P r with | some p => some p | none => (Q r).map (reloc dv), e ▸ h1, h0, ?_, ?_, hfr⟩
    · refine (h3 e).mono fun q r hr => ?_
      rcases hr with hr | ⟨q', hq, rfl⟩
      · show (match P r with | some p => some p | none => _) = _
        rw [hr]
      · have hq' : Q r = some q' := hq
        show (match P r with | some p => some p | none => (Q r).map _) = _
        rw [hPQ r (by rw [hq']; simp), hq']; rfl
    · intro r hr
      cases hp : P r with
      | some p => exact .inl (by simp)
      | none =>
        refine .inr fun hq => hr ?_
        simp only [hp, hq, Option.map_none]
  | false => exact ⟨h', P, e ▸ h1, h0, by rw [h4 e]; simpa using hd, fun r hr => .inl hr, hfr⟩

/-- every two values can be in memory like that -/
example (dv sv : Val) (h1 : dv.Distinct) (h2 : sv.Distinct) (hsz : dv.nodes + sv.nodes < 2 ^ 31) :
    ∃ h P Q d s, Reps h (lab P) [] d dv ∧ Reps h (lab Q) [] s sv ∧ ∀ r, Q r ≠ none → P r = none := by
  obtain ⟨t1, d, P1, -, r1⟩ := builds dv h1 (by omega) [] []
  obtain ⟨t2, s, P2, -, r2⟩ := builds sv h2 (by omega) t1 []
  refine ⟨t1 ++ t2, fun i => if i < t1.length then some (P1 i) else none,
    fun i => if i < t1.length then none else some (P2 i), d, s, ?_, ?_, ?_⟩
  · refine (r1.frame fun q c hc => ?_).mono fun q c hc => ?_
    · have := hc.2.2
      simp only [List.nil_append] at this ⊢
      rw [List.getElem?_append_left this]
    · have := hc.2.2
      simp only [List.nil_append] at this
      simp only [lab, if_pos this]
      rw [hc.1]
  · refine r2.mono fun q c hc => ?_
    have := hc.2.1
    simp only [lab, if_neg (show ¬ c < t1.length by omega)]
    rw [hc.1]
  · intro r hr
    simp only at hr ⊢
    by_cases h : r < t1.length
    · rw [if_pos h] at hr; exact absurd rfl hr
    · rw [if_neg h]

/-- **C40**, what `mergeVal` is, for objects with different keys: a key is there iff it is in one of the two;
if it is in both and both values are objects or both are arrays these are merged, otherwise the source wins;
arrays are concatenated. -/
theorem C40_meaning :
    (∀ a b k, (b.map (·.1)).Nodup → ∃ kvs, mergeVal (.obj a) (.obj b) = .obj kvs ∧
      kvs.lookup k = match a.lookup k, b.lookup k with
        | x, none => x
        | none, some y => some y
        | some x, some y => some (if mergeable x y then mergeVal x y else y)) ∧
    (∀ a b, mergeVal (.arr a) (.arr b) = .arr (a ++ b)) := by
  refine ⟨fun a b k hb => ⟨mergeF a b, by rw [mergeVal], ?_⟩, fun a b => by rw [mergeVal]⟩
  rw [lookup_mergeF a b hb]
  cases b.lookup k with
  | none => cases a.lookup k <;> rfl
  | some y =>
    cases a.lookup k with
    | none => rfl
    | some x =>
      cases e : mergeable x y with
      | true => simp [e]
      | false => simp [e, mergeVal_not e]

/-- every two values can be in memory like that -/
theorem C40_exists (dv sv : Val) (h1 : dv.Distinct) (h2 : sv.Distinct) (hsz : dv.nodes + sv.nodes < 2 ^ 31) :
    ∃ h P d s, Reps h (lab P) [] d dv ∧ Reps h (un P) [] s sv := by
  obtain ⟨t1, d, P1, -, r1⟩ := builds dv h1 (by omega) [] []
  obtain ⟨t2, s, P2, -, r2⟩ := builds sv h2 (by omega) t1 []
  refine ⟨t1 ++ t2, fun i => if i < t1.length then some (P1 i) else none, d, s, ?_, ?_⟩
  · refine (r1.frame fun q c hc => ?_).mono fun q c hc => ?_
    · have := hc.2.2
      simp only [List.nil_append] at this ⊢
      rw [List.getElem?_append_left this]
    · have := hc.2.2
      simp only [List.nil_append] at this
      simp only [lab, if_pos this]
      rw [hc.1]
  · refine r2.mono fun q c hc => ?_
    have := hc.2.1
    simp only [un, if_neg (show ¬ c < t1.length by omega)]

example : ∃ h P d s,
    Reps h (lab P) [] d (.obj [([97], .obj [([98], .atom .null)]), ([99], .atom (.bool true))]) ∧
    Reps h (un P) [] s (.obj [([97], .obj [([100], .arr [])]), ([99], .arr [])]) ∧
    mergeVal (.obj [([97], .obj [([98], .atom .null)]), ([99], .atom (.bool true))])
      (.obj [([97], .obj [([100], .arr [])]), ([99], .arr [])]) =
      .obj [([97], .obj [([98], .atom .null), ([100], .arr [])]), ([99], .arr [])] := by
  obtain ⟨h, P, d, s, h1, h2⟩ := C40_exists
    (.obj [([97], .obj [([98], .atom .null)]), ([99], .atom (.bool true))])
    (.obj [([97], .obj [([100], .arr [])]), ([99], .arr [])])
    (by simp [Val.Distinct, DistinctF]) (by simp [Val.Distinct, DistinctL, DistinctF]) (by decide)
  exact ⟨h, P, d, s, h1, h2, by simp [mergeVal, mergeF, insertKey, List.lookup]⟩

end Verif.Json.Props

namespace Verif.Json

/-- the object with one key, as `cee_map_add` makes it -/
def oneKey (k : List Byte) (v : Nat) : ObjMap :=
  match Map.addE strcmp (Map.mkE .rc .rc) (some k) (some v) none with
  | .ok r => r.2
  | _ => Map.mkE .rc .rc

/-- and one with two -/
def twoKeys (k : List Byte) (v : Nat) (k' : List Byte) (v' : Nat) : ObjMap :=
  match Map.addE strcmp (oneKey k v) (some k') (some v') none with
  | .ok r => r.2
  | _ => Map.mkE .rc .rc

theorem oneKey_rel (k : List Byte) (v : Nat) (x : Val) : ObjRel (oneKey k v) [(k, x)] ∧
    ∀ k', Map.find strcmp (oneKey k v) (some k') = if k' = k then some v else none := by
  obtain ⟨m, old, h1, h2, h3⟩ := ObjRel.empty.add (by simp) k v none x (by simp)
  have e : oneKey k v = m := by rw [oneKey, h1]
  rw [e]
  refine ⟨h2, fun k' => ?_⟩
  rw [h3]; simp [Map.mkE, Map.find, Tree.tfind]

theorem twoKeys_rel (k : List Byte) (v : Nat) (x : Val) (k1 : List Byte) (v1 : Nat) (x1 : Val) (hk : k1 ≠ k) :
    ObjRel (twoKeys k v k1 v1) [(k, x), (k1, x1)] ∧
    ∀ k', Map.find strcmp (twoKeys k v k1 v1) (some k') =
      if k' = k1 then some v1 else if k' = k then some v else none := by
  obtain ⟨o, f⟩ := oneKey_rel k v x
  obtain ⟨m, old, h1, h2, h3⟩ := o.add (by simp) k1 v1 none x1 (by simp)
  have e : twoKeys k v k1 v1 = m := by rw [twoKeys, h1]
  rw [insertKey_new (by simpa using hk)] at h2
  rw [e]
  refine ⟨h2, fun k' => ?_⟩
  rw [h3, f, f, if_neg hk]

theorem Reps.oneKey {h : Heap} {S p r k v x} (hs : S p r) (hr : h[r]? = some (.obj (oneKey k v)))
    (hc : Reps h S (p ++ [.key k]) v x) : Reps h S p r (.obj [(k, x)]) := by
  obtain ⟨o, f⟩ := oneKey_rel k v x
  refine .obj hs hr o fun k' c y e1 e2 => ?_
  rw [f] at e1
  by_cases e : k' = k
  · subst e
    simp only [if_true, Option.some.injEq] at e1
    simp at e2
    subst e1 e2
    exact hc
  · rw [if_neg e] at e1; simp at e1

theorem Reps.twoKeys {h : Heap} {S p r k v x k1 v1 x1} (hk : k1 ≠ k) (hs : S p r)
    (hr : h[r]? = some (.obj (twoKeys k v k1 v1)))
    (hc : Reps h S (p ++ [.key k]) v x) (hc1 : Reps h S (p ++ [.key k1]) v1 x1) :
    Reps h S p r (.obj [(k, x), (k1, x1)]) := by
  obtain ⟨o, f⟩ := twoKeys_rel k v x k1 v1 x1 hk
  refine .obj hs hr o fun k' c y e1 e2 => ?_
  rw [f] at e1
  by_cases e : k' = k1
  · subst e
    simp only [if_true, Option.some.injEq] at e1
    rw [List.lookup_cons, beq_false_of_ne hk] at e2
    simp at e2
    subst e1 e2
    exact hc1
  · rw [if_neg e] at e1
    by_cases e' : k' = k
    · subst e'
      simp only [if_true, Option.some.injEq] at e1
      simp at e2
      subst e1 e2
      exact hc
    · rw [if_neg e'] at e1; simp at e1

theorem Reps.noKeys {h : Heap} {S p r} (hs : S p r) (hr : h[r]? = some (.obj (Map.mkE .rc .rc))) :
    Reps h S p r (.obj []) :=
  .obj hs hr ObjRel.empty fun k c x _ e => by simp at e

end Verif.Json

namespace Verif.Json.Props

/-! ## C62: a merge must not change an earlier source -/

/-- the claim C62: whatever is merged into `d` later, the first source keeps its value -/
def C62_claim : Prop :=
  ∀ (n : Nat) (h h1 h2 : Heap) (P : Nat → Option (List Step)) (d s1 s2 : Nat) (dv v1 v2 : Val),
    Reps h (lab P) [] d dv → Reps h (un P) [] s1 v1 → Reps h (un P) [] s2 v2 →
    merge n h d s1 = .ok (some (true, h1)) → merge n h1 d s2 = .ok (some (true, h2)) →
    Reps h2 (fun _ _ => True) [] s1 v1

/-- the heap of the counterexample: `0 : {}`, `1 : {"a": 2}`, `2 : {}`, `3 : {"a": 4}`, `4 : {"b": 5}`,
`5 : null` -/
def h62 : Heap :=
  [.obj (Map.mkE .rc .rc), .obj (oneKey [97] 2), .obj (Map.mkE .rc .rc), .obj (oneKey [97] 4),
    .obj (oneKey [98] 5), .atom .null]

/-- **C62 is false**: merging `{"a":{}}` and then `{"a":{"b":null}}` into `{}` makes the first source
`{"a":{"b":null}}`: its inner object is now also part of the destination. -/
theorem C62_false : ¬ C62_claim := by
  intro claim
  have e1 : merge 9 h62 0 1 = .ok (some (true, h62.set 0 (.obj (oneKey [97] 2)))) := by rfl
  have e2 : merge 9 (h62.set 0 (.obj (oneKey [97] 2))) 0 3 =
      .ok (some (true, (h62.set 0 (.obj (oneKey [97] 2))).set 2 (.obj (oneKey [98] 5)))) := by rfl
  have := claim 9 h62 _ _ (fun i => if i = 0 then some [] else none) 0 1 3 (.obj []) (.obj [([97], .obj [])])
    (.obj [([97], .obj [([98], .atom .null)])])
    (.noKeys (by simp [lab]) rfl)
    (.oneKey (v := 2) (by simp [un]) rfl (.noKeys (by simp [un]) rfl))
    (.oneKey (v := 4) (by simp [un]) rfl (.oneKey (v := 5) (by simp [un]) rfl (.atom (by simp [un]) rfl)))
    e1 e2
  cases this with
  | obj _ hn o hc =>
    simp only [h62, List.set_cons_zero, List.set_cons_succ, List.getElem?_cons_succ, List.getElem?_cons_zero,
      Option.some.injEq, Node.obj.injEq] at hn
    subst hn
    have hc := hc [97] 2 (.obj []) ((oneKey_rel [97] 2 (.atom .null)).2 [97]) rfl
    cases hc with
    | obj _ hn o _ =>
      simp only [h62, List.set_cons_zero, List.set_cons_succ, List.getElem?_cons_succ, List.getElem?_cons_zero,
        Option.some.injEq, Node.obj.injEq] at hn
      subst hn
      have := o.keys [98]
      rw [(oneKey_rel [98] 5 (.atom .null)).2] at this
      simp at this

/-! ## C63: an object's own key -/

/-- the claim C63: if the object itself has the key, its value is what `cee_json_has` returns -/
def C63_claim : Prop :=
  ∀ (n : Nat) (h : Heap) (j c : Nat) (kvs : List (List Byte × Val)) (k : List Byte) (x : Val) (m : ObjMap),
    Reps h (fun _ _ => True) [] j (.obj kvs) → kvs.lookup k = some x → h[j]? = some (.obj m) →
    has h k n j = .ok (some (some c)) → Map.find strcmp m (some k) = some c

/-- **C63 is false**: in `{"a":{"k":true},"k":false}` (with `"a"` added first) the inner `true` is found. -/
theorem C63_false : ¬ C63_claim := by
  intro claim
  have := claim 9 [.obj (twoKeys [97] 1 [107] 3), .obj (oneKey [107] 2), .atom (.bool true), .atom (.bool false)] 0 2
    [([97], .obj [([107], .atom (.bool true))]), ([107], .atom (.bool false))] [107] (.atom (.bool false)) _
    (.twoKeys (v := 1) (v1 := 3) (by decide) trivial rfl
      (.oneKey (v := 2) trivial rfl (.atom trivial rfl)) (.atom trivial rfl)) rfl rfl rfl
  rw [(twoKeys_rel [97] 1 (.atom .null) [107] 3 (.atom .null) (by decide)).2] at this
  simp at this

/-- the part that holds: the own key is found if nothing else below the object has it -/
theorem C63_partial {h : Heap} {j n : Nat} {kvs : List (List Byte × Val)} {k : List Byte} {x : Val}
    (hr : Reps h (fun _ _ => True) [] j (.obj kvs)) (hs : (Val.obj kvs).nodes < 2 ^ 31)
    (hn : (Val.obj kvs).height ≤ n) (hk : kvs.lookup k = some x)
    (hu : ∀ k' y z, kvs.lookup k' = some y → ¬ HasKey y k z) :
    ∃ c, has h k n j = .ok (some (some c)) ∧ Reps h (fun _ _ => True) [] c x := by
  obtain ⟨res, h1, h2, h3⟩ := C39_has k hr hs hn
  cases res with
  | none => exact absurd (.here hk) (h2.1 rfl x)
  | some c =>
    obtain ⟨y, hy, hc⟩ := h3 c rfl
    cases hy with
    | here e => rw [hk] at e; simp only [Option.some.injEq] at e; exact ⟨c, h1, e ▸ hc⟩
    | inObj e hz => exact absurd hz (hu _ _ _ e)

example : ∃ h j, Reps h (fun _ _ => True) [] j (.obj [([97], .arr []), ([107], .atom (.bool false))]) ∧
    ∃ c, has h [107] 9 j = .ok (some (some c)) ∧ Reps h (fun _ _ => True) [] c (.atom (.bool false)) := by
  obtain ⟨h, j, hr⟩ := C39_exists (.obj [([97], .arr []), ([107], .atom (.bool false))])
    (by simp [Val.Distinct, DistinctF, DistinctL]) (by decide)
  refine ⟨h, j, hr, C63_partial hr (by decide) (by decide) rfl fun k' y z e hz => ?_⟩
  have : (k', y) ∈ [([97], Val.arr []), ([107], Val.atom (.bool false))] := lookup_mem e
  simp only [List.mem_cons, List.not_mem_nil, or_false, Prod.mk.injEq] at this
  rcases this with ⟨-, rfl⟩ | ⟨-, rfl⟩
  · cases hz with | inArr h _ => simp at h
  · cases hz

/-! ## C64: an array merged with, or appended to, itself -/

theorem mergeArr_self (d : Nat) (n : Nat) : ∀ (i : Nat) (h : Heap) (xs : List Nat), h[d]? = some (.arr xs) →
    i < xs.length → ∀ r, mergeArr d d n i h ≠ .ok (some r) := by
  induction n with
  | zero => intro i h xs _ _ r; simp [mergeArr]
  | succ n ih =>
    intro i h xs hx hi r
    have hg : xs[i]? = some xs[i] := List.getElem?_eq_getElem hi
    simp only [mergeArr, hx, hg]
    split
    · simp
    · exact ih (i + 1) _ (xs ++ [xs[i]]) (set_same hx) (by simp; omega) r

theorem concat_self (d : Nat) (n : Nat) : ∀ (i : Nat) (h : Heap) (xs : List Nat), h[d]? = some (.arr xs) →
    i < xs.length → ∀ r, concatLoop d d n i h ≠ .ok (some r) := by
  induction n with
  | zero => intro i h xs _ _ r; simp [concatLoop]
  | succ n ih =>
    intro i h xs hx hi r
    have hg : xs[i]? = some xs[i] := List.getElem?_eq_getElem hi
    simp only [concatLoop, hx, hg]
    split
    · simp
    · exact ih (i + 1) _ (xs ++ [xs[i]]) (set_same hx) (by simp; omega) r

/-- **C64 is false**: a nonempty array merged with itself, or concatenated with itself, never ends well: the
loop runs until its counter overflows (or memory is used up). -/
theorem C64_self_false {h : Heap} {d : Nat} {x : Nat} {xs : List Nat} (hd : h[d]? = some (.arr (x :: xs))) (n : Nat) :
    (∀ r, merge n h d d ≠ .ok (some r)) ∧ ∀ r, arrConcat n h d d ≠ .ok (some r) := by
  constructor
  · intro r
    cases n with
    | zero => simp [merge]
    | succ n =>
      simp only [merge, hd]
      intro e
      have hno := mergeArr_self d n 0 h _ hd (by simp)
      cases hm : mergeArr d d n 0 h with
      | ub => rw [hm] at e; simp [Res.map] at e
      | segv => rw [hm] at e; simp [Res.map] at e
      | ok y =>
        cases y with
        | none => rw [hm] at e; simp [Res.map] at e
        | some y => exact hno y hm
  · intro r
    simp only [arrConcat, hd]
    exact concat_self d n 0 h _ hd (by simp) r

example : ([.arr [1], .atom .null] : Heap)[0]? = some (.arr [1]) := rfl

theorem set_self {h : Heap} {d : Nat} {n : Node} (hd : h[d]? = some n) : h.set d n = h := by
  obtain ⟨hl, e⟩ := List.getElem?_eq_some_iff.1 hd
  rw [← e, List.set_getElem_self]

theorem concat_loop {d s : Nat} (hds : d ≠ s) {zs : List Nat} : ∀ (k i n : Nat) (h : Heap) (ys : List Nat),
    k + i = zs.length → zs.length < 2 ^ 31 → k < n → h[d]? = some (.arr ys) → h[s]? = some (.arr zs) →
    concatLoop d s n i h = .ok (some (h.set d (.arr (ys ++ zs.drop i)))) := by
  intro k
  induction k with
  | zero =>
    intro i n h ys hk hz hn h1 h2
    obtain ⟨n, rfl⟩ : ∃ m, n = m + 1 := ⟨n - 1, by omega⟩
    have : zs[i]? = none := List.getElem?_eq_none (by omega)
    simp only [concatLoop, h1, h2, this]
    rw [List.drop_eq_nil_of_le (by omega), List.append_nil, set_self h1]
  | succ k ih =>
    intro i n h ys hk hz hn h1 h2
    obtain ⟨n, rfl⟩ : ∃ m, n = m + 1 := ⟨n - 1, by omega⟩
    have hi : i < zs.length := by omega
    have hg : zs[i]? = some zs[i] := List.getElem?_eq_getElem hi
    simp only [concatLoop, h1, h2, hg]
    rw [if_neg (by omega), ih (i + 1) n _ (ys ++ [zs[i]]) (by omega) hz (by omega) (set_same h1)
      (by rw [set_other (fun e => hds e.symm)]; exact h2), List.set_set, List.drop_eq_getElem_cons hi]
    simp

/-- the part of C64 that holds: two different arrays are concatenated -/
theorem C64_partial {h : Heap} {d s n : Nat} {ys zs : List Nat} (hds : d ≠ s) (hd : h[d]? = some (.arr ys))
    (hs : h[s]? = some (.arr zs)) (hz : zs.length < 2 ^ 31) (hn : zs.length < n) :
    ∃ h', arrConcat n h d s = .ok (some h') ∧ h'[d]? = some (.arr (ys ++ zs)) ∧ h'.length = h.length ∧
      ∀ r, r ≠ d → h'[r]? = h[r]? := by
  refine ⟨h.set d (.arr (ys ++ zs)), ?_, set_same hd, by simp, fun r hr => set_other hr⟩
  simp only [arrConcat, hd, hs]
  exact concat_loop hds zs.length 0 n h ys (by omega) hz hn hd hs

example : ∃ h', arrConcat 9 [.arr [2], .arr [2, 2], .atom .null] 0 1 = .ok (some h') ∧ h'[0]? = some (.arr [2, 2, 2]) := by
  obtain ⟨h', h1, h2, -, -⟩ := C64_partial (h := [.arr [2], .arr [2, 2], .atom .null]) (d := 0) (s := 1) (n := 9)
    (by decide) rfl rfl (by decide) (by decide)
  exact ⟨h', h1, h2⟩

theorem mergeArr_concat (d s n : Nat) : ∀ i h, mergeArr d s n i h = concatLoop d s n i h := by
  induction n with
  | zero => intro i h; rfl
  | succ n ih => intro i h; simp only [mergeArr, concatLoop, ih]

/-- the part of C62 that holds: merging arrays into an array changes none of the sources, however many -/
theorem C62_partial {n : Nat} {P : Nat → Option (List Step)} {d : Nat} (hd : P d ≠ none)
    (srcs : List (Nat × List Val)) (hn : ∀ s ∈ srcs, s.2.length + 1 < n ∧ s.2.length < 2 ^ 31) :
    ∀ (h : Heap) (ys : List Nat), h[d]? = some (.arr ys) → (∀ s ∈ srcs, Reps h (un P) [] s.1 (.arr s.2)) →
    ∃ h', srcs.foldl (fun (r : Res (Option (Bool × Heap))) s => r.bind fun r => match r with
        | none => .ok none
        | some (_, h) => merge n h d s.1) (.ok (some (true, h))) = .ok (some (true, h')) ∧
      ∀ s ∈ srcs, Reps h' (un P) [] s.1 (.arr s.2) := by
  have main : ∀ (done todo : List (Nat × List Val)),
      (∀ s ∈ todo, s.2.length + 1 < n ∧ s.2.length < 2 ^ 31) → ∀ (h : Heap) (ys : List Nat), h[d]? = some (.arr ys) →
      (∀ s ∈ done ++ todo, Reps h (un P) [] s.1 (.arr s.2)) →
      ∃ h', todo.foldl (fun (r : Res (Option (Bool × Heap))) s => r.bind fun r => match r with
          | none => .ok none
          | some (_, h) => merge n h d s.1) (.ok (some (true, h))) = .ok (some (true, h')) ∧
        ∀ s ∈ done ++ todo, Reps h' (un P) [] s.1 (.arr s.2) := by
    intro done todo
    induction todo generalizing done with
    | nil => intro _ h ys _ hr; exact ⟨h, rfl, hr⟩
    | cons s todo ih =>
      intro hn h ys hy hr
      rw [List.forall_mem_cons] at hn
      have hs := hr s (by simp)
      cases hs with
      | @arr _ _ rs _ h1 h2 h3 h4 =>
        have hds : d ≠ s.1 := by intro e; subst e; exact hd h1
        have step : ∃ h', merge n h d s.1 = .ok (some (true, h')) ∧ (∃ zs, h'[d]? = some (.arr zs)) ∧
            ∀ r, r ≠ d → h'[r]? = h[r]? := by
          obtain ⟨n, rfl⟩ : ∃ m, n = m + 1 := ⟨n - 1, by omega⟩
          refine ⟨h.set d (.arr (ys ++ rs)), ?_, ⟨_, set_same hy⟩, fun r hr => set_other hr⟩
          simp only [merge, hy, h2]
          rw [mergeArr_concat, concat_loop hds rs.length 0 n h ys (by omega) (by omega) (by omega) hy h2]
          rfl
        obtain ⟨h', e, ⟨zs, hz⟩, hf⟩ := step
        obtain ⟨h'', e', hr'⟩ := ih (done ++ [s]) hn.2 h' zs hz (fun s' hs' => by
          refine (hr s' (by simpa using hs')).frame fun q c hc => hf c ?_
          intro e; subst e; exact hd hc)
        refine ⟨h'', ?_, by simpa using hr'⟩
        rw [List.foldl_cons, Res.bind_ok]
        simp only
        rw [e]; exact e'
  intro h ys hy hr
  exact main [] srcs hn h ys hy hr

example : ∃ h', merge 9 [.arr [], .arr [2], .atom .null] 0 1 = .ok (some (true, h')) ∧
    Reps h' (un fun i => if i = 0 then some [] else none) [] 1 (.arr [.atom .null]) := by
  obtain ⟨h', h1, h2⟩ := C62_partial (n := 9) (P := fun i => if i = 0 then some [] else none) (d := 0) (by simp)
    [(1, [.atom .null])] (by simp) [.arr [], .arr [2], .atom .null] [] rfl (by
      simp only [List.mem_cons, List.not_mem_nil, or_false, forall_eq]
      refine .arr (rs := [2]) (by simp [un]) rfl rfl fun i c x e1 e2 => ?_
      cases i with
      | zero => simp at e1 e2; subst e1 e2; exact .atom (by simp [un]) rfl
      | succ i => simp at e1)
  exact ⟨h', by simpa [Res.bind_ok] using h1, h2 (1, [.atom .null]) (by simp)⟩

/-! ## C65: `cee_json_object_append` -/

/-- **C65 is false**: appending to a key whose value is an object is undefined behaviour, and to one whose
value is a number, a truth value or null a segmentation fault. -/
theorem C65_append_false {h : Heap} {j v n old : Nat} {key : List Byte} {m : ObjMap} (hj : h[j]? = some (.obj m))
    (ho : Map.find strcmp m (some key) = some old) :
    (∀ m', h[old]? = some (.obj m') → objAppend n h j key v = .ub) ∧
    (∀ a, h[old]? = some (.atom a) → (∀ s, a ≠ .str s) → objAppend n h j key v = .segv) := by
  constructor
  · intro m' h1
    simp [objAppend, objGet, hj, ho, Res.bind_ok, h1, listify, Res.bind]
  · intro a h1 h2
    simp only [objAppend, objGet, hj, ho, Res.bind_ok, h1, listify]
    cases a <;> first | rfl | (next s => exact absurd rfl (h2 s))

example : ([.obj (oneKey [97] 1), .atom .null] : Heap)[0]? = some (.obj (oneKey [97] 1)) ∧
    Map.find strcmp (oneKey [97] 1) (some [97]) = some 1 := ⟨rfl, rfl⟩

/-- what is appended: the elements of an array, or the value -/
def elems (h : Heap) (v : Nat) : List Nat :=
  match h[v]? with
  | some (.arr xs) => xs
  | _ => [v]

theorem addTo_spec {h : Heap} {l v n : Nat} {xs : List Nat} (hl : h[l]? = some (.arr xs)) (hv : v < h.length)
    (hlv : l ≠ v) (hz : (elems h v).length < 2 ^ 31) (hn : (elems h v).length < n) :
    ∃ h', addTo n h l v = .ok (some h') ∧ h'[l]? = some (.arr (xs ++ elems h v)) ∧ h'.length = h.length ∧
      ∀ r, r ≠ l → h'[r]? = h[r]? := by
  unfold addTo elems at *
  rw [List.getElem?_eq_getElem hv] at *
  cases hx : h[v] with
  | atom a =>
    simp only [arrAppend, hl, Res.map_ok']
    exact ⟨_, rfl, set_same hl, by simp, fun r hr => set_other hr⟩
  | obj m =>
    simp only [arrAppend, hl, Res.map_ok']
    exact ⟨_, rfl, set_same hl, by simp, fun r hr => set_other hr⟩
  | arr zs =>
    rw [hx] at hz hn
    have e : h[v]? = some (.arr zs) := by rw [List.getElem?_eq_getElem hv, hx]
    exact C64_partial hlv hl e hz hn

/-- the part of C65 that holds.  Absent key: the value is set.  Array: extended in place, by the value or, if
that is an array, by its elements.  String: replaced by a new array of the string and what is added. -/
theorem C65_partial {h : Heap} {j v n : Nat} {key : List Byte} {m : ObjMap} {kvs : List (List Byte × Val)}
    (hj : h[j]? = some (.obj m)) (o : ObjRel m kvs) (hk : kvs.length < 2 ^ 31) (hv : v < h.length)
    (hz : (elems h v).length < 2 ^ 31) (hn : (elems h v).length < n) :
    (Map.find strcmp m (some key) = none →
      ∃ h' m', objAppend n h j key v = .ok (some h') ∧ h'[j]? = some (.obj m') ∧
        (∀ k, Map.find strcmp m' (some k) = if k = key then some v else Map.find strcmp m (some k)) ∧
        ∀ r, r ≠ j → h'[r]? = h[r]?) ∧
    (∀ old xs, Map.find strcmp m (some key) = some old → h[old]? = some (.arr xs) → old ≠ v →
      ∃ h', objAppend n h j key v = .ok (some h') ∧ h'[old]? = some (.arr (xs ++ elems h v)) ∧
        ∀ r, r ≠ old → h'[r]? = h[r]?) ∧
    (∀ old s, Map.find strcmp m (some key) = some old → h[old]? = some (.atom (.str s)) →
      ∃ h' m', objAppend n h j key v = .ok (some h') ∧ h'[j]? = some (.obj m') ∧
        (∀ k, Map.find strcmp m' (some k) = if k = key then some h.length else Map.find strcmp m (some k)) ∧
        h'[h.length]? = some (.arr (old :: elems h v)) ∧
        ∀ r, r ≠ j → r ≠ h.length → h'[r]? = h[r]?) := by
  have hjl : j < h.length := (List.getElem?_eq_some_iff.1 hj).1
  have set : ∀ (h : Heap) (w : Nat), h[j]? = some (.obj m) → w < h.length → ∃ m', objSet h j key w = .ok (h.set j (.obj m')) ∧
      ∀ k, Map.find strcmp m' (some k) = if k = key then some w else Map.find strcmp m (some k) := by
    intro h w hj hw
    obtain ⟨m', old, e, -, f⟩ := o.add hk key w none (.atom .null) (by simp)
    refine ⟨m', ?_, fun k => ?_⟩
    · simp only [objSet, hj, if_pos hw, Map.add, e, Res.map_ok']
    · rw [f]
      split
      · cases Map.find strcmp m (some key) <;> rfl
      · rfl
  refine ⟨fun ho => ?_, fun old xs ho hx hne => ?_, fun old s ho hx => ?_⟩
  · obtain ⟨m', e, f⟩ := set h v hj hv
    refine ⟨_, m', ?_, set_same hj, f, fun r hr => set_other hr⟩
    simp only [objAppend, objGet, hj, ho, Res.bind_ok, e, Res.map_ok']
  · obtain ⟨h', h1, h2, -, h3⟩ := addTo_spec hx hv hne hz hn
    refine ⟨h', ?_, h2, h3⟩
    simp only [objAppend, objGet, hj, ho, Res.bind_ok, hx, h1]
  · have he : elems (h ++ [.arr [old]]) v = elems h v := by
      rw [elems, elems, List.getElem?_append_left hv]
    obtain ⟨h', h1, h2, hl, h3⟩ := addTo_spec (h := h ++ [.arr [old]]) (l := h.length) (v := v) (n := n) (xs := [old])
      (by simp) (by simp; omega) (by omega) (by rw [he]; exact hz) (by rw [he]; exact hn)
    have hj' : h'[j]? = some (.obj m) := by
      rw [h3 j (by omega), List.getElem?_append_left hjl]; exact hj
    obtain ⟨m', e, f⟩ := set h' h.length hj' (by simp at hl; omega)
    refine ⟨_, m', ?_, set_same hj', f, ?_, fun r h4 h5 => ?_⟩
    · simp only [objAppend, objGet, hj, ho, Res.bind_ok, hx, listify, h1, e, Res.map_ok']
    · rw [set_other (by omega), h2, he]; rfl
    · rw [set_other h4, h3 r h5]
      by_cases hr : r < h.length
      · rw [List.getElem?_append_left hr]
      · rw [List.getElem?_eq_none (by simp; omega), List.getElem?_eq_none (by omega)]

example : ∃ h', objAppend 9 [.obj (oneKey [97] 1), .atom (.str [98]), .arr [1, 1]] 0 [97] 2 = .ok (some h') ∧
    h'[3]? = some (.arr [1, 1, 1]) := by
  obtain ⟨h', m', h1, -, -, h2, -⟩ := (C65_partial (h := [.obj (oneKey [97] 1), .atom (.str [98]), .arr [1, 1]])
    (j := 0) (v := 2) (n := 9) (key := [97]) rfl (oneKey_rel [97] 1 (.atom (.str [98]))).1 (by decide) (by decide)
    (by decide) (by decide)).2.2 1 [98] rfl rfl
  exact ⟨h', h1, h2⟩

end Verif.Json.Props
