import Verif.Own.WalkSteps

/-!
# Walks over maps and sets while memory changes (C119)

From any state a history of legal calls can reach (`Reach`), with an arbitrary allocator.
-/

namespace Verif.Own.WalkProps

open Verif.Chain (upd)
open Verif.Map.Spec (IsOrd)
open Props (Reach Step Legal Op Out exec counting counting_sound demoText byAddr byAddr_ord go goNew)

variable {al : Malloc} {text : Nat → Hash.Key} {s : St} {A : Abs}

/-! ## Lists of keys and values with additions and lookups -/

/-- the value of a key -/
def look (cmp : Nat → Nat → Int) (l : List (Nat × Nat)) (key : Nat) : Option Nat :=
  (l.find? fun x => cmp key x.1 = 0).map Prod.snd

theorem look_none {cmp : Nat → Nat → Int} {l : List (Nat × Nat)} {key : Nat} (h : ∀ x ∈ l, cmp key x.1 ≠ 0) : look cmp l key = none := by
  simp only [look, Option.map_eq_none_iff, List.find?_eq_none, decide_eq_true_eq]
  exact h

theorem cong {cmp : Nat → Nat → Int} (ho : IsOrd cmp) {a b c : Nat} (h : cmp a b = 0) : cmp a c = 0 ↔ cmp b c = 0 :=
  ⟨fun h' => Map.ord_congr0 ho h h', fun h' => Map.ord_congr0 ho (Map.ord_symm0 ho h) h'⟩

theorem look_put {cmp : Nat → Nat → Int} (ho : IsOrd cmp) (l : List (Nat × Nat)) (kv : Nat × Nat) (key : Nat) :
    look cmp (put cmp l kv) key = if cmp key kv.1 = 0 then some kv.2 else look cmp l key := by
  unfold put
  split
  · next hany =>
    by_cases h0 : cmp key kv.1 = 0
    · rw [if_pos h0]
      have hk : ∀ x : Nat, cmp kv.1 x = 0 ↔ cmp key x = 0 := fun x => (cong ho h0).symm
      clear ho
      induction l with
      | nil => simp at hany
      | cons x l ih =>
        by_cases hx : cmp key x.1 = 0
        · simp [look, hk, hx]
        · have : look cmp ((x :: l).map fun x => if cmp kv.1 x.1 = 0 then (x.1, kv.2) else x) key =
              look cmp (l.map fun x => if cmp kv.1 x.1 = 0 then (x.1, kv.2) else x) key := by
            simp [look, hk, hx]
          rw [this]
          apply ih
          simpa [hk, hx] using hany
    · rw [if_neg h0]
      have hk : ∀ x : Nat, cmp kv.1 x = 0 → cmp key x ≠ 0 := fun x hx h' =>
        h0 (Map.ord_symm0 ho (Map.ord_congr0 ho (Map.ord_symm0 ho hx) (Map.ord_symm0 ho h')))
      clear hany
      induction l with
      | nil => rfl
      | cons x l ih =>
        by_cases hx : cmp kv.1 x.1 = 0
        · have := hk _ hx
          simpa [look, hx, this] using ih
        · by_cases hy : cmp key x.1 = 0
          · simp [look, hx, hy]
          · simpa [look, hx, hy] using ih
  · next hany =>
    simp only [look, List.find?_append]
    by_cases h0 : cmp key kv.1 = 0
    · have : l.find? (fun x => cmp key x.1 = 0) = none := by
        simp only [Bool.not_eq_true, List.any_eq_false, decide_eq_true_eq] at hany
        simp only [List.find?_eq_none, decide_eq_true_eq]
        exact fun x hx h' => hany x hx ((cong ho h0).1 h')
      simp [this, h0]
    · simp [h0]

theorem look_foldl {cmp : Nat → Nat → Int} (ho : IsOrd cmp) (key : Nat) : ∀ (ts l : List (Nat × Nat)), ts.Pairwise (fun x y => cmp x.1 y.1 ≠ 0) →
    look cmp (ts.foldl (put cmp) l) key = (look cmp ts key).or (look cmp l key)
  | [], l, _ => by simp [look]
  | t :: ts, l, h => by
    obtain ⟨h1, h2⟩ := List.pairwise_cons.1 h
    rw [List.foldl_cons, look_foldl ho key ts _ h2, look_put ho]
    by_cases h0 : cmp key t.1 = 0
    · have : look cmp ts key = none := look_none fun x hx h' => h1 x hx ((cong ho h0).1 h')
      rw [if_pos h0, this]
      simp [look, h0]
    · rw [if_neg h0]
      simp [look, h0]

theorem foldl_put_new {cmp : Nat → Nat → Int} (ho : IsOrd cmp) : ∀ (ts l : List (Nat × Nat)), (l ++ ts).Pairwise (fun x y => cmp x.1 y.1 ≠ 0) →
    ts.foldl (put cmp) l = l ++ ts
  | [], l, _ => by simp
  | t :: ts, l, h => by
    have : put cmp l t = l ++ [t] := by
      have : l.any (fun x => cmp t.1 x.1 = 0) = false := by
        simp only [List.any_eq_false, decide_eq_true_eq]
        intro x hx h'
        exact (List.pairwise_append.1 h).2.2 x hx t (by simp) (Map.ord_symm0 ho h')
      simp [put, this]
    rw [List.foldl_cons, this, foldl_put_new ho ts _ (by simpa using h)]
    simp

theorem look_perm {cmp : Nat → Nat → Int} (ho : IsOrd cmp) {l l' : List (Nat × Nat)} (h : l.Pairwise (fun x y => cmp x.1 y.1 ≠ 0))
    (hp : l.Perm l') (key : Nat) : look cmp l key = look cmp l' key := by
  have aux : ∀ (l : List (Nat × Nat)), l.Pairwise (fun x y => cmp x.1 y.1 ≠ 0) → ∀ x ∈ l, cmp key x.1 = 0 → look cmp l key = some x.2 := by
    intro l
    induction l with
    | nil => simp
    | cons y l ih =>
      intro h x hx h0
      obtain ⟨h1, h2⟩ := List.pairwise_cons.1 h
      rcases List.mem_cons.1 hx with rfl | hx
      · simp [look, h0]
      · have : cmp key y.1 ≠ 0 := fun h' => h1 x hx ((cong ho h').1 h0)
        have := ih h2 x hx h0
        simpa [look, *] using this
  have h' : l'.Pairwise (fun x y => cmp x.1 y.1 ≠ 0) := hp.pairwise h (fun h h' => h (Map.ord_symm0 ho h'))
  by_cases he : ∃ x ∈ l, cmp key x.1 = 0
  · obtain ⟨x, hx, h0⟩ := he
    rw [aux l h x hx h0, aux l' h' x (hp.mem_iff.1 hx) h0]
  · push_neg at he
    rw [look_none he, look_none fun x hx => he x (hp.mem_iff.2 hx)]

theorem foldl_insert_new {cmp : Nat → Nat → Int} (ho : IsOrd cmp) : ∀ (ys xs : List Nat), ys.Pairwise (fun x y => cmp x y ≠ 0) →
    ys.foldl (Set.Spec.insert cmp) xs = xs ++ ys.filter fun y => !xs.any (fun x => cmp y x = 0)
  | [], xs, _ => by simp
  | y :: ys, xs, h => by
    obtain ⟨h1, h2⟩ := List.pairwise_cons.1 h
    rw [List.foldl_cons, foldl_insert_new ho ys _ h2]
    by_cases hm : ∃ x ∈ xs, cmp y x = 0
    · have : (Set.Spec.member cmp xs y).isSome = true := by
        simpa [Set.Spec.member, List.find?_isSome] using hm
      have h3 : xs.any (fun x => cmp y x = 0) = true := by simpa using hm
      simp only [Set.Spec.insert, this, if_true]
      rw [List.filter_cons_of_neg (by simp only [h3]; simp)]
    · push_neg at hm
      have h3 : xs.any (fun x => cmp y x = 0) = false := by simpa using hm
      rw [insert_new hm, List.filter_cons_of_pos (by simp only [h3]; simp)]
      rw [List.append_assoc, List.singleton_append]
      congr 2
      refine List.filter_congr fun z hz => ?_
      have : cmp z y ≠ 0 := fun h' => h1 z hz (Map.ord_symm0 ho h')
      simp [this]

section
variable {m k : Nat} {kp vp : Policy} {cmp : Nat → Nat → Int} {es : List Bind}

theorem ordOf (hal : al.Sound) (h : Reach al text s A) (hm : A m = some (.map kp vp cmp k es)) :
    IsOrd cmp ∧ es.length ≤ 2 ^ 31 ∧ (kvs es).Pairwise (fun x y => cmp x.1 y.1 ≠ 0) := by
  obtain ⟨L, G, I, K⟩ := h.inv hal
  obtain ⟨root, M⟩ := I.isMap' K hm
  exact ⟨M.ord, M.len, by simpa [kvs, List.pairwise_map] using M.uniq⟩

/-! ## Theorems -/

/-- `cee_map_keys`, then `cee_map_values`: two new lists with the keys and the values in one and the same order; nothing else has changed,
the map can still be used. -/
theorem C119_lists (hal : al.Sound) (h : Reach al text s A) (hm : A m = some (.map kp vp cmp k es)) (hlen : es.length < 2 ^ 31) {n : Nat}
    (hn : n < 2 ^ 60) :
    ∃ ts : List Bind, ts.Perm es ∧ ∃ s1 l s2 v, mapKeys al s m n = .ok (s1, l) ∧ mapValues al s1 m n = .ok (s2, v) ∧
      A l = none ∧ A v = none ∧ l ≠ v ∧ l ≠ 0 ∧ v ≠ 0 ∧
      Reach al text s2 (upd (upd A l (some (.list none (ts.map fun e => some e.key)))) v (some (.list none (ts.map fun e => some e.val)))) := by
  obtain ⟨t, ts, ho, ht, hi, hh, hp, hts⟩ := treeOf hal h hm
  obtain ⟨⟨s1, l, e1, l0, lA, r1, ht1, o1⟩, _⟩ := lists_ok hal h hm hlen hn ho ht hi hh hp hts
  have hml : m ≠ l := by rintro rfl; rw [hm] at lA; simp at lA
  obtain ⟨_, s2, v, e2, v0, vA, r2, _⟩ := lists_ok hal r1 (by rw [upd_ne _ _ hml]; exact hm) hlen hn (by rw [o1, ho]) ht1 hi hh hp hts
  have hvl : v ≠ l := by rintro rfl; rw [upd_same] at vA; simp at vA
  rw [upd_ne _ _ hvl] at vA
  exact ⟨ts, hp, s1, l, s2, v, e1, e2, lA, vA, hvl.symm, l0, v0, r2⟩

/-- `cee_map_insertion_ordered_keys`: a new list with the keys in the order in which they were added -/
theorem C119_ordered (hal : al.Sound) (h : Reach al text s A) (hm : A m = some (.map kp vp cmp k es)) (hlen : es.length < 2 ^ 31) :
    ∃ s' l, mapOrderedKeys al s m = .ok (s', l) ∧ l ≠ 0 ∧ A l = none ∧
      Reach al text s' (upd A l (some (.list none (es.map fun e => some e.key)))) := by
  obtain ⟨t, ts, ho, _⟩ := treeOf hal h hm
  obtain ⟨L, G, I, K⟩ := h.inv hal
  have hk : A k = some (.list (some m) ((es.map Bind.key).map some)) := by rw [(K.map hm).1, List.map_map]; rfl
  obtain ⟨a, cs, e1, e2, _⟩ := listOf_ok hal h hk
  obtain ⟨s1, l, e3, l0, lA, r1, _⟩ := h.listMk hal (cap := ((es.map Bind.key).map some).length) (by simp; omega)
  obtain ⟨s', e4, r4⟩ := copyList_ok hal (by simpa using hlen) hk lA (es.map Bind.key).length 0 s1 (by simp) (by simpa using r1)
  refine ⟨s', l, ?_, l0, lA, by simpa [List.map_map, Function.comp_def] using r4⟩
  simp only [List.length_map] at e1 e3 e4
  simp only [mapOrderedKeys, I.getObj hm, Res.bind_ok, ho, e1, e3, e4]

/-- `cee_map_merge`: the bindings of the source are added one after the other, in some order; or it ends in `cee_segfault`, and then some
allocation fails.  Nothing but the destination, its tuples and its list of keys changes. -/
theorem C119_merge (hal : al.Sound) (h : Reach al text s A) {src k' : Nat} {kp' vp' : Policy} {cmp' : Nat → Nat → Int} {fs : List Bind}
    (hm : A m = some (.map kp vp cmp k es)) (hs : A src = some (.map kp' vp' cmp' k' fs)) (hne : src ≠ m)
    (hlen : es.length + fs.length ≤ 2 ^ 31) :
    ∃ ts : List Bind, ts.Perm fs ∧
    ((∃ s' A' es', mapMerge al s m src = .ok s' ∧ Reach al text s' A' ∧ A' m = some (.map kp vp cmp k es') ∧
      kvs es' = (kvs ts).foldl (put cmp) (kvs es) ∧ Only A A' m k es es') ∨
     (mapMerge al s m src = .segv ∧ ∃ i, al.fails i = true)) := merge_reach hal h hm hs hne hlen

/-- With one comparison function: a key of the source has the value it has there, any other key the value it had.  The keys the destination
had keep their places, and come first. -/
theorem C119_merge_find (hal : al.Sound) (h : Reach al text s A) {src k' : Nat} {kp' vp' : Policy} {fs : List Bind}
    (hm : A m = some (.map kp vp cmp k es)) (hs : A src = some (.map kp' vp' cmp k' fs)) (hne : src ≠ m)
    (hlen : es.length + fs.length ≤ 2 ^ 31) :
    (∃ s' A' es', mapMerge al s m src = .ok s' ∧ Reach al text s' A' ∧ A' m = some (.map kp vp cmp k es') ∧ A' src = A src ∧
      (∀ key, (es'.find? fun e => cmp key e.key = 0).map Bind.val =
        ((fs.find? fun e => cmp key e.key = 0).map Bind.val).or ((es.find? fun e => cmp key e.key = 0).map Bind.val)) ∧
      (es.map Bind.key) <+: (es'.map Bind.key)) ∨
     (mapMerge al s m src = .segv ∧ ∃ i, al.fails i = true) := by
  obtain ⟨ho, _, hu⟩ := ordOf hal h hs
  obtain ⟨ts, hp, ⟨s', A', es', e, r, hm', hkv, hO⟩ | hF⟩ := merge_reach hal h hm hs hne hlen
  · left
    have hpk : (kvs ts).Perm (kvs fs) := hp.map _
    have hlk : ∀ (es : List Bind) (key : Nat), (es.find? fun e => cmp key e.key = 0).map Bind.val = look cmp (kvs es) key := by
      intro es key
      simp only [look, kvs, List.find?_map, Option.map_map]
      rfl
    obtain ⟨L, G, I, K⟩ := h.inv hal
    refine ⟨s', A', es', e, r, hm', hO.same src hne ?_ ?_ (by rw [hs]; simp), fun key => ?_, ?_⟩
    · rintro rfl
      have := (K.map hm).1
      rw [hs] at this; simp at this
    · intro hx
      obtain ⟨b, hb, rfl⟩ := List.mem_map.1 hx
      have := (K.map hm).2.1 b hb
      rw [hs] at this; simp at this
    · rw [hlk, hlk, hlk, hkv, look_foldl ho key _ _ (hpk.symm.pairwise hu (fun h h' => h (Map.ord_symm0 ho h'))),
        look_perm ho (hpk.symm.pairwise hu (fun h h' => h (Map.ord_symm0 ho h'))) hpk]
    · have hpre : ∀ ts l : List (Nat × Nat), l.map Prod.fst <+: (ts.foldl (put cmp) l).map Prod.fst := by
        intro ts
        induction ts with
        | nil => intro l; simp
        | cons x ts ih =>
          intro l
          refine List.IsPrefix.trans ?_ (ih (put cmp l x))
          unfold put
          split
          · rw [List.map_map]
            refine ⟨[], ?_⟩
            rw [List.append_nil]
            refine List.map_congr_left fun y _ => ?_
            simp only [Function.comp_apply]
            split <;> rfl
          · simp
      have hkey : ∀ es : List Bind, es.map Bind.key = (kvs es).map Prod.fst := by intro es; simp [kvs, Function.comp_def]
      rw [hkey, hkey, hkv]
      exact hpre _ _
  · exact .inr hF

/-- A map merged into itself: the walk comes by while nothing moves; all is as it was, and no allocation can spoil it. -/
theorem C119_self (hal : al.Sound) (h : Reach al text s A) (hm : A m = some (.map kp vp cmp k es)) (hlen : es.length < 2 ^ 31) :
    ∃ s', mapMerge al s m m = .ok s' ∧ Reach al text s' A := by
  obtain ⟨t, ts, ho, ht, hi, hh, hp, hts⟩ := treeOf hal h hm
  obtain ⟨L, G, I, K⟩ := h.inv hal
  obtain ⟨root, M⟩ := I.isMap' K hm
  have := walk_ok (st := id) (act := addKv al m) (F := False) (full := order t)
    (P := fun _ s' => Reach al text s' A ∧ TreeMem.Holds (nodes s'.mem) t)
    (fun done x rest s2 hfull hP => by
      obtain ⟨hr, hT⟩ := hP
      have hx : x ∈ es.map Bind.tup := by
        have : x ∈ order t := by rw [hfull]; simp
        rw [hts] at this
        exact (hp.map _).mem_iff.1 this
      obtain ⟨e, he, rfl⟩ := List.mem_map.1 hx
      obtain ⟨e1, e2, e3⟩ := pair_ok hal hr hm he
      have hbe : bindOf cmp es e.key = some e := bindOf_some M.ord M.uniq he (M.ord.refl _)
      obtain ⟨L2, G2, I2, K2⟩ := hr.inv hal
      left
      rcases mapAdd_ok hal I2 K2 hm hlen e2 e3 with ⟨e', s3, L3, G3, hb, e4, I3, hkept, hmem, _⟩ | ⟨hb, _⟩
      · rw [hbe, Option.some.injEq] at hb
        subst hb
        have r3 := hr.step (op := .mapAdd m e.key e.val) (s' := s3) ⟨_, _, _, _, _, hm, hlen, fun _ => e3⟩
          (by simp only [exec, e4, Res.bind_ok]) (.mapOld e2 hm hbe)
        have hA : (upd (upd A e.tup (some (.pair m e.key e.val)))
          m (some (.map kp vp cmp k (es.map fun e' => if cmp e.key e'.key = 0 then ⟨e'.key, e.val, e'.tup⟩ else e')))) = A := by
          have h1 : es.map (fun e' => if cmp e.key e'.key = 0 then ⟨e'.key, e.val, e'.tup⟩ else e') = es := by
            conv_rhs => rw [← List.map_id es]
            refine List.map_congr_left fun e' he' => ?_
            split
            · next h0 =>
              have := bindOf_some M.ord M.uniq he' h0
              rw [hbe, Option.some.injEq] at this
              subst this
              rfl
            · rfl
          rw [h1, ← M.tups e he, upd_self, ← hm, upd_self]
        rw [hA] at r3
        exact ⟨s3, by simp only [addKv, e1, Res.bind_ok, e4], r3, holds_of_nodes hT fun b n _ hn => by rw [hmem]; exact hn⟩
      · rw [hbe] at hb; simp at hb)
    t hi (fun done s2 hP => hP.2) 96 hh [] [] (by simp) s ⟨h, ht⟩
  rcases this with ⟨s', e, hr, _⟩ | ⟨_, hF⟩
  · exact ⟨s', by simp only [mapMerge, I.getObj hm, Res.bind_ok, ho, e], hr⟩
  · exact hF.elim

/-- `cee_map_clone`: a new map of the same kind with the same keys and values; what there was before has not changed, and nothing else is new
but the list of keys and the tuples. -/
theorem C119_clone (hal : al.Sound) (h : Reach al text s A) (hm : A m = some (.map kp vp cmp k es)) :
    (∃ s' A' r k' es', mapClone al s m = .ok (s', r) ∧ r ≠ 0 ∧ A r = none ∧ A k' = none ∧ Reach al text s' A' ∧
      A' r = some (.map kp vp cmp k' es') ∧ (kvs es').Perm (kvs es) ∧ (∀ q, A q ≠ none → A' q = A q) ∧
      ∀ q, A q = none → A' q ≠ none → q = r ∨ q = k' ∨ q ∈ es'.map Bind.tup) ∨
    (mapClone al s m = .segv ∧ ∃ i, al.fails i = true) := by
  obtain ⟨hord, hlen, hu⟩ := ordOf hal h hm
  obtain ⟨t, ts, ho, _⟩ := treeOf hal h hm
  obtain ⟨L, G, I, K⟩ := h.inv hal
  obtain ⟨s1, r, k', G1, e1, r0, ro, kA, rA, hkr, I1⟩ := mapMk_ok hal I kp vp hord
  have r1 : Reach al text s1 (upd (upd A k' (some (.list (some r) []))) r (some (.map kp vp cmp k' []))) :=
    h.step (op := .mapMk kp vp cmp) hord (by simp only [exec, e1, Res.bind_ok, ro]) (.mapMk r0 rA kA hkr)
  have hmr : m ≠ r := by rintro rfl; rw [hm] at rA; simp at rA
  have hmk : m ≠ k' := by rintro rfl; rw [hm] at kA; simp at kA
  obtain ⟨ts', hp, ⟨s', A', es', e, r', hm', hkv, hO⟩ | ⟨e, hF⟩⟩ := merge_reach hal r1 (upd_same ..)
    (by rw [upd_ne _ _ hmr, upd_ne _ _ hmk]; exact hm) hmr (by simpa using hlen)
  · refine .inl ⟨s', A', r, k', es', ?_, r0, rA, kA, r', hm', ?_, fun q hq => ?_, fun q h1 h2 => ?_⟩
    · simp only [mapClone, I.getObj hm, Res.bind_ok, ho, e1, e]
    · have hpk : (kvs ts').Perm (kvs es) := hp.map _
      rw [hkv, foldl_put_new hord _ _ (by
        simpa [kvs] using hpk.symm.pairwise hu (fun h h' => h (Map.ord_symm0 hord h')))]
      simpa [kvs] using hpk
    · have q1 : q ≠ r := by rintro rfl; exact hq rA
      have q2 : q ≠ k' := by rintro rfl; exact hq kA
      have := hO.same q q1 q2 (by simp) (by rw [upd_ne _ _ q1, upd_ne _ _ q2]; exact hq)
      rw [this, upd_ne _ _ q1, upd_ne _ _ q2]
    · by_cases q1 : q = r
      · exact .inl q1
      · by_cases q2 : q = k'
        · exact .inr (.inl q2)
        · exact .inr (.inr (hO.new q (by rw [upd_ne _ _ q1, upd_ne _ _ q2]; exact h1) h2))
  · exact .inr ⟨by simp only [mapClone, I.getObj hm, Res.bind_ok, ho, e1, e, Res.bind], hF⟩

end

section
variable {p : Nat} {pol : Policy} {cmp : Nat → Nat → Int} {xs : List Nat}

/-- `cee_set_values`: a new list with the members -/
theorem C119_values (hal : al.Sound) (h : Reach al text s A) (hp : A p = some (.set pol cmp xs)) (hlen : xs.length < 2 ^ 31) {n : Nat}
    (hn : n < 2 ^ 60) :
    ∃ s' l, ∃ ys : List Nat, setValues al s p n = .ok (s', l) ∧ l ≠ 0 ∧ A l = none ∧ ys.Perm xs ∧
      Reach al text s' (upd A l (some (.list none (ys.map some)))) := setValues_reach hal h hp hlen hn

/-- `cee_set_clone`: a new set of the same kind with the same members -/
theorem C119_set_clone (hal : al.Sound) (h : Reach al text s A) (hp : A p = some (.set pol cmp xs)) :
    (∃ s' r ys, setClone al s p = .ok (s', r) ∧ r ≠ 0 ∧ A r = none ∧ ys.Perm xs ∧ Reach al text s' (upd A r (some (.set pol cmp ys)))) ∨
    (setClone al s p = .segv ∧ ∃ i, al.fails i = true) := setClone_reach hal h hp

/-- `cee_set_union_set`: the only thing new is a set with the members of the first set and those of the second that equal none of them; the two
lists made on the way are gone, and their elements were given to `cee_del_e`. -/
theorem C119_union (hal : al.Sound) (h : Reach al text s A) {p2 : Nat} {pol2 : Policy} {xs2 : List Nat}
    (hp : A p = some (.set pol cmp xs)) (hp2 : A p2 = some (.set pol2 cmp xs2))
    (hlen : xs.length + xs2.length < 2 ^ 31) {fuel : Nat} (hfu : xs.length < fuel ∧ xs2.length < fuel) {n1 n2 : Nat}
    (hn1 : n1 < 2 ^ 60) (hn2 : n2 < 2 ^ 60) :
    (∃ s' r ds, ∃ zs : List Nat, setUnion al fuel s true p p2 n1 n2 = .ok (s', r, ds) ∧ r ≠ 0 ∧ A r = none ∧
      zs.Perm (xs ++ xs2.filter fun y => !xs.any (fun x => cmp y x = 0)) ∧ ds.Perm ((xs ++ xs2).map some) ∧
      Reach al text s' (upd A r (some (.set .rc cmp zs)))) ∨
    (setUnion al fuel s true p p2 n1 n2 = .segv ∧ ∃ i, al.fails i = true) := by
  obtain ⟨_, _, _, _, _, _, ho, hu, _⟩ := setTree hal h hp
  obtain ⟨_, _, _, _, _, _, _, hu2, _⟩ := setTree hal h hp2
  rcases setUnion_reach hal h hp hp2 hlen hfu hn1 hn2 with ⟨s', r, ds, ys1, ys2, e, r0, rA, q1, q2, hds, hr⟩ | hF
  · refine .inl ⟨s', r, ds, _, e, r0, rA, ?_, ?_, hr⟩
    · rw [List.foldl_append, foldl_insert_new ho ys1 [] (q1.symm.pairwise hu (fun h h' => h (Map.ord_symm0 ho h'))),
        foldl_insert_new ho ys2 _ (q2.symm.pairwise hu2 (fun h h' => h (Map.ord_symm0 ho h')))]
      simp only [List.any_nil, Bool.not_false, List.filter_true, List.nil_append]
      refine q1.append ?_
      have : ∀ y, ys1.any (fun x => cmp y x = 0) = xs.any (fun x => cmp y x = 0) := fun y => by
        rw [Bool.eq_iff_iff]
        simp only [List.any_eq_true, decide_eq_true_eq]
        exact ⟨fun ⟨x, hx, h'⟩ => ⟨x, q1.mem_iff.1 hx, h'⟩, fun ⟨x, hx, h'⟩ => ⟨x, q1.mem_iff.2 hx, h'⟩⟩
      simp only [this]
      exact q2.filter _
    · rw [hds]
      exact (q1.append q2).map _
  · exact .inr hF

end

/-! ## The hypotheses are met -/

/-- A reachable state, without failing allocations, with two maps that have a key in common and two sets that have a member in common. -/
theorem demo : (counting fun _ => false).Sound ∧ (∀ i, (counting fun _ => false).fails i = false) ∧
    ∃ s A t u v, Reach (counting fun _ => false) demoText s A ∧
    A 3 = some (.map .rc .rc byAddr 1 [⟨71, 81, t⟩, ⟨70, 80, u⟩]) ∧ A 6 = some (.map .noop .rc byAddr 4 [⟨70, 90, v⟩]) ∧
    A 7 = some (.set .rc byAddr [60, 50]) ∧ A 8 = some (.set .noop byAddr [40, 60]) := by
  have hs := counting_sound fun _ => false
  have hf : ∀ i, (counting fun _ => false).fails i = false := fun _ => rfl
  have r1 := Reach.step (al := counting fun _ => false) (text := demoText) (op := .mapMk .rc .rc byAddr) (out := .newMap 3 1) .mk
    byAddr_ord rfl (.mapMk (by simp) rfl rfl (by simp))
  have r2 := r1.step (op := .mapMk .noop .rc byAddr) (out := .newMap 6 4) byAddr_ord rfl
    (.mapMk (by simp) rfl rfl (by simp))
  have r3 := r2.step (op := .setMk .rc byAddr) (out := .new 7) byAddr_ord rfl (.setMk (by simp) rfl)
  have r4 := r3.step (op := .setMk .noop byAddr) (out := .new 8) byAddr_ord rfl (.setMk (by simp) rfl)
  obtain ⟨_, r5⟩ := go (op := .setAdd 7 60) hs hf r4 ⟨_, _, _, rfl, by simp, by simp⟩ (by simp) (.setAdd rfl) (by rintro _ _ ⟨⟩; rfl)
  obtain ⟨_, r6⟩ := go (op := .setAdd 7 50) hs hf r5 ⟨_, _, _, rfl, by decide, by simp⟩ (by simp) (.setAdd rfl) (by rintro _ _ ⟨⟩; rfl)
  obtain ⟨_, r7⟩ := go (op := .setAdd 8 40) hs hf r6 ⟨_, _, _, rfl, by simp, by simp⟩ (by simp) (.setAdd rfl) (by rintro _ _ ⟨⟩; rfl)
  obtain ⟨_, r8⟩ := go (op := .setAdd 8 60) hs hf r7 ⟨_, _, _, rfl, by decide, by simp⟩ (by simp) (.setAdd rfl) (by rintro _ _ ⟨⟩; rfl)
  obtain ⟨_, t, t0, tA, r9⟩ := goNew (m := 3) (key := 71) (value := 81) hs hf r8 rfl (by simp) (by simp) (by simp) (by simp)
  have t1 : t ≠ 1 := by rintro rfl; simp [upd] at tA
  have t3 : t ≠ 3 := by rintro rfl; simp [upd] at tA
  have t4 : t ≠ 4 := by rintro rfl; simp [upd] at tA
  have t6 : t ≠ 6 := by rintro rfl; simp [upd] at tA
  have t7 : t ≠ 7 := by rintro rfl; simp [upd] at tA
  have t8 : t ≠ 8 := by rintro rfl; simp [upd] at tA
  obtain ⟨_, u, u0, uA, r10⟩ := goNew (m := 3) (key := 70) (value := 80) (k := 1) (kp := .rc) (vp := .rc) (cmp := byAddr)
    (es := [⟨71, 81, t⟩]) hs hf r9 (by simp [withNew, upd]) (by simp) (by simp) (by simp) (by simp [byAddr])
  have u1 : u ≠ 1 := by rintro rfl; simp [withNew, upd] at uA
  have u3 : u ≠ 3 := by rintro rfl; simp [withNew, upd] at uA
  have u4 : u ≠ 4 := by rintro rfl; simp [withNew, upd, t4.symm] at uA
  have u6 : u ≠ 6 := by rintro rfl; simp [withNew, upd, t6.symm] at uA
  have u7 : u ≠ 7 := by rintro rfl; simp [withNew, upd, t7.symm] at uA
  have u8 : u ≠ 8 := by rintro rfl; simp [withNew, upd, t8.symm] at uA
  obtain ⟨_, v, v0, vA, r11⟩ := goNew (m := 6) (key := 70) (value := 90) (k := 4) (kp := .noop) (vp := .rc) (cmp := byAddr) (es := [])
    hs hf r10 (by simp [withNew, upd, t6.symm, u6.symm]) (by simp) (by simp) (by simp) (by simp)
  have v3 : v ≠ 3 := by rintro rfl; simp [withNew, upd, u3.symm] at vA
  have v7 : v ≠ 7 := by rintro rfl; simp [withNew, upd, t7.symm, u7.symm] at vA
  have v8 : v ≠ 8 := by rintro rfl; simp [withNew, upd, t8.symm, u8.symm] at vA
  refine ⟨hs, hf, _, _, t, u, v, r11, ?_, ?_, ?_, ?_⟩
  · simp [withNew, upd, v3.symm]
  · simp [withNew, upd]
  · simp [withNew, upd, v7.symm, u7.symm, t7.symm, Set.Spec.insert, Set.Spec.member, byAddr]
  · simp [withNew, upd, v8.symm, u8.symm, t8.symm, Set.Spec.insert, Set.Spec.member, byAddr]

/-- From that state the second map is merged into the first: key 70 has its new value, key 71 the old one. -/
example : ∃ s s' A A' es', Reach (counting fun _ => false) demoText s A ∧ mapMerge (counting fun _ => false) s 3 6 = .ok s' ∧
    Reach (counting fun _ => false) demoText s' A' ∧ A' 3 = some (.map .rc .rc byAddr 1 es') ∧ kvs es' = [(71, 81), (70, 90)] := by
  obtain ⟨hs, hf, s, A, t, u, v, h, h3, h6, _, _⟩ := demo
  obtain ⟨ts, hp, ⟨s', A', es', e, r, hm, hk, _⟩ | ⟨_, i, hi⟩⟩ := C119_merge hs h h3 h6 (by simp) (by simp)
  · refine ⟨s, s', A, A', es', h, e, r, hm, ?_⟩
    rw [List.perm_singleton] at hp
    rw [hk, hp]
    simp [kvs, put, byAddr]
  · rw [hf] at hi; simp at hi

/-- The first map is cloned, its keys listed, and the map merged into itself. -/
example : ∃ s A, Reach (counting fun _ => false) demoText s A ∧
    (∃ s' A' r k' es', mapClone (counting fun _ => false) s 3 = .ok (s', r) ∧ Reach (counting fun _ => false) demoText s' A' ∧
      A' r = some (.map .rc .rc byAddr k' es') ∧ (kvs es').Perm [(71, 81), (70, 80)] ∧ A' 3 = A 3) ∧
    (∃ s' l, mapOrderedKeys (counting fun _ => false) s 3 = .ok (s', l) ∧
      Reach (counting fun _ => false) demoText s' (upd A l (some (.list none [some 71, some 70])))) ∧
    ∃ s', mapMerge (counting fun _ => false) s 3 3 = .ok s' ∧ Reach (counting fun _ => false) demoText s' A := by
  obtain ⟨hs, hf, s, A, t, u, v, h, h3, h6, _, _⟩ := demo
  refine ⟨s, A, h, ?_, ?_, C119_self hs h h3 (by simp)⟩
  · rcases C119_clone hs h h3 with ⟨s', A', r, k', es', e, _, _, _, hr, hm, hk, hq, _⟩ | ⟨_, i, hi⟩
    · exact ⟨s', A', r, k', es', e, hr, hm, by simpa [kvs] using hk, hq 3 (by rw [h3]; simp)⟩
    · rw [hf] at hi; simp at hi
  · obtain ⟨s', l, e, _, _, hr⟩ := C119_ordered hs h h3 (by simp)
    exact ⟨s', l, e, by simpa using hr⟩

/-- The union of the two sets has three members; two lists with four elements are made and deleted. -/
example : ∃ s A s' r ds zs, Reach (counting fun _ => false) demoText s A ∧
    setUnion (counting fun _ => false) 3 s true 7 8 2 2 = .ok (s', r, ds) ∧ zs.Perm [60, 50, 40] ∧ ds.length = 4 ∧
    Reach (counting fun _ => false) demoText s' (upd A r (some (.set .rc byAddr zs))) := by
  obtain ⟨hs, hf, s, A, t, u, v, h, _, _, h7, h8⟩ := demo
  rcases C119_union hs h h7 h8 (by simp) (fuel := 3) (by simp) (n1 := 2) (n2 := 2) (by simp) (by simp) with
    ⟨s', r, ds, zs, e, _, _, hz, hd, hr⟩ | ⟨_, i, hi⟩
  · exact ⟨s, A, s', r, ds, zs, h, e, by simpa [byAddr] using hz, by simpa using hd.length_eq, hr⟩
  · rw [hf] at hi; simp at hi

/-- `C119_lists`, `C119_values` and `C119_set_clone` from that state -/
example : ∃ s A, Reach (counting fun _ => false) demoText s A ∧ (∃ s1 l s2 v, mapKeys (counting fun _ => false) s 3 2 = .ok (s1, l) ∧
      mapValues (counting fun _ => false) s1 3 2 = .ok (s2, v)) ∧
    (∃ s' l, setValues (counting fun _ => false) s 7 2 = .ok (s', l)) ∧
    ∃ s' r ys, setClone (counting fun _ => false) s 8 = .ok (s', r) ∧ ys.Perm [40, 60] ∧
      Reach (counting fun _ => false) demoText s' (upd A r (some (.set .noop byAddr ys))) := by
  obtain ⟨hs, hf, s, A, t, u, v, h, h3, _, h7, h8⟩ := demo
  refine ⟨s, A, h, ?_, ?_, ?_⟩
  · obtain ⟨_, _, s1, l, s2, v, e1, e2, _⟩ := C119_lists hs h h3 (by simp) (n := 2) (by simp)
    exact ⟨s1, l, s2, v, e1, e2⟩
  · obtain ⟨s', l, _, e, _⟩ := C119_values hs h h7 (by simp) (n := 2) (by simp)
    exact ⟨s', l, e⟩
  · rcases C119_set_clone hs h h8 with ⟨s', r, ys, e, _, _, hp, hr⟩ | ⟨_, i, hi⟩
    · exact ⟨s', r, ys, e, hp, hr⟩
    · rw [hf] at hi; simp at hi

end Verif.Own.WalkProps
