import Verif.Own.MapOps

/-! # What belongs to dictionaries and maps stays theirs -/

namespace Verif.Own

open Verif.Chain (upd)

variable {A : Abs} {d m k v : Nat} {pol kp vp : Policy} {adds : List (Nat × Nat)} {cmp : Nat → Nat → Int} {es : List Bind}

/-- a block that belongs to no other, and gets nothing that belongs to it -/
theorem Links.mono (K : Links A) {p : Nat} {x : Option SObj} (hp : ∀ y o, A p = some y → ownerOf y ≠ some o)
    (hx : ∀ y, x = some y → deps p y = []) : Links (upd A p x) := by
  refine K.of [p] (fun q hq => upd_ne _ _ (by simpa using hq)) ?_ ?_
  · intro q hq y o h1 h2
    simp only [List.mem_singleton] at hq
    subst hq
    exact absurd h2 (hp y o h1)
  · intro q hq y h
    simp only [List.mem_singleton] at hq
    subst hq
    rw [upd_same] at h
    simp [hx y h]

theorem Links.dictMk (K : Links A) (hd : A d = none) (hk : A k = none) (hv : A v = none)
    (hkv : k ≠ v) (hkd : k ≠ d) (hvd : v ≠ d) : Links (withDict A pol d k v) := by
  refine K.of [d, k, v] (fun q hq => ?_) ?_ ?_
  · simp only [List.mem_cons, List.not_mem_nil, or_false, not_or] at hq
    simp [withDict, upd, hq]
  · intro q hq y o h
    simp only [List.mem_cons, List.not_mem_nil, or_false] at hq
    rcases hq with rfl | rfl | rfl <;> simp_all
  · intro q hq y h
    simp only [List.mem_cons, List.not_mem_nil, or_false] at hq
    rcases hq with rfl | rfl | rfl
    · simp only [withDict, upd_same, Option.some.injEq] at h
      subst h
      refine ⟨by simp [deps, hkv], ?_⟩
      simp [deps, withDict, upd, hkd, hkv, hvd]
    · simp only [withDict, upd_ne _ _ hkd, upd_ne _ _ hkv, upd_same, Option.some.injEq] at h
      subst h
      simp [deps]
    · simp only [withDict, upd_ne _ _ hvd, upd_same, Option.some.injEq] at h
      subst h
      simp [deps]

/-- the owners of what belongs to a dictionary are in it -/
theorem Links.ownDict (K : Links A) (hd : A d = some (.dict pol k v adds)) {q : Nat} (hq : q ∈ [d, k, v]) {y : SObj} {o : Nat}
    (h : A q = some y) (ho : ownerOf y = some o) : o ∈ [d, k, v] := by
  obtain ⟨hkl, hvl, hkv⟩ := K.dict hd
  simp only [List.mem_cons, List.not_mem_nil, or_false] at hq
  rcases hq with rfl | rfl | rfl
  · rw [hd] at h; cases h; simp [ownerOf] at ho
  · rw [hkl] at h; cases h; simp only [ownerOf, Option.some.injEq] at ho; simp [ho]
  · rw [hvl] at h; cases h; simp only [ownerOf, Option.some.injEq] at ho; simp [ho]

theorem Links.add (K : Links A) (hd : A d = some (.dict pol k v adds)) (key value : Nat) :
    Links (withAdd A pol d k v adds key value) := by
  obtain ⟨hkl, hvl, hkv⟩ := K.dict hd
  have hdk : k ≠ d := by rintro rfl; rw [hd] at hkl; simp at hkl
  have hdv : v ≠ d := by rintro rfl; rw [hd] at hvl; simp at hvl
  refine K.of [d, k, v] (fun q hq => ?_) (fun q hq y o => K.ownDict hd hq) ?_
  · simp only [List.mem_cons, List.not_mem_nil, or_false, not_or] at hq
    simp [withAdd, upd, hq]
  · intro q hq y h
    simp only [List.mem_cons, List.not_mem_nil, or_false] at hq
    rcases hq with rfl | rfl | rfl
    · simp only [withAdd, upd_ne _ _ hdv.symm, upd_ne _ _ hdk.symm, upd_same, Option.some.injEq] at h
      subst h
      refine ⟨by simp [deps, hkv], ?_⟩
      simp [deps, withAdd, upd, hkv]
    · simp only [withAdd, upd_ne _ _ hkv, upd_same, Option.some.injEq] at h
      subst h
      simp [deps]
    · simp only [withAdd, upd_same, Option.some.injEq] at h
      subst h
      simp [deps]

theorem Links.del (K : Links A) (hd : A d = some (.dict pol k v adds)) {x y : Option SObj} (hx : ∀ z, x = some z → deps k z = [])
    (hy : ∀ z, y = some z → deps v z = []) : Links (upd (upd (upd A k x) v y) d none) := by
  obtain ⟨hkl, hvl, hkv⟩ := K.dict hd
  have hdk : k ≠ d := by rintro rfl; rw [hd] at hkl; simp at hkl
  have hdv : v ≠ d := by rintro rfl; rw [hd] at hvl; simp at hvl
  refine K.of [d, k, v] (fun q hq => ?_) (fun q hq y o => K.ownDict hd hq) ?_
  · simp only [List.mem_cons, List.not_mem_nil, or_false, not_or] at hq
    simp [upd, hq]
  · intro q hq z h
    simp only [List.mem_cons, List.not_mem_nil, or_false] at hq
    rcases hq with rfl | rfl | rfl
    · simp [upd] at h
    · rw [upd_ne _ _ hdk, upd_ne _ _ hkv, upd_same] at h
      simp [hx z h]
    · rw [upd_ne _ _ hdv, upd_same] at h
      simp [hy z h]

theorem Links.mapMk (K : Links A) (hm : A m = none) (hk : A k = none) (hkm : k ≠ m) :
    Links (upd (upd A k (some (.list (some m) []))) m (some (.map kp vp cmp k []))) := by
  refine K.of [m, k] (fun q hq => ?_) ?_ ?_
  · simp only [List.mem_cons, List.not_mem_nil, or_false, not_or] at hq
    simp [upd, hq]
  · intro q hq y o h
    simp only [List.mem_cons, List.not_mem_nil, or_false] at hq
    rcases hq with rfl | rfl <;> simp_all
  · intro q hq y h
    simp only [List.mem_cons, List.not_mem_nil, or_false] at hq
    rcases hq with rfl | rfl
    · simp only [upd_same, Option.some.injEq] at h
      subst h
      simp [deps, upd, hkm]
    · simp only [upd_ne _ _ hkm, upd_same, Option.some.injEq] at h
      subst h
      simp [deps]

/-- the addresses of a map -/
theorem Links.mapNe (K : Links A) (hm : A m = some (.map kp vp cmp k es)) :
    k ≠ m ∧ ∀ e ∈ es, e.tup ≠ m ∧ e.tup ≠ k := by
  obtain ⟨h1, h2, h3⟩ := K.map hm
  refine ⟨?_, fun e he => ⟨?_, ?_⟩⟩
  · intro h; rw [h, hm] at h1; simp at h1
  · intro h; have := h2 e he; rw [h, hm] at this; simp at this
  · intro h; have := h2 e he; rw [h, h1] at this; simp at this

/-- the owners of what belongs to a map are in it -/
theorem Links.ownMap (K : Links A) (hm : A m = some (.map kp vp cmp k es)) {q : Nat} (hq : q = m ∨ q = k ∨ q ∈ es.map Bind.tup)
    {y : SObj} {o : Nat} (h : A q = some y) (ho : ownerOf y = some o) : o = m := by
  obtain ⟨h1, h2, h3⟩ := K.map hm
  rcases hq with rfl | rfl | hq
  · rw [hm] at h; cases h; simp [ownerOf] at ho
  · rw [h1] at h; cases h; simpa [ownerOf] using ho.symm
  · obtain ⟨e, he, rfl⟩ := List.mem_map.1 hq
    rw [h2 e he] at h; cases h; simpa [ownerOf] using ho.symm

theorem deps_map_fst : ((deps m (.map kp vp cmp k es)).map Prod.fst) = k :: es.map Bind.tup := by
  simp [deps, Function.comp_def]

theorem Links.old (K : Links A) (hm : A m = some (.map kp vp cmp k es)) {key value : Nat} {e : Bind} (he : e ∈ es)
    (hq : cmp key e.key = 0) (hu : ∀ e' ∈ es, cmp key e'.key = 0 → e' = e) : Links (withOld A m kp vp cmp k es e key value) := by
  obtain ⟨h1, h2, h3⟩ := K.map hm
  obtain ⟨hkm, hne⟩ := K.mapNe hm
  have hem := (hne e he).1
  refine K.of [m, e.tup] (fun q hq => ?_) ?_ ?_
  · simp only [List.mem_cons, List.not_mem_nil, or_false, not_or] at hq
    simp [withOld, upd, hq]
  · intro q hq y o h ho
    simp only [List.mem_cons, List.not_mem_nil, or_false] at hq ⊢
    left
    refine K.ownMap hm ?_ h ho
    rcases hq with h | h
    · exact .inl h
    · exact .inr (.inr (List.mem_map.2 ⟨e, he, h.symm⟩))
  · intro q hq' y h
    simp only [List.mem_cons, List.not_mem_nil, or_false] at hq'
    rcases hq' with rfl | rfl
    · simp only [withOld, upd_same, Option.some.injEq] at h
      subst h
      refine ⟨?_, ?_⟩
      · rw [deps_map_fst, setVal_tup, ← deps_map_fst (m := q) (kp := kp) (vp := vp) (cmp := cmp)]
        exact (K q _ hm).1
      · intro dd hdd
        simp only [deps, List.mem_cons, List.mem_map] at hdd
        rcases hdd with rfl | ⟨e', he', rfl⟩
        · simp only [withOld]
          rw [upd_ne _ _ hkm, upd_ne _ _ (hne e he).2.symm, setVal_key]
          exact h1
        · simp only [setVal, List.mem_map] at he'
          obtain ⟨b, hb, rfl⟩ := he'
          by_cases hc : cmp key b.key = 0
          · obtain rfl := hu b hb hc
            simp only [hc, if_true, withOld]
            rw [upd_ne _ _ hem, upd_same]
          · have hbe : b.tup ≠ e.tup := by
              intro h
              have h4 := find_tup h3 hb
              have h5 := find_tup h3 he
              rw [h] at h4
              rw [h4] at h5
              simp only [Option.some.injEq] at h5
              exact hc (h5 ▸ hq)
            simp only [hc, if_false, withOld]
            rw [upd_ne _ _ (hne b hb).1, upd_ne _ _ hbe]
            exact h2 b hb
    · simp only [withOld] at h
      rw [upd_ne _ _ hem, upd_same, Option.some.injEq] at h
      subst h
      simp [deps]

theorem Links.new (K : Links A) (hm : A m = some (.map kp vp cmp k es)) {key value t : Nat} (ht : A t = none) :
    Links (withNew A m kp vp cmp k es t key value) := by
  obtain ⟨h1, h2, h3⟩ := K.map hm
  obtain ⟨hkm, hne⟩ := K.mapNe hm
  have hmt : m ≠ t := by rintro rfl; rw [hm] at ht; simp at ht
  have hkt : k ≠ t := by rintro rfl; rw [h1] at ht; simp at ht
  have het : ∀ e ∈ es, e.tup ≠ t := by rintro e he rfl; rw [h2 e he] at ht; simp at ht
  refine K.of [m, k, t] (fun q hq => ?_) ?_ ?_
  · simp only [List.mem_cons, List.not_mem_nil, or_false, not_or] at hq
    simp [withNew, upd, hq]
  · intro q hq y o h ho
    simp only [List.mem_cons, List.not_mem_nil, or_false] at hq ⊢
    left
    rcases hq with hq | hq | hq
    · exact K.ownMap hm (.inl hq) h ho
    · exact K.ownMap hm (.inr (.inl hq)) h ho
    · rw [hq, ht] at h; simp at h
  · intro q hq' y h
    simp only [List.mem_cons, List.not_mem_nil, or_false] at hq'
    rcases hq' with rfl | rfl | rfl
    · simp only [withNew] at h
      rw [upd_ne _ _ hkm.symm, upd_same, Option.some.injEq] at h
      subst h
      refine ⟨?_, ?_⟩
      · have hn := (K q _ hm).1
        rw [deps_map_fst] at hn ⊢
        rw [List.map_append, ← List.cons_append, List.nodup_append]
        refine ⟨hn, by simp, ?_⟩
        intro a ha b hb
        simp only [List.map_cons, List.map_nil, List.mem_singleton] at hb
        rw [hb]
        rcases List.mem_cons.1 ha with rfl | ha
        · exact hkt
        · obtain ⟨e, he, rfl⟩ := List.mem_map.1 ha
          exact het e he
      · intro dd hdd
        simp only [deps, List.mem_cons, List.mem_map, List.mem_append, List.not_mem_nil, or_false] at hdd
        rcases hdd with rfl | ⟨e', he' | rfl, rfl⟩
        · simp [withNew, upd_same]
        · simp only [withNew]
          rw [upd_ne _ _ (hne e' he').2, upd_ne _ _ (hne e' he').1, upd_ne _ _ (het e' he')]
          exact h2 e' he'
        · simp only [withNew]
          rw [upd_ne _ _ hkt.symm, upd_ne _ _ hmt.symm, upd_same]
    · simp only [withNew, upd_same, Option.some.injEq] at h
      subst h
      simp [deps]
    · simp only [withNew] at h
      rw [upd_ne _ _ hkt.symm, upd_ne _ _ hmt.symm, upd_same, Option.some.injEq] at h
      subst h
      simp [deps]

theorem Links.dropKey (K : Links A) (hm : A m = some (.map kp vp cmp k es)) {key : Nat} {e : Bind} (he : e ∈ es)
    (hq : cmp key e.key = 0) : Links (withoutKey A m kp vp cmp k es e key) := by
  obtain ⟨h1, h2, h3⟩ := K.map hm
  obtain ⟨hkm, hne⟩ := K.mapNe hm
  have hem := (hne e he).1
  have hsub : (Own.dropKey cmp es key).Sublist es := List.filter_sublist
  refine K.of [m, k, e.tup] (fun q hq => ?_) ?_ ?_
  · simp only [List.mem_cons, List.not_mem_nil, or_false, not_or] at hq
    simp [withoutKey, upd, hq]
  · intro q hq y o h ho
    simp only [List.mem_cons, List.not_mem_nil, or_false] at hq ⊢
    left
    refine K.ownMap hm ?_ h ho
    rcases hq with h | h | h
    · exact .inl h
    · exact .inr (.inl h)
    · exact .inr (.inr (List.mem_map.2 ⟨e, he, h.symm⟩))
  · intro q hq' y h
    simp only [List.mem_cons, List.not_mem_nil, or_false] at hq'
    rcases hq' with rfl | rfl | rfl
    · simp only [withoutKey] at h
      rw [upd_ne _ _ hkm.symm, upd_ne _ _ hem.symm, upd_same, Option.some.injEq] at h
      subst h
      refine ⟨?_, ?_⟩
      · have hn := (K q _ hm).1
        rw [deps_map_fst] at hn ⊢
        exact ((hsub.map _).cons_cons _).nodup hn
      · intro dd hdd
        simp only [deps, List.mem_cons, List.mem_map] at hdd
        rcases hdd with rfl | ⟨b, hb, rfl⟩
        · simp [withoutKey, upd_same]
        · have hb' := hsub.subset hb
          have hc : cmp key b.key ≠ 0 := by simpa using (List.mem_filter.1 hb).2
          have hbe : b.tup ≠ e.tup := by
            intro h
            have h4 := find_tup h3 hb'
            have h5 := find_tup h3 he
            rw [h] at h4
            rw [h4] at h5
            simp only [Option.some.injEq] at h5
            exact hc (h5 ▸ hq)
          simp only [withoutKey]
          rw [upd_ne _ _ (hne b hb').2, upd_ne _ _ hbe, upd_ne _ _ (hne b hb').1]
          exact h2 b hb'
    · simp only [withoutKey, upd_same, Option.some.injEq] at h
      subst h
      simp [deps]
    · simp only [withoutKey] at h
      rw [upd_ne _ _ (hne e he).2, upd_same] at h
      simp at h

theorem Links.delMap (K : Links A) (hm : A m = some (.map kp vp cmp k es)) : Links (withoutMap A m k es) := by
  refine K.of (m :: k :: es.map Bind.tup) (fun q hq => ?_) ?_ ?_
  · simp only [withoutMap, without, hq, if_false]
  · intro q hq y o h ho
    simp only [List.mem_cons] at hq ⊢
    exact .inl (K.ownMap hm hq h ho)
  · intro q hq y h
    simp only [withoutMap, without, hq, if_true] at h
    simp at h

end Verif.Own
