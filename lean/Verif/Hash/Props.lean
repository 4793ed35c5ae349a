import Verif.Hash.Lemmas
import Verif.List.Props

/-! # Properties of the hash table and of `cee_dict` (C14, C15, C53) -/

namespace Verif.Hash.Props

variable {V : Type}

/-! ## Specification -/

/-- the value of the first binding of `k` in a history of additions -/
def firstWrite (adds : List (Key × α)) (k : Key) : Option α :=
  match adds with
  | [] => none
  | (k', v) :: rest => if k' = k then some v else firstWrite rest k

/-- run a history of `cee_dict_add` calls (allocation succeeds) -/
def addAll [DecidableEq V] (d : Dict V) : List (Key × Option V) → Res (Dict V)
  | [] => .ok d
  | (k, v) :: rest => (add true d k v).bind (fun d' => addAll d' rest)

/-- run a history of `hsearch_r(.., ENTER, ..)` calls, each with its allocator state; records which
calls succeeded -/
def enterAll (t : Tab V) : List (Bool × Key × V) → Res (List Bool × Tab V)
  | [] => .ok ([], t)
  | (mem, k, v) :: rest =>
    (henter mem t k v).bind (fun r => (enterAll r.2 rest).map (fun r' => (r.1.isSome :: r'.1, r'.2)))

/-- `A` has, for every key, the binding of the first write -/
def Agrees (A : List (Key × V)) (adds : List (Key × V)) : Prop :=
  ∀ k v, (k, v) ∈ A ↔ firstWrite adds k = some v

theorem firstWrite_snoc (adds : List (Key × V)) (k : Key) (v : V) (k' : Key) :
    firstWrite (adds ++ [(k, v)]) k' =
      (firstWrite adds k').or (if k = k' then some v else none) := by
  induction adds with
  | nil => simp [firstWrite]
  | cons a adds ih =>
    obtain ⟨a1, a2⟩ := a
    simp only [List.cons_append, firstWrite]
    split
    · simp
    · exact ih

theorem hfind_spec {t : Tab V} {A : List (Key × V)} (I : TabInv t A) (key : Key) :
    (∃ p v, (key, v) ∈ A ∧ hfind t key = .ok (some p) ∧ t.entries[p]? = some (some (key, v))) ∨
    (key ∉ A.map (·.1) ∧ hfind t key = .ok none) := by
  by_cases hm : key ∈ A.map (·.1)
  · left
    obtain ⟨⟨k0, v0⟩, h1, h2⟩ := List.mem_map.1 hm
    simp only at h2
    subst h2
    obtain ⟨p, h3, h4⟩ := I.lookup_present h1
    exact ⟨p, v0, h1, by simp only [hfind, h3, h4], h4⟩
  · right
    obtain ⟨p, h3, h4⟩ := I.lookup_absent hm
    exact ⟨hm, by simp only [hfind, h3, h4]⟩

theorem Agrees.insert {A adds : List (Key × V)} (h : Agrees A adds) {key : Key} (v : V)
    (hm : key ∉ A.map (·.1)) {A' : List (Key × V)} (hp : A'.Perm ((key, v) :: A)) :
    Agrees A' (adds ++ [(key, v)]) := by
  intro k w
  rw [hp.mem_iff, List.mem_cons, firstWrite_snoc, h k w]
  have hnone : firstWrite adds key = none := by
    cases hf : firstWrite adds key with
    | none => rfl
    | some x => exact absurd (List.mem_map_of_mem (f := (·.1)) ((h key x).2 hf)) hm
  by_cases hk : key = k
  · subst hk
    simp [hnone, eq_comm]
  · have hk' : k ≠ key := fun h => hk h.symm
    simp [hk, hk']

theorem Agrees.keep {A adds : List (Key × V)} (h : Agrees A adds) {key : Key} {v0 : V} (v : V)
    (hm : (key, v0) ∈ A) : Agrees A (adds ++ [(key, v)]) := by
  intro k w
  rw [firstWrite_snoc, h k w]
  have h0 := (h key v0).1 hm
  by_cases hk : key = k
  · subst hk
    simp [h0]
  · simp [hk]

/-- the invariant of a dictionary after the additions `adds` -/
structure DInv (d : Dict V) (adds : List (Key × Option V)) : Prop where
  keys : CList.Props.Rel d.keys (adds.map (fun x => some x.1))
  vals : CList.Props.Rel d.vals (adds.map (·.2))
  kp : d.keys.pol = .rc
  vp : d.vals.pol = .rc
  tab : ∃ A, TabInv d.tab A ∧ Agrees A adds

theorem length_le_of_agrees {A adds : List (Key × V)} (hnd : (A.map (·.1)).Nodup)
    (h : Agrees A adds) : A.length ≤ adds.length := by
  have hsub : A.map (·.1) ⊆ adds.map (·.1) := by
    intro k hk
    obtain ⟨⟨k0, v0⟩, h1, h2⟩ := List.mem_map.1 hk
    simp only at h2
    subst h2
    have := (h _ _).1 h1
    clear h1 hk h
    induction adds with
    | nil => simp [firstWrite] at this
    | cons a adds ih =>
      obtain ⟨a1, a2⟩ := a
      simp only [firstWrite] at this
      split at this
      · next e => simp [e]
      · exact List.mem_cons_of_mem _ (ih this)
  have := (List.subperm_of_subset hnd hsub).length_le
  simpa using this

theorem add_spec [DecidableEq V] {d : Dict V} {adds : List (Key × Option V)} (D : DInv d adds)
    (hlen : adds.length < 2 ^ 31) (key : Key) (v : V) :
    ∃ d', add true d key (some v) = .ok d' ∧ DInv d' (adds ++ [(key, some v)]) := by
  obtain ⟨A, I, hA⟩ := D.tab
  obtain ⟨ks, hks, rks, _, pks⟩ := CList.Props.append_spec D.keys (by simpa using hlen) (some key) (by simp)
  obtain ⟨vs, hvs, rvs, _, pvs⟩ := CList.Props.append_spec D.vals (by simpa using hlen) (some v) (by simp)
  have hAl : A.length < 2 ^ 57 := by
    obtain ⟨k, _, _, _, Ik⟩ := I.ex
    have := length_le_of_agrees Ik.nodup hA
    omega
  have hkeys : CList.Props.Rel ks (List.map (fun x => some x.1) (adds ++ [(key, some v)])) := by
    rw [List.map_append]; exact rks
  have hvals : CList.Props.Rel vs (List.map (·.2) (adds ++ [(key, some v)])) := by
    rw [List.map_append]; exact rvs
  rcases henter_spec I true key (some v) with ⟨v0, p, h1, h2, h3⟩ | ⟨h1, p, t', h2, h3, A', h4, h5⟩ |
    ⟨_, _, h3⟩
  · refine ⟨⟨ks, vs, d.tab⟩, ?_, ⟨hkeys, hvals, by rw [pks, D.kp], by rw [pvs, D.vp], A, I, hA.keep _ h1⟩⟩
    simp [add, h2, hks, hvs]
  · refine ⟨⟨ks, vs, t'⟩, ?_, ⟨hkeys, hvals, by rw [pks, D.kp], by rw [pvs, D.vp], A', h5,
      hA.insert _ h1 h4⟩⟩
    simp [add, h2, hks, hvs]
  · exact absurd (h3 rfl) (by omega)

theorem addAll_spec [DecidableEq V] (rest : List (Key × Option V)) {d : Dict V}
    {adds : List (Key × Option V)} (D : DInv d adds) (hlen : (adds ++ rest).length < 2 ^ 31)
    (hnn : ∀ x ∈ rest, x.2 ≠ none) :
    ∃ d', addAll d rest = .ok d' ∧ DInv d' (adds ++ rest) := by
  induction rest generalizing d adds with
  | nil => exact ⟨d, rfl, by simpa using D⟩
  | cons a rest ih =>
    obtain ⟨key, v⟩ := a
    cases v with
    | none => exact absurd rfl (hnn _ (List.mem_cons_self ..))
    | some v =>
      obtain ⟨d1, h1, D1⟩ := add_spec D (by simp at hlen; omega) key v
      obtain ⟨d2, h2, D2⟩ := ih D1 (by simpa using hlen) (fun x hx => hnn x (List.mem_cons_of_mem _ hx))
      exact ⟨d2, by simp only [addAll, h1, Res.bind, h2], by simpa using D2⟩

theorem find_spec {d : Dict V} {adds : List (Key × Option V)} (D : DInv d adds) (key : Key) :
    find d key = .ok ((firstWrite adds key).getD none) := by
  obtain ⟨A, I, hA⟩ := D.tab
  rcases hfind_spec I key with ⟨p, v, h1, h2, h3⟩ | ⟨h1, h2⟩
  · have := (hA key v).1 h1
    simp [find, h2, h3, this]
  · have : firstWrite adds key = none := by
      cases hf : firstWrite adds key with
      | none => rfl
      | some x => exact absurd (List.mem_map_of_mem (f := (·.1)) ((hA key x).2 hf)) h1
    simp [find, h2, this]

/-- **C14.**  Whatever the size hint (`size`, and the number `hsize` of entries derived from it),
after any history of fewer than 2^31 `cee_dict_add` calls with non-NULL values on a dictionary that
was created, no undefined behaviour or crash has occurred, `cee_dict_find(k)` is the value of the
first addition under `k`, or NULL, and the private lists hold all keys and values in order. -/
theorem C14_dict_first_write_wins [DecidableEq V] (mem : Bool) (size hsize : Nat)
    (hs : size < 2 ^ 60) (d0 : Dict V) (hd : mkE mem size hsize = some d0)
    (adds : List (Key × Option V)) (hlen : adds.length < 2 ^ 31) (hnn : ∀ x ∈ adds, x.2 ≠ none) :
    ∃ d, addAll d0 adds = .ok d ∧
      (∀ k, find d k = .ok ((firstWrite adds k).getD none)) ∧
      CList.Props.contents d.keys = adds.map (fun x => some (some x.1)) ∧
      CList.Props.contents d.vals = adds.map (fun x => some x.2) := by
  have D0 : DInv d0 [] := by
    unfold mkE at hd
    split at hd
    · next t ht =>
      simp only [Option.some.injEq] at hd
      subst hd
      exact ⟨CList.Props.Rel_mk .rc size hs, CList.Props.Rel_mk .rc size hs, rfl, rfl, [],
        TabInv_create ht, by intro k v; simp [firstWrite]⟩
    · simp at hd
  obtain ⟨d, h, D⟩ := addAll_spec adds D0 (by simpa using hlen) hnn
  rw [List.nil_append] at D
  refine ⟨d, h, find_spec D, ?_, ?_⟩
  · have := D.keys.cont
    rw [List.map_map] at this
    exact this
  · have := D.vals.cont
    rw [List.map_map] at this
    exact this

/-- ten additions (two of them of a key already present): the table of 8 slots is enlarged -/
def demoAdds : List (Key × Option Nat) :=
  [([97], some 1), ([98], some 2), ([97], some 3), ([105], some 4), ([], some 5), ([99, 100], some 6),
   ([98], some 7), ([104], some 8), ([106], some 9), ([107], some 10)]

example : (mkE true 3 3 : Option (Dict Nat)).isSome ∧ demoAdds.length < 2 ^ 31 ∧
    (∀ x ∈ demoAdds, x.2 ≠ none) ∧ firstWrite demoAdds [98] = some (some 2) ∧
    firstWrite demoAdds [98, 1] = none := by
  refine ⟨?_, by decide, by decide, by decide, by decide⟩
  have h : tabSize 3 = 8 := by decide
  simp [mkE, hcreate, h, callocOk]

/-! ## Tables under allocation failures -/

theorem enterAll_inv (ops : List (Bool × Key × V)) {t : Tab V} {A : List (Key × V)} (I : TabInv t A) :
    ∃ bs t' A', enterAll t ops = .ok (bs, t') ∧ TabInv t' A' := by
  induction ops generalizing t A with
  | nil => exact ⟨[], t, A, rfl, I⟩
  | cons op ops ih =>
    obtain ⟨mem, key, v⟩ := op
    rcases henter_spec I mem key v with ⟨v0, p, h1, h2, h3⟩ | ⟨h1, p, t', h2, h3, A', h4, h5⟩ |
      ⟨_, h2, _⟩
    · obtain ⟨bs, t2, A2, h4, h5⟩ := ih I
      exact ⟨true :: bs, t2, A2, by simp only [enterAll, h2, Res.bind, h4, Res.map, Option.isSome], h5⟩
    · obtain ⟨bs, t2, A2, h6, h7⟩ := ih h5
      exact ⟨true :: bs, t2, A2, by simp only [enterAll, h2, Res.bind, h6, Res.map, Option.isSome], h7⟩
    · obtain ⟨bs, t2, A2, h4, h5⟩ := ih I
      exact ⟨false :: bs, t2, A2, by simp only [enterAll, h2, Res.bind, h4, Res.map, Option.isSome], h5⟩

/-- **C15.**  In every table reachable by any history of insertions, with any pattern of allocation
failures: the mask is one less than the number of slots, there is an empty slot, and a lookup of any
key ends within as many probes as there are slots, at a slot of the table that is empty or holds the
key.  (The history itself runs without undefined behaviour or endless probing.) -/
theorem C15_probe_terminates (mem : Bool) (nel : Nat) (t0 : Tab V) (h0 : hcreate mem nel = some t0)
    (ops : List (Bool × Key × V)) :
    ∃ bs t, enterAll t0 ops = .ok (bs, t) ∧ t.entries.length = t.mask + 1 ∧
      (∃ p : Nat, t.entries[p]? = some none) ∧
      ∀ key, ∃ p, lookup t key (keyhash key) = .ok p ∧
        (t.entries[p]? = some none ∨ ∃ v, t.entries[p]? = some (some (key, v))) := by
  obtain ⟨bs, t, A, h, I⟩ := enterAll_inv ops (TabInv_create h0)
  refine ⟨bs, t, h, ?_, ?_, ?_⟩
  · obtain ⟨k, h3, _, hmask, Ik⟩ := I.ex
    have := pow3 h3
    rw [Ik.len, hmask]; omega
  · obtain ⟨k, h3, _, hmask, Ik⟩ := I.ex
    have := pow3 h3
    have := I.load
    exact Ik.exists_empty (by omega)
  · intro key
    by_cases hm : key ∈ A.map (·.1)
    · obtain ⟨⟨k0, v0⟩, h1, h2⟩ := List.mem_map.1 hm
      simp only at h2
      subst h2
      obtain ⟨p, h3, h4⟩ := I.lookup_present h1
      exact ⟨p, h3, .inr ⟨v0, h4⟩⟩
    · obtain ⟨p, h3, h4⟩ := I.lookup_absent hm
      exact ⟨p, h3, .inl h4⟩

theorem hcreate_three : hcreate true 3 = some (⟨List.replicate 8 none, 7, 0⟩ : Tab Nat) := by
  have h : tabSize 3 = 8 := by decide
  simp [hcreate, h, callocOk]

example : ∃ t0 : Tab Nat, hcreate true 3 = some t0 := ⟨_, hcreate_three⟩

/-- **C53.**  In every reachable table an insertion either succeeds (the key is then found with the
value of its first write) or, when the enlarged array cannot be allocated, reports failure and leaves
the table exactly as it was.  With memory available it fails only beyond 2^57 keys. -/
theorem C53_enter_failure_atomic (mem : Bool) (nel : Nat) (t0 : Tab V)
    (h0 : hcreate mem nel = some t0) (ops : List (Bool × Key × V)) (bs : List Bool) (t : Tab V)
    (hr : enterAll t0 ops = .ok (bs, t)) (m : Bool) (key : Key) (v : V) :
    (henter m t key v = .ok (none, t) ∧ (m = true → 2 ^ 57 ≤ t.used)) ∨
    ∃ p t' w, henter m t key v = .ok (some p, t') ∧ t'.entries[p]? = some (some (key, w)) ∧
      hfind t' key = .ok (some p) ∧
      (∀ k' x, (∃ q : Nat, t.entries[q]? = some (some (k', x))) →
        ∃ q, hfind t' k' = .ok (some q) ∧ t'.entries[q]? = some (some (k', x))) ∧
      (w = v ∨ ∃ q : Nat, t.entries[q]? = some (some (key, w))) := by
  obtain ⟨bs', t', A, h, I⟩ := enterAll_inv ops (TabInv_create h0)
  rw [h] at hr
  simp only [Res.ok.injEq, Prod.mk.injEq] at hr
  obtain ⟨rfl, rfl⟩ := hr
  have uniq : ∀ {t : Tab V} {A : List (Key × V)}, TabInv t A → ∀ {key : Key} {v : V} {p : Nat},
      t.entries[p]? = some (some (key, v)) →
      ∃ q, hfind t key = .ok (some q) ∧ t.entries[q]? = some (some (key, v)) := by
    intro t A I key v p hp
    obtain ⟨k, h3, _, hmask, Ik⟩ := I.ex
    obtain ⟨q, hq1, hq2⟩ := I.lookup_present ((Ik.mem_iff _).2 ⟨p, hp⟩)
    exact ⟨q, by simp only [hfind, hq1, hq2], hq2⟩
  have same : ∀ {t : Tab V} {A : List (Key × V)}, TabInv t A → ∀ {key : Key} {v : V} {p q : Nat},
      t.entries[p]? = some (some (key, v)) → hfind t key = .ok (some q) → p = q := by
    intro t A I key v p q hp hq
    obtain ⟨k, h3, hk, hmask, Ik⟩ := I.ex
    obtain ⟨es, mask, u⟩ := t
    simp only at hmask hp Ik
    subst hmask
    obtain ⟨n, hn, hpos, hno⟩ := Ik.reach p key v hp
    have : lookup ⟨es, 2 ^ k - 1, u⟩ key (keyhash key) = .ok p := by
      rw [lookup, ← hpos]
      apply probe_spec _ _ (by omega) _ _ hn
      · intro m hmn
        obtain ⟨k', v', h1, h2⟩ := hno m hmn
        exact ⟨_, h1, by simp [stopAt, h2]⟩
      · exact ⟨_, by rw [hpos]; exact hp, by simp [stopAt]⟩
    simp only [hfind, this, hp, Res.ok.injEq, Option.some.injEq] at hq
    exact hq
  rcases henter_spec I m key v with ⟨v0, p, h1, h2, h3⟩ | ⟨h1, p, t2, h2, h3, A2, h4, h5⟩ |
    ⟨_, h2, h3⟩
  · right
    obtain ⟨q, hq1, hq2⟩ := uniq I h3
    have := same I h3 hq1
    subst this
    refine ⟨p, t', v0, h2, h3, hq1, ?_, .inr ⟨p, h3⟩⟩
    rintro k' x ⟨q, hq⟩
    exact uniq I hq
  · right
    obtain ⟨q, hq1, hq2⟩ := uniq h5 h3
    have := same h5 h3 hq1
    subst this
    refine ⟨p, t2, v, h2, h3, hq1, ?_, .inl rfl⟩
    rintro k' x ⟨q, hq⟩
    obtain ⟨k, _, _, _, Ik⟩ := I.ex
    obtain ⟨k2, _, _, _, Ik2⟩ := h5.ex
    obtain ⟨q2, hq2⟩ := (Ik2.mem_iff _).1
      (h4.mem_iff.2 (List.mem_cons_of_mem _ ((Ik.mem_iff _).2 ⟨q, hq⟩)))
    exact uniq h5 hq2
  · left
    exact ⟨h2, fun hm => by rw [I.used]; exact h3 hm⟩

/-- the hypotheses hold for a table of 8 slots after an insertion -/
example : ∃ (t0 : Tab Nat) (bs : List Bool) (t : Tab Nat), hcreate true 3 = some t0 ∧
    enterAll t0 [(false, [97], 1)] = .ok (bs, t) := by
  obtain ⟨bs, t, h, _⟩ := C15_probe_terminates true 3 _ hcreate_three [(false, [97], 1)]
  exact ⟨_, bs, t, hcreate_three, h⟩

end Verif.Hash.Props
