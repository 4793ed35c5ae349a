import Verif.Own.Steps

/-! # Dictionaries and their private memory -/

namespace Verif.Own

open Verif.Chain (upd)

variable {al : Malloc} {text : Nat → Hash.Key} {s : St} {L : List Nat} {A : Abs} {G : Nat → Option Nat}

/-- a block without private memory becomes a dictionary -/
theorem Inv.become {s s' : St} (I : Inv text s L A G) {d : Nat} (hd : A d = some .gone) {pol : Policy} {k v t e nel : Nat}
    (hch : s'.ch = s.ch) (ho : s'.obj = upd s.obj d (.dict pol k v t))
    (hm : s'.mem = upd (upd s.mem e (some (.ents (List.replicate (Hash.tabSize nel) (0, 0))))) t
        (some (.tab e (Hash.tabSize nel - 1) 0)))
    (ht : Fresh s t) (he : Fresh s e) (hte : t ≠ e) (hsz : Hash.tabSize nel * 16 < 2 ^ 64) :
    ∃ G', Inv text s' L (upd A d (some (.dict pol k v []))) G' := by
  have hGl : ∀ b, upd (upd G e (some d)) t (some d) b = some d ↔ b = t ∨ b = e := by
    intro b
    simp only [upd]
    by_cases h1 : b = t
    · simp [h1]
    · by_cases h2 : b = e
      · simp [h2]
      · simp only [h1, h2, if_false, or_self, iff_false]
        exact I.holds d _ hd b
  refine ⟨upd (upd G e (some d)) t (some d), I.change hd hch (fun p hp => by rw [ho, upd_ne _ _ hp]) (fun b _ hb => ?_)
    (fun b p hp => ?_) (fun b => ?_) (fun b hb => ?_) ⟨[t, e], fun b hb => by simpa using (hGl b).1 hb⟩ ?_⟩
  · have h1 : b ≠ t := by rintro rfl; exact hb ht.2.2
    have h2 : b ≠ e := by rintro rfl; exact hb he.2.2
    rw [hm, upd_ne _ _ h1, upd_ne _ _ h2]
  · simp only [upd]
    by_cases h1 : b = t
    · subst h1; simp [I.free_none ht.2.2, hp.symm]
    · by_cases h2 : b = e
      · subst h2; simp [h1, I.free_none he.2.2, hp.symm]
      · simp [h1, h2]
  · rw [hm]
    simp only [upd]
    by_cases h1 : b = t
    · simp [h1]
    · by_cases h2 : b = e
      · subst h2; simp [h1]
      · simp only [h1, h2, if_false]; exact I.own b
  · rw [hch]
    rcases (hGl b).1 hb with rfl | rfl
    · exact ht.2.1
    · exact he.2.1
  · have hcr : Hash.hcreate true nel = some (⟨List.replicate (Hash.tabSize nel) none, Hash.tabSize nel - 1, 0⟩ :
        Hash.Tab Ent) := by
      rw [Hash.hcreate, if_pos (by simpa only [Hash.callocOk, Bool.true_and, decide_eq_true_eq] using hsz)]
    have hpos : 0 < Hash.tabSize nel := by
      obtain ⟨k, _, hk⟩ := Hash.tabSize_pow nel
      rw [hk]; exact Nat.two_pow_pos k
    refine ⟨t, e, _, 0, _, by rw [ho, upd_same], by rw [hm, upd_same], by rw [hm, upd_ne _ _ hte.symm, upd_same], ?_, ⟨[], ?_, ?_⟩, hGl⟩
    · simp; omega
    · have := Hash.TabInv_create hcr
      simpa [absE_nil] using this
    · intro k v; simp [hist, Hash.Props.firstWrite]

/-- what `cee_dict_mk` makes of the abstract state -/
def withDict (A : Abs) (pol : Policy) (d k v : Nat) : Abs :=
  upd (upd (upd A k (some (.list (some d) []))) v (some (.list (some d) []))) d (some (.dict pol k v []))

theorem erase_last {L : List Nat} {r : Nat} (h : r ∉ L) : (L ++ [r]).erase r = L := by
  rw [List.erase_append_right _ h]; simp

theorem dictMk_ok (hal : al.Sound) (I : Inv text s L A G) (pol : Policy) {size : Nat} (hs : size < 2 ^ 60) (hsize : Nat) :
    (∃ s' d k v G', dictMk al text s pol size hsize = .ok (s', d) ∧ d ≠ 0 ∧ (∃ t, s'.obj d = .dict pol k v t) ∧
      A k = none ∧ A v = none ∧ A d = none ∧ k ≠ v ∧ k ≠ d ∧ v ≠ d ∧
      Inv text s' (L ++ [k] ++ [v] ++ [d]) (withDict A pol d k v) G') ∨
    (∃ s' d, dictMk al text s pol size hsize = .ok (s', 0) ∧ d ≠ 0 ∧ s'.ch.tail = d ∧ s'.ch.live d = false ∧
      (∀ p, p ≠ d → (s'.ch.live p = true ↔ p = 0 ∨ p ∈ L)) ∧ d ∉ L ∧
      ((∃ i, al.fails i = true) ∨ 2 ^ 64 ≤ Hash.tabSize hsize * 16)) := by
  -- the owner of the two lists is not known yet
  obtain ⟨s1, k, G1, e1, k0, kL, kA, I1⟩ := listMk_ok hal I none hs
  obtain ⟨s2, v, G2, e2, v0, vL, vA, I2⟩ := listMk_ok hal I1 none hs
  obtain ⟨s3, d, e3, d0, dL, dA, ho3, I3⟩ := plainMk_ok hal I2 (.dict pol k v 0) .gone (fun _ _ _ _ h => h)
  have hkv : k ≠ v := by rintro rfl; simp [upd_same] at vA
  have hkd : k ≠ d := by rintro rfl; simp at dL
  have hvd : v ≠ d := by rintro rfl; simp at dL
  have hvA : A v = none := by rwa [upd_ne _ _ hkv.symm] at vA
  have hdA : A d = none := by rwa [upd_ne _ _ hvd.symm, upd_ne _ _ hkd.symm] at dA
  have hd3 : upd (upd (upd A k (some (.list none []))) v (some (.list none []))) d (some SObj.gone) d = some .gone := upd_same ..
  rcases hcreate_sim (text := text) hal I3.finite hsize with
    ⟨s4, t, e, e4, c4, o4, ft, fe, hte, m4, hsz⟩ | ⟨s4, e4, c4, o4, m4, why⟩
  · left
    have hne : t ≠ 0 := ft.1
    obtain ⟨G5, I5⟩ := I3.become (s' := { s4 with obj := upd s4.obj d (.dict pol k v t) }) hd3 (pol := pol) (k := k) (v := v) c4
      (by simp only [o4]) m4 ft fe hte hsz
    refine ⟨{ s4 with obj := upd s4.obj d (.dict pol k v t) }, d, k, v, G5, ?_, d0, ⟨t, upd_same ..⟩, kA, hvA, hdA, hkv, hkd, hvd, ?_⟩
    · simp only [dictMk, e1, Res.bind_ok, e2, e3, e4, ne_eq, hne, not_false_eq_true, if_true]
    · rw [upd_upd] at I5
      -- now the owner is known
      have : ∀ p x, withDict A pol d k v p = some x → Holds text { s4 with obj := upd s4.obj d (.dict pol k v t) } G5 p x := by
        intro p x hp
        by_cases hpd : p = d
        · exact I5.holds p x (by rw [hpd] at hp ⊢; simpa [withDict, upd_same] using hp)
        · by_cases hpv : p = v
          · subst hpv
            simp only [withDict, upd_ne _ _ hpd, upd_same, Option.some.injEq] at hp
            subst hp
            exact I5.holds p (.list none []) (by simp only [upd_ne _ _ hpd, upd_same])
          · by_cases hpk : p = k
            · subst hpk
              simp only [withDict, upd_ne _ _ hpd, upd_ne _ _ hpv, upd_same, Option.some.injEq] at hp
              subst hp
              exact I5.holds p (.list none []) (by simp only [upd_ne _ _ hpd, upd_ne _ _ hpv, upd_same])
            · simp only [withDict, upd_ne _ _ hpd, upd_ne _ _ hpv, upd_ne _ _ hpk] at hp
              exact I5.holds p x (by simp only [upd_ne _ _ hpd, upd_ne _ _ hpv, upd_ne _ _ hpk]; exact hp)
      refine ⟨I5.chain, fun p => ?_, I5.own, I5.ownL, I5.sep, I5.fin, this⟩
      rw [← I5.dom p]
      simp only [withDict, upd]
      by_cases h1 : p = d
      · simp [h1]
      · by_cases h2 : p = v
        · subst h2; simp [h1]
        · by_cases h3 : p = k
          · subst h3; simp [h1, h2]
          · simp [h1, h2, h3]
  · right
    have I4 : Inv text s4 (L ++ [k] ++ [v] ++ [d]) (upd (upd (upd A k (some (.list none []))) v (some (.list none []))) d
        (some .gone)) G2 := by
      refine ⟨by rw [c4]; exact I3.chain, I3.dom, by rw [m4]; exact I3.own, I3.ownL, by rw [m4, c4]; exact I3.sep,
        by rw [m4]; exact I3.fin, fun p x hp => (I3.holds p x hp).frame (by rw [o4]) (fun b _ => by rw [m4]) (fun b => Iff.rfl)⟩
    obtain ⟨s5, G5, e5, I5, o5⟩ := listDel_ok I4 (l := k) (o := none) (xs := [])
      (by rw [upd_ne _ _ hkd, upd_ne _ _ hkv, upd_same])
    obtain ⟨s6, G6, e6, I6, o6⟩ := listDel_ok I5 (l := v) (o := none) (xs := [])
      (by rw [upd_ne _ _ hkv.symm, upd_ne _ _ hvd, upd_same])
    have hvL' : v ∉ L ∧ v ≠ k := by simpa using vL
    have hdL' : d ∉ L := by simp only [List.mem_append, not_or] at dL; exact dL.1.1
    have hL : (((L ++ [k] ++ [v] ++ [d]).erase k).erase v) = L ++ [d] := by
      have h1 : (L ++ [k] ++ [v] ++ [d]).erase k = L ++ [v] ++ [d] := by
        rw [List.append_assoc, List.erase_append_left _ (by simp), erase_last kL, List.append_assoc]
      rw [h1, List.erase_append_left _ (by simp), erase_last hvL'.1]
    rw [hL] at I6
    have hdl : s6.ch.live d = true := (I6.live d).2 (.inr (by simp))
    have htail : s6.ch.tail = d := by
      obtain ⟨c, hc⟩ := I6.chain
      have := hc.links.tail
      rw [← List.cons_append, Chain.Props.getLast?_app] at this
      simpa using this.symm
    refine ⟨{ s6 with ch := { s6.ch with live := upd s6.ch.live d false } }, d, ?_, d0, htail, upd_same .., ?_, hdL', why⟩
    · simp only [dictMk, e1, Res.bind_ok, e2, e3, e4, ne_eq, not_true_eq_false, if_false, e5, e6, freeObj, Chain.free, hdl, if_true]
    · intro p hp
      simp only [upd_ne _ _ hp]
      rw [I6.live p]
      simp [hp]

theorem firstWrite_map (f : α → β) (adds : List (Hash.Key × α)) (k : Hash.Key) :
    Hash.Props.firstWrite (adds.map fun x => (x.1, f x.2)) k = (Hash.Props.firstWrite adds k).map f := by
  induction adds with
  | nil => rfl
  | cons a adds ih =>
    obtain ⟨a1, a2⟩ := a
    simp only [List.map_cons, Hash.Props.firstWrite]
    split
    · rfl
    · exact ih

/-- the value first added under a key, 0 (NULL) if none -/
def found (text : Nat → Hash.Key) (adds : List (Nat × Nat)) (key : Nat) : Nat :=
  match adds with
  | [] => 0
  | (k, v) :: rest => if text k = text key then v else found text rest key

theorem found_eq (adds : List (Nat × Nat)) (key : Nat) :
    found text adds key = ((Hash.Props.firstWrite (hist text adds) (text key)).map (·.2)).getD 0 := by
  induction adds with
  | nil => rfl
  | cons a adds ih =>
    obtain ⟨k, v⟩ := a
    simp only [found, hist, List.map_cons, Hash.Props.firstWrite]
    split
    · rfl
    · exact ih

theorem dictFind_ok (I : Inv text s L A G) {d : Nat} {pol : Policy} {k v : Nat} {adds : List (Nat × Nat)}
    (hd : A d = some (.dict pol k v adds)) {key : Nat} (hk : key ≠ 0) :
    dictFind text s d key = .ok (found text adds key) := by
  obtain ⟨t, e, m, u, es, g1, g2, g3, g4, ⟨B, TI, hB⟩, g6⟩ := I.holds d _ hd
  rw [dictFind, I.getObj hd, Res.bind_ok, g1]
  simp only
  rcases Hash.Props.hfind_spec TI (text key) with ⟨p, x, h1, h2, h3⟩ | ⟨h1, h2⟩
  · obtain ⟨y, e1, z, rfl, h4⟩ := hfind_sim g2 g3 hk h2
    rw [e1, Res.bind_ok]
    simp only at h3
    rw [h3] at h4
    simp only [Option.some.injEq, Prod.mk.injEq] at h4
    rw [found_eq, (hB _ _).1 h1, h4.2]
    rfl
  · obtain ⟨y, e1, rfl⟩ := hfind_sim g2 g3 hk h2
    rw [e1, Res.bind_ok]
    have : Hash.Props.firstWrite (hist text adds) (text key) = none := by
      cases hf : Hash.Props.firstWrite (hist text adds) (text key) with
      | none => rfl
      | some x => exact absurd (List.mem_map_of_mem (f := (·.1)) ((hB _ x).2 hf)) h1
    rw [found_eq, this]
    rfl

/-- what `cee_dict_add` makes of the abstract state -/
def withAdd (A : Abs) (pol : Policy) (d k v : Nat) (adds : List (Nat × Nat)) (key value : Nat) : Abs :=
  upd (upd (upd A d (some (.dict pol k v (adds ++ [(key, value)]))))
    k (some (.list (some d) (adds.map (fun x => some x.1) ++ [some key]))))
    v (some (.list (some d) (adds.map (fun x => some x.2) ++ [some value])))

theorem dictAdd_ok (hal : al.Sound) (I : Inv text s L A G) (K : Links A) {d : Nat} {pol : Policy} {k v : Nat}
    {adds : List (Nat × Nat)} (hd : A d = some (.dict pol k v adds)) (hlen : adds.length < 2 ^ 31) {key value : Nat}
    (hk : key ≠ 0) (hv : value ≠ 0) :
    (∃ s' G', dictAdd al text s d key value = .ok s' ∧ Inv text s' L (withAdd A pol d k v adds key value) G') ∨
    (dictAdd al text s d key value = .segv ∧ ∃ i, al.fails i = true) := by
  obtain ⟨hkl, hvl, hkv⟩ := K.dict hd
  have hdk : k ≠ d := by rintro rfl; rw [hd] at hkl; simp at hkl
  have hdv : v ≠ d := by rintro rfl; rw [hd] at hvl; simp at hvl
  obtain ⟨t, e, m, u, es, g1, g2, g3, g4, ⟨B, TI, hB⟩, g6⟩ := I.holds d _ hd
  simp only [dictAdd, I.getObj hd, Res.bind_ok, g1]
  have hBl : B.length < 2 ^ 57 := by
    obtain ⟨k, _, _, _, Ik⟩ := TI.ex
    have := Hash.Props.length_le_of_agrees Ik.nodup hB
    simp [hist] at this
    omega
  have fin : ∀ o T, Hash.henter (!al.fails s.n) ⟨es.map (absE text), m, u⟩ (text key) (key, value) = .ok (some o, T) →
      (∃ B', Hash.TabInv T B' ∧ Hash.Props.Agrees B' (hist text (adds ++ [(key, value)]))) →
      ∃ s' G', ((henter al text s t key value).bind fun r => if r.2 then
        (append al r.1 k (some key)).bind fun s => append al s v (if value = 0 then none else some value)
        else .segv) = .ok s' ∧ Inv text s' L (withAdd A pol d k v adds key value) G' := by
    intro o T hh hT
    obtain ⟨s1, e1, c1, o1, e', es', f1, f2, f3, f4⟩ := henter_sim hal I.finite g2 g3 g4 (I.ne0 (by simp [g3])) hk hh
    have hT' : (⟨es'.map (absE text), T.mask, T.used⟩ : Hash.Tab Ent) = T := by rw [f2]
    obtain ⟨G1, I1⟩ := I.dict hd g1 g2 (adds' := adds ++ [(key, value)]) c1 o1 f4 f1 f3 (by rw [hT']; exact hT)
    obtain ⟨s2, G2, e2, I2, _⟩ := append_ok hal I1 (l := k) (by rw [upd_ne _ _ hdk]; exact hkl) (by simpa using hlen) key
    obtain ⟨s3, G3, e3, I3, _⟩ := append_ok hal I2 (l := v) (by rw [upd_ne _ _ hkv.symm, upd_ne _ _ hdv]; exact hvl)
      (by simpa using hlen) value
    refine ⟨s3, G3, ?_, I3⟩
    rw [e1, Res.bind_ok]
    simp only [Option.isSome_some, if_true, hv, if_false]
    rw [e2, Res.bind_ok, e3]
  have hhist : hist text (adds ++ [(key, value)]) = hist text adds ++ [(text key, (key, value))] := by simp [hist]
  rcases Hash.henter_spec TI (!al.fails s.n) (text key) (key, value) with ⟨v0, p, h1, h2, h3⟩ |
    ⟨h1, p, t', h2, h3, B', h4, h5⟩ | ⟨h1, h2, h3⟩
  · exact .inl (fin _ _ h2 ⟨B, TI, by rw [hhist]; exact hB.keep _ h1⟩)
  · exact .inl (fin _ _ h2 ⟨B', h5, by rw [hhist]; exact hB.insert _ h1 h4⟩)
  · right
    obtain ⟨s1, e1, _⟩ := henter_sim hal I.finite g2 g3 g4 (I.ne0 (by simp [g3])) hk h2
    rw [e1, Res.bind_ok]
    refine ⟨rfl, s.n, ?_⟩
    cases hf : al.fails s.n with
    | true => rfl
    | false => exact absurd (h3 (by simp [hf])) (by omega)

/-- what `cee_del` of a dictionary makes of the abstract state -/
def withoutDict (A : Abs) (pol : Policy) (d k v : Nat) (adds : List (Nat × Nat)) : Abs :=
  match pol with
  | .noop => upd (upd (upd A k (some (.list none (adds.map fun x => some x.1)))) v
      (some (.list none (adds.map fun x => some x.2)))) d none
  | _ => upd (upd (upd A k none) v none) d none

/-- the keys and values given to `cee_del_e` -/
def dels (pol : Policy) (adds : List (Nat × Nat)) : List (Option Nat) :=
  match pol with
  | .noop => []
  | _ => adds.map (fun x => some x.1) ++ adds.map (fun x => some x.2)

theorem Inv.disown (I : Inv text s L A G) {l : Nat} {o : Option Nat} {xs : List (Option Nat)} (hl : A l = some (.list o xs))
    (o' : Option Nat) : Inv text s L (upd A l (some (.list o' xs))) G := by
  refine ⟨I.chain, fun p => ?_, I.own, I.ownL, I.sep, I.fin, fun p x hp => ?_⟩
  · by_cases h : p = l
    · subst h; simp [upd_same, I.mem hl]
    · rw [upd_ne _ _ h]; exact I.dom p
  · by_cases h : p = l
    · subst h
      rw [upd_same, Option.some.injEq] at hp
      subst hp
      exact (show Holds text s G p (.list o xs) from I.holds p _ hl)
    · rw [upd_ne _ _ h] at hp
      exact I.holds p x hp

theorem dictDel_ok (I : Inv text s L A G) (K : Links A) {d : Nat} {pol : Policy} {k v : Nat} {adds : List (Nat × Nat)}
    (hd : A d = some (.dict pol k v adds)) :
    ∃ s' L' G', dictDel s d = .ok (s', dels pol adds) ∧ Inv text s' L' (withoutDict A pol d k v adds) G' := by
  obtain ⟨hkl, hvl, hkv⟩ := K.dict hd
  have hdk : k ≠ d := by rintro rfl; rw [hd] at hkl; simp at hkl
  have hdv : v ≠ d := by rintro rfl; rw [hd] at hvl; simp at hvl
  obtain ⟨t, e, m, u, es, g1, _⟩ := I.holds d _ hd
  rw [dictDel, I.getObj hd, Res.bind_ok, g1]
  simp only [delE]
  by_cases hp : pol = .noop
  · subst hp
    obtain ⟨s1, G1, e1, I1⟩ := dictFree_ok ((I.disown hkl none).disown (l := v) (by rw [upd_ne _ _ hkv.symm]; exact hvl) none)
      (d := d) (by rw [upd_ne _ _ hdv.symm, upd_ne _ _ hdk.symm]; exact hd)
    refine ⟨s1, _, G1, ?_, I1⟩
    simp only [if_true, Res.bind_ok, e1, dels, List.append_nil]
  · obtain ⟨s1, G1, e1, I1, o1⟩ := listDel_ok I hkl
    obtain ⟨s2, G2, e2, I2, o2⟩ := listDel_ok I1 (l := v) (by rw [upd_ne _ _ hkv.symm]; exact hvl)
    obtain ⟨s3, G3, e3, I3⟩ := dictFree_ok I2 (d := d) (by rw [upd_ne _ _ hdv.symm, upd_ne _ _ hdk.symm]; exact hd)
    refine ⟨s3, ((L.erase k).erase v).erase d, G3, ?_, ?_⟩
    · simp only [hp, if_false, e1, Res.bind_ok, e2, e3]
      cases pol <;> simp_all [dels]
    · cases pol <;> simp_all [withoutDict]

end Verif.Own
