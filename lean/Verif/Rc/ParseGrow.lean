import Verif.Rc.ParseRc
import Verif.Rc.JsonRcProps

/-!
# How memory grows while a text is parsed (lemmas for C106)
-/

namespace Verif.Rc.ParseProps
open Verif.Chain (upd)
open Verif.Json (Byte Tok Atom PState)
open Verif.Rc.Props Verif.Rc.MapProps Verif.Rc.JsonProps

/-- `X'` has the blocks of `X` without those of `R`, and the new ones `N`.  Only what `c` holds has changed; the new pointers
lead to static blocks, to new ones, or to those of `K`.  There are at most `l` more blocks and `r` more references to each
static block; other blocks have at most two references if they have more than before. -/
structure Chg (sg : Nat → Bool) (X X' : JS) (N R K : Nat → Prop) (c l r : Nat) : Prop where
  mem : ∀ y, y ∈ X'.x.s.D ↔ (y ∈ X.x.s.D ∧ ¬ R y) ∨ N y
  fresh : ∀ y, N y → y ∉ X.x.s.D
  ext : X'.x.s.ext = X.x.s.ext
  kids : ∀ y ∈ X.x.s.D, y ≠ c → X'.x.s.kids y = X.x.s.kids y
  maps : ∀ y ∈ X.x.s.D, y ≠ c → X'.x.maps y = X.x.maps y
  kind : ∀ y ∈ X.x.s.D, X'.kind y = X.kind y
  edges : ∀ y ∈ X'.x.s.D, ∀ b, (Policy.rc, some b) ∈ X'.x.s.kids y →
    (y ∈ X.x.s.D ∧ (Policy.rc, some b) ∈ X.x.s.kids y) ∨ ((y = c ∨ N y) ∧ (sg b = true ∨ N b ∨ K b))
  dom : ∀ A B, X.x.s.D = A ++ B → (∀ a ∈ A, ¬ R a) → ∃ L, X'.x.s.D = A ++ L ∧ L.length ≤ B.length + l
  rcs : ∀ s, sg s = true → X'.x.s.rc s ≤ X.x.s.rc s + r
  few : ∀ s, sg s = false → X'.x.s.rc s ≤ max (X.x.s.rc s) 2

/-- no pointer was lost -/
def Keep (X X' : JS) : Prop :=
  ∀ y ∈ X.x.s.D, ∀ b, (Policy.rc, some b) ∈ X.x.s.kids y → y ∈ X'.x.s.D ∧ (Policy.rc, some b) ∈ X'.x.s.kids y

theorem Keep.rc {X X' : JS} (k : Keep X X') (he : X'.x.s.ext = X.x.s.ext) {b : Nat} (h : X'.x.s.rc b = 0) :
    X.x.s.rc b = 0 := by
  obtain ⟨h1, h2⟩ := rc_zero.1 h
  refine rc_zero.2 ⟨by rw [← he]; exact h1, fun y hy hm => ?_⟩
  obtain ⟨h3, h4⟩ := k y hy b hm
  exact h2 y h3 h4

theorem Chg.rc0 {sg : Nat → Bool} {X X' : JS} {N R K : Nat → Prop} {c l r t : Nat} (a : Chg sg X X' N R K c l r)
    (ht : t ∈ X.x.s.D) (h : X.x.s.rc t = 0) (hs : sg t = false) (hK : ¬ K t) : X'.x.s.rc t = 0 := by
  obtain ⟨h1, h2⟩ := rc_zero.1 h
  refine rc_zero.2 ⟨by rw [a.ext]; exact h1, ?_⟩
  intro y hy hm
  rcases a.edges y hy t hm with ⟨h3, h4⟩ | ⟨-, h4 | h4 | h4⟩
  · exact h2 y h3 h4
  · rw [hs] at h4; cases h4
  · exact a.fresh t h4 ht
  · exact hK h4

/-- a block that nothing refers to, without pointers: the stack, its tuples, and strings that were just read -/
structure Iso (sg : Nat → Bool) (X : JS) (t : Nat) : Prop where
  mem : t ∈ X.x.s.D
  kind : X.kind t = .raw
  rc : X.x.s.rc t = 0
  ns : sg t = false

theorem Chg.iso {sg : Nat → Bool} {X X' : JS} {N R K : Nat → Prop} {c l r t : Nat} (a : Chg sg X X' N R K c l r)
    (i : Iso sg X t) (hK : ¬ K t) (hR : ¬ R t) : Iso sg X' t :=
  ⟨(a.mem t).2 (.inl ⟨i.mem, hR⟩), by rw [a.kind t i.mem]; exact i.kind, a.rc0 i.mem i.rc i.ns hK, i.ns⟩

theorem refs_sublist {l m : List Nat} (kids : Nat → List (Policy × Ptr)) (p : Policy) (z : Nat) (h : l.Sublist m) :
    refs kids l p z ≤ refs kids m p z := by
  induction h with
  | slnil => exact Nat.le_refl _
  | cons a _ ih => simp only [refs, List.map_cons, List.sum_cons] at ih ⊢; omega
  | cons_cons a _ ih => simp only [refs, List.map_cons, List.sum_cons] at ih ⊢; omega

section
variable {sg oth : Nat → Bool} {eqv : Nat → Nat → Bool} (E : Eqv eqv)

theorem iso_kids {X : JS} {C : JHeap} (J : JG sg eqv oth X C) {t : Nat} (i : Iso sg X t) : X.x.s.kids t = [] := by
  have := J.typed.shape t i.mem
  rw [i.kind] at this
  exact this

/-- only the block itself loses its last reference -/
theorem iso_unref {kids : Nat → List Edge} {D : List Nat} {ext : Nat → Nat} {t : Nat} (ht : t ∈ D) (hk : kids t = [])
    (hext : ext t = 0) (hp : ∀ y ∈ D, ¬ Pts kids y t) (x : Nat) : Unref kids D ext t x ↔ x = t := by
  constructor
  · intro h
    induction h with
    | intro x hx he hp hall ih =>
      rcases hp with h | ⟨y, hy, hyx⟩
      · exact h
      · have := ih y hy hyx
        subst this
        obtain ⟨pol, -, hm⟩ := hyx
        rw [hk] at hm
        cases hm
  · rintro rfl
    exact .intro x ht hext (.inl rfl) fun y hy h => absurd h (hp y hy)

theorem iso_pts {X : JS} {C : JHeap} (J : JG sg eqv oth X C) {t : Nat} (h : X.x.s.rc t = 0) (y : Nat) (hy : y ∈ X.x.s.D) :
    ¬ Pts X.x.s.kids y t := by
  obtain ⟨A, G, -⟩ := J.mem
  rintro ⟨pol, -, hm⟩
  obtain ⟨w, hw⟩ := J.typed.edges G hy hm
  cases hw
  exact (rc_zero.1 h).2 y hy hm

theorem filter_dom {D A B : List Nat} {f : Nat → Bool} (h : D = A ++ B) (hA : ∀ a ∈ A, f a = true) :
    D.filter f = A ++ B.filter f := by
  rw [h, List.filter_append, List.filter_eq_self.2 hA]

/-- the deletion of such a block -/
theorem iso_del {X : JS} {C : JHeap} (J : JG sg eqv oth X C) {t : Nat} (i : Iso sg X t) {fuel : Nat}
    (hf : X.x.s.D.length ≤ fuel) (c : Nat) : ∃ C', mdel fuel C t = .ok (some C') ∧ JG sg eqv oth (stepDrop X t) C' ∧
      Chg sg X (stepDrop X t) (fun _ => False) (fun z => z = t) (fun _ => False) c 0 0 ∧ Keep X (stepDrop X t) := by
  obtain ⟨h, e, J'⟩ := (drop_ok J i.mem i.ns hf).2 i.rc
  obtain ⟨h1, h2⟩ := rc_zero.1 i.rc
  have hu : ∀ y, Unref X.x.s.kids X.x.s.D (upd X.x.s.ext t (X.x.s.ext t - 1)) t y ↔ y = t :=
    iso_unref i.mem (iso_kids J i) (by simp [upd, h1]) (iso_pts J i.rc)
  have hD : ∀ y, y ∈ (stepDrop X t).x.s.D ↔ y ∈ X.x.s.D ∧ y ≠ t := by
    intro y
    simp only [stepDrop, Spec.drop, List.mem_filter, decide_eq_true_eq, hu]
  have hE : (stepDrop X t).x.s.ext = X.x.s.ext := by
    funext z
    show upd X.x.s.ext t (X.x.s.ext t - 1) z = _
    by_cases h : z = t
    · subst h; simp [upd, h1]
    · simp [upd, h]
  refine ⟨C.on h, by simp only [mdel, jsonDel, J.single, e, Res.map_ok', Option.map_some], J', ?_, ?_⟩
  · refine ⟨fun y => by rw [hD]; simp, fun y hy => hy.elim, hE, fun _ _ _ => rfl, fun _ _ _ => rfl, fun _ _ => rfl,
      fun y hy b hb => .inl ⟨((hD y).1 hy).1, hb⟩, fun A B hAB hA => ?_, fun s _ => ?_, fun s _ => ?_⟩
    · refine ⟨_, filter_dom hAB fun a ha => ?_, by simpa using List.length_filter_le _ _⟩
      have := (hD a).2 ⟨by rw [hAB]; simp [ha], hA a ha⟩
      exact (List.mem_filter.1 this).2
    · show refs X.x.s.kids (stepDrop X t).x.s.D .rc s + (stepDrop X t).x.s.ext s ≤ refs X.x.s.kids X.x.s.D .rc s + X.x.s.ext s + 0
      rw [hE]
      have := refs_sublist X.x.s.kids .rc s (l := (stepDrop X t).x.s.D) (m := X.x.s.D) List.filter_sublist
      omega
    · show refs X.x.s.kids (stepDrop X t).x.s.D .rc s + (stepDrop X t).x.s.ext s ≤ max (refs X.x.s.kids X.x.s.D .rc s + X.x.s.ext s) 2
      rw [hE]
      have := refs_sublist X.x.s.kids .rc s (l := (stepDrop X t).x.s.D) (m := X.x.s.D) List.filter_sublist
      omega
  · intro y hy b hb
    refine ⟨(hD y).2 ⟨hy, ?_⟩, hb⟩
    rintro rfl
    rw [iso_kids J i] at hb
    cases hb

/-! ## the blocks that are made -/

theorem not_static {X : JS} {C : JHeap} (J : JG sg eqv oth X C) {b : Nat} (hb : b ∉ X.x.s.D) : sg b = false := by
  cases h : sg b with
  | false => rfl
  | true => exact absurd (J.staticIn h) hb

theorem chg_fresh {X X' : JS} {C : JHeap} (J : JG sg eqv oth X C) {b : Nat} {kd : Kind} (hb : b ∉ X.x.s.D)
    (hD : X'.x.s.D = X.x.s.D ++ [b]) (hK : X'.x.s.kids = upd X.x.s.kids b []) (hE : X'.x.s.ext = X.x.s.ext)
    (hM : ∀ y ∈ X.x.s.D, X'.x.maps y = X.x.maps y) (hk : X'.kind = upd X.kind b kd) (c : Nat) :
    Chg sg X X' (fun z => z = b) (fun _ => False) (fun _ => False) c 1 0 ∧ Keep X X' ∧ X'.x.s.rc b = 0 := by
  obtain ⟨A, G, -⟩ := J.mem
  have hne : ∀ y ∈ X.x.s.D, y ≠ b := by rintro y hy rfl; exact hb hy
  have hrc : ∀ z, X'.x.s.rc z = X.x.s.rc z := by
    intro z
    have := (new_rc G.rel hb z).1
    rw [← this]
    show refs X'.x.s.kids X'.x.s.D .rc z + X'.x.s.ext z = refs (upd X.x.s.kids b []) (X.x.s.D ++ [b]) .rc z + X.x.s.ext z
    rw [hD, hK, hE]
  refine ⟨⟨fun y => by rw [hD]; simp, by rintro y rfl; exact hb, hE, fun y hy _ => by rw [hK]; simp [upd, hne y hy],
    fun y hy _ => hM y hy, fun y hy => by rw [hk]; simp [upd, hne y hy], fun y hy z hz => ?_, fun A B hAB _ => ?_,
    fun s _ => by rw [hrc]; omega, fun s _ => by rw [hrc]; omega⟩, fun y hy z hz => ?_, by rw [hrc, (new_rc G.rel hb b).2]⟩
  · rw [hK] at hz
    by_cases h : y = b
    · subst h; simp [upd] at hz
    · simp only [upd, h, if_false] at hz
      rw [hD] at hy
      exact .inl ⟨by simpa [h] using hy, hz⟩
  · exact ⟨B ++ [b], by rw [hD, hAB, List.append_assoc], by simp⟩
  · rw [hD, hK]
    simp [upd, hne y hy, hy, hz]

include E in
theorem grow_new {X : JS} {C : JHeap} (J : JG sg eqv oth X C) {b : Nat} (hb : b ∉ X.x.s.D) {kd : Kind}
    (hkd : kd = .raw ∨ kd = .list) (c : Nat) :
    JG sg eqv oth (stepNew eqv X b kd) (rawMk C b) ∧
    Chg sg X (stepNew eqv X b kd) (fun z => z = b) (fun _ => False) (fun _ => False) c 1 0 ∧ Keep X (stepNew eqv X b kd) ∧
    (stepNew eqv X b kd).x.s.rc b = 0 := by
  have J' := new_ok E J hb (kd := kd) (hkd.imp id .inl)
  have e : kd.tag = none := by rcases hkd with rfl | rfl <;> rfl
  rw [e] at J'
  exact ⟨J', chg_fresh (kd := kd) (X' := stepNew eqv X b kd) J hb rfl rfl rfl (fun _ _ => rfl) rfl c⟩

include E in
theorem grow_map {X : JS} {C : JHeap} (J : JG sg eqv oth X C) {b : Nat} (hb : b ∉ X.x.s.D) (c : Nat) :
    JG sg eqv oth (stepMap eqv X b) { C with m := mapMk C.m b .rc .rc, tag := upd C.tag b none } ∧
    Chg sg X (stepMap eqv X b) (fun z => z = b) (fun _ => False) (fun _ => False) c 1 0 ∧ Keep X (stepMap eqv X b) ∧
    (stepMap eqv X b).x.s.rc b = 0 := by
  refine ⟨newMap_ok E J hb, chg_fresh (kd := .map) (X' := stepMap eqv X b) J hb rfl rfl rfl (fun y hy => ?_) rfl c⟩
  have : y ≠ b := by rintro rfl; exact hb hy
  simp [stepMap, mstep, upd, this]

theorem tag_few {X : JS} {C : JHeap} (J : JG sg eqv oth X C) {j p : Nat} {t : Tag} (hj : j ∉ X.x.s.D) :
    (stepTag eqv X j t p).x.s.rc p = X.x.s.rc p + 1 := by
  obtain ⟨A, G, -⟩ := J.mem
  have R1 := mk_spec G.rel hj
  have h := addEdge_refs (s := mkBlock X.x.s j) R1.nodup (y := j) (by simp [mkBlock]) (.rc, some p) .rc p
  rw [if_pos rfl] at h
  rw [← (new_rc G.rel hj p).1]
  show refs (addEdge (mkBlock X.x.s j) j (.rc, some p)).kids (mkBlock X.x.s j).D .rc p + X.x.s.ext p = _
  rw [h, Nat.add_right_comm]; rfl

include E in
theorem grow_tag {X : JS} {C : JHeap} (J : JG sg eqv oth X C) {j p : Nat} {t : Tag} {kd : Kind} (hj : j ∉ X.x.s.D)
    (hp : p ∈ X.x.s.D) (ht : part t = some kd) (hk : X.kind p = kd) (hrc : X.x.s.rc p = 0) (c : Nat) :
    ∃ C', jsonMk C j t p = .ok C' ∧ JG sg eqv oth (stepTag eqv X j t p) C' ∧
      Chg sg X (stepTag eqv X j t p) (fun z => z = j) (fun _ => False) (fun z => z = p) c 1 0 ∧
      Keep X (stepTag eqv X j t p) ∧ (stepTag eqv X j t p).x.s.kids j = [(.rc, some p)] ∧
      (stepTag eqv X j t p).kind j = .json t ∧ (stepTag eqv X j t p).x.s.rc j = 0 := by
  obtain ⟨C', e, J'⟩ := tag_ok E J hj hp ht hk (by omega)
  obtain ⟨r1, r2⟩ := tagRc J hj (j := j) (p := p) (t := t)
  have hD : (stepTag eqv X j t p).x.s.D = X.x.s.D ++ [j] := rfl
  have hK : (stepTag eqv X j t p).x.s.kids = upd (upd X.x.s.kids j []) j (upd X.x.s.kids j [] j ++ [(.rc, some p)]) := rfl
  have hne : ∀ y ∈ X.x.s.D, y ≠ j := by rintro y hy rfl; exact hj hy
  have hns : ∀ s, sg s = true → s ≠ p := by
    rintro s hs rfl
    have := (J.typed.static s hs).1
    have h0 := (rc_zero.1 hrc).1
    omega
  refine ⟨C', e, J', ⟨fun y => by rw [hD]; simp, by rintro y rfl; exact hj, rfl, fun y hy _ => by rw [hK]; simp [upd, hne y hy],
    fun _ _ _ => rfl, fun y hy => by simp [stepTag, upd, hne y hy], fun y hy z hz => ?_, fun A B hAB _ => ?_,
    fun s hs => by rw [r1 s (hns s hs)]; omega, fun s _ => ?_⟩, fun y hy z hz => ?_, by rw [hK]; simp [upd], by simp [stepTag, upd],
    by rw [r1 j (by rintro rfl; exact hj hp), r2]⟩
  · rw [hK] at hz
    by_cases h : y = j
    · subst h
      simp [upd] at hz
      exact .inr ⟨.inr rfl, .inr (.inr hz)⟩
    · simp only [upd, h, if_false] at hz
      rw [hD] at hy
      exact .inl ⟨by simpa [h] using hy, hz⟩
  · exact ⟨B ++ [j], by rw [hD, hAB, List.append_assoc], by simp⟩
  · by_cases h : s = p
    · subst h
      have := tag_few J hj (t := t) (p := s)
      omega
    · rw [r1 s h]; omega
  · rw [hD, hK]
    simp [upd, hne y hy, hy, hz]

/-! ## what is put into containers -/

theorem grow_append {X : JS} {C : JHeap} (J : JG sg eqv oth X C) {l v : Nat} (hl : l ∈ X.x.s.D) (hk : X.kind l = .list)
    (hv : OkVal sg X v 1) (hv0 : sg v = true ∨ X.x.s.rc v = 0) : ∃ c X', listAppend C.m.h l (.rc, some v) = .ok c ∧ JG sg eqv oth X' (C.on c) ∧
      Chg sg X X' (fun _ => False) (fun _ => False) (fun z => z = v) l 0 1 ∧ Keep X X' ∧
      X'.x.s.kids l = X.x.s.kids l ++ [(.rc, some v)] ∧ X'.x.s.rc v ≠ 0 := by
  obtain ⟨c, e, J'⟩ := append_ok (eqv := eqv) J hl hk hv
  obtain ⟨A, G, -⟩ := J.mem
  have hK : (stepM eqv X (.plain (.append l (.rc, some v)))).x.s.kids = upd X.x.s.kids l (X.x.s.kids l ++ [(.rc, some v)]) := rfl
  have hkl : (stepM eqv X (.plain (.append l (.rc, some v)))).x.s.kids l = X.x.s.kids l ++ [(.rc, some v)] := by
    rw [hK]; simp [upd]
  refine ⟨c, _, e, J', ⟨fun y => by simp [stepM, mstep, specStep, addEdge], fun y hy => hy.elim, rfl, fun y _ hy => ?_,
    fun _ _ _ => rfl, fun _ _ => rfl, fun y hy z hz => ?_, fun A B hAB _ => ⟨B, hAB, by simp⟩, fun s _ => ?_, fun s hs => ?_⟩,
    fun y hy z hz => ⟨hy, ?_⟩, hkl, fun h0 => ?_⟩
  · rw [hK]; simp [upd, hy]
  · by_cases h : y = l
    · subst h
      rw [hkl, List.mem_append] at hz
      rcases hz with hz | hz
      · exact .inl ⟨hy, hz⟩
      · exact .inr ⟨.inl rfl, .inr (.inr (by simpa using hz))⟩
    · rw [hK] at hz
      simp only [upd, h, if_false] at hz
      exact .inl ⟨hy, hz⟩
  · have h := addEdge_refs (s := X.x.s) G.rel.nodup (y := l) hl (.rc, some v) .rc s
    show refs (addEdge X.x.s l (.rc, some v)).kids X.x.s.D .rc s + X.x.s.ext s ≤ refs X.x.s.kids X.x.s.D .rc s + X.x.s.ext s + 1
    rw [h]
    split <;> omega
  · have h := addEdge_refs (s := X.x.s) G.rel.nodup (y := l) hl (.rc, some v) .rc s
    show refs (addEdge X.x.s l (.rc, some v)).kids X.x.s.D .rc s + X.x.s.ext s ≤ max (refs X.x.s.kids X.x.s.D .rc s + X.x.s.ext s) 2
    rw [h]
    split
    · next h =>
      cases h
      rcases hv0 with h0 | h0
      · rw [hs] at h0; cases h0
      · have h0 : refs X.x.s.kids X.x.s.D .rc v + X.x.s.ext v = 0 := h0
        omega
    · omega
  · rw [hK]
    by_cases h : y = l
    · subst h; simp [upd, hz]
    · simp [upd, h, hz]
  · exact (rc_zero.1 h0).2 l hl (by rw [hkl]; simp)

theorem edge_beq (x y : Nat) : ((Policy.rc, some x) == (Policy.rc, some y)) = decide (x = y) := by
  by_cases h : x = y
  · subst h; simp
  · have : ((Policy.rc, some x) : Edge) ≠ (Policy.rc, some y) := fun e => h (by injection e with _ e; injection e)
    simp [h]

theorem pair_flat {c : MapC} (hkp : c.kp = .rc) (hvp : c.vp = .rc) {p : Nat × Ptr} (hp : p ∈ c.pairs) :
    (Policy.rc, some p.1) ∈ c.flat ∧ (Policy.rc, p.2) ∈ c.flat := by
  have h : ∀ e ∈ [(Policy.rc, some p.1), (Policy.rc, p.2)], e ∈ c.flat := by
    intro e he
    rw [MapC.flat]
    refine List.mem_append_right _ (List.mem_flatMap.2 ⟨p, hp, ?_⟩)
    rw [hkp, hvp]; exact he
  exact ⟨h _ (by simp), h _ (by simp)⟩

/-- the pairs of a map after `cee_map_add` -/
def insP (eqv : Nat → Nat → Bool) (k : Nat) (v : Ptr) : List (Nat × Ptr) → List (Nat × Ptr)
  | [] => [(k, v)]
  | p :: l => if eqv k p.1 then (p.1, v) :: l else p :: insP eqv k v l

theorem insP_new {k : Nat} {v : Ptr} {l : List (Nat × Ptr)} (h : ∀ p ∈ l, eqv k p.1 = false) :
    insP eqv k v l = l ++ [(k, v)] := by
  induction l with
  | nil => rfl
  | cons p l ih =>
    rw [insP, h p (by simp), ih fun q hq => h q (List.mem_cons_of_mem _ hq)]
    rfl

theorem insP_old {k : Nat} {v : Ptr} {a b : List (Nat × Ptr)} {p : Nat × Ptr} (h : ∀ p ∈ a, eqv k p.1 = false)
    (hp : eqv k p.1 = true) : insP eqv k v (a ++ p :: b) = a ++ (p.1, v) :: b := by
  induction a with
  | nil => simp [insP, hp]
  | cons q a ih =>
    rw [List.cons_append, insP, h q (by simp), ih fun q hq => h q (List.mem_cons_of_mem _ hq)]
    rfl

include E in
theorem grow_put {X : JS} {C : JHeap} (J : JG sg eqv oth X C) {m k v : Nat} (hm : m ∈ X.x.s.D) (hkm : X.kind m = .map)
    (i : Iso sg X k) (hv : OkVal sg X v 1) (hv0 : sg v = true ∨ X.x.s.rc v = 0) {fuel : Nat} (hf : X.x.s.D.length ≤ fuel) :
    ∃ C' X', putIn eqv fuel C m k v = .ok (some C') ∧ JG sg eqv oth X' C' ∧
      Chg sg X X' (fun _ => False) (fun z => (look eqv (X.x.maps m) k).isSome = true ∧ z = k) (fun z => z = v ∨ z = k) m 0 1 ∧
      (look eqv (X.x.maps m) k = none → Keep X X') ∧
      (X'.x.maps m).pairs = insP eqv k (some v) (X.x.maps m).pairs ∧ X'.x.s.rc v ≠ 0 ∧ (k ∈ X'.x.s.D → X'.x.s.rc k ≠ 0) ∧
      ((X.x.maps m).order = (X.x.maps m).pairs.map Prod.fst → (X'.x.maps m).order = (X'.x.maps m).pairs.map Prod.fst) := by
  obtain ⟨A, G, -⟩ := J.mem
  obtain ⟨hM, ord, prs, hc⟩ := J.map hm hkm
  have wf := G.wf m hm hM
  obtain ⟨C', e, J'⟩ := put_ok E J hm hkm i.mem i.kind i.rc hv (fun h => by
    rcases hv0 with h0 | h0
    · exact h0
    · exfalso
      obtain ⟨a, p, b, hfp, hp2⟩ := look_some E h
      obtain ⟨hl, -⟩ := findPair_some hfp
      have := (pair_flat (c := X.x.maps m) (by rw [hc]) (by rw [hc]) (p := p) (by rw [hl]; simp)).2
      rw [hp2, ← wf.kids] at this
      exact (rc_zero.1 h0).2 m hm this) hf
  obtain ⟨A', G', -⟩ := J'.mem
  obtain ⟨hvD, ⟨t, ht⟩, hvr⟩ := hv
  have hvk : v ≠ k := by rintro rfl; rw [i.kind] at ht; cases ht
  have hmk : m ≠ k := by rintro rfl; rw [i.kind] at hkm; cases hkm
  have hsk : ∀ s, sg s = true → s ≠ k := by rintro s hs rfl; rw [i.ns] at hs; cases hs
  have hold : ∀ p ∈ (X.x.maps m).pairs, (Policy.rc, some p.1) ∈ X.x.s.kids m ∧ (Policy.rc, p.2) ∈ X.x.s.kids m := by
    intro p hp
    rw [wf.kids]
    exact pair_flat (by rw [hc]) (by rw [hc]) hp
  have hflat := wf.kids
  refine ⟨C', _, e, J', ?_⟩
  cases hlk : look eqv (X.x.maps m) k with
  | none =>
    have hX : stepAdd eqv X.x m k (some v) = X.x.put m ⟨.rc, .rc, ord ++ [k], prs ++ [(k, some v)]⟩ := by
      have hlk := hlk
      rw [hc] at hlk
      simp only [stepAdd, hc, hlk]
      rfl
    have hnone : ∀ p ∈ prs, eqv k p.1 = false := by
      have := hlk
      rw [hc, look, Option.map_eq_none_iff, List.find?_eq_none] at this
      intro p hp
      simpa using this p hp
    simp only [hX]
    have hK : (X.x.put m ⟨.rc, .rc, ord ++ [k], prs ++ [(k, some v)]⟩).s.kids m =
        (⟨.rc, .rc, ord ++ [k], prs ++ [(k, some v)]⟩ : MapC).flat := by simp [SM.put, upd]
    have hK' : ∀ y, y ≠ m → (X.x.put m ⟨.rc, .rc, ord ++ [k], prs ++ [(k, some v)]⟩).s.kids y = X.x.s.kids y := by
      intro y hy; simp [SM.put, upd, hy]
    have hperm := flat_append ⟨.rc, .rc, ord, prs⟩ k (some v)
    rw [hc] at hflat
    have hmem : ∀ e, e ∈ (⟨.rc, .rc, ord ++ [k], prs ++ [(k, some v)]⟩ : MapC).flat ↔
        e ∈ X.x.s.kids m ∨ e = (.rc, some k) ∨ e = (.rc, some v) := by
      intro e
      rw [hflat, ← hperm.mem_iff]
      simp only [List.mem_append, List.mem_singleton]
      tauto
    refine ⟨⟨fun y => by simp [SM.put], fun y hy => hy.elim, rfl, fun y _ hy => hK' y hy,
      fun y _ hy => by simp [SM.put, upd, hy], fun _ _ => rfl, fun y hy z hz => ?_, fun A B hAB _ => ⟨B, hAB, by simp⟩,
      fun s hs => ?_, fun s hs => ?_⟩, fun _ y hy z hz => ⟨hy, ?_⟩, ?_, fun h0 => ?_, fun _ h0 => ?_, fun ho => ?_⟩
    · by_cases h : y = m
      · subst h
        have hz : (Policy.rc, some z) ∈ _ := hz
        rw [hK, hmem] at hz
        rcases hz with hz | hz | hz
        · exact .inl ⟨hy, hz⟩
        · exact .inr ⟨.inl rfl, .inr (.inr (.inr (by simpa using hz)))⟩
        · exact .inr ⟨.inl rfl, .inr (.inr (.inl (by simpa using hz)))⟩
      · exact .inl ⟨hy, by rw [← hK' y h]; exact hz⟩
    · have h := refs_upd G.rel.nodup hm (⟨.rc, .rc, ord ++ [k], prs ++ [(k, some v)]⟩ : MapC).flat .rc s (kids := X.x.s.kids)
      show refs (upd X.x.s.kids m _) X.x.s.D .rc s + X.x.s.ext s ≤ refs X.x.s.kids X.x.s.D .rc s + X.x.s.ext s + 1
      have h2 := hperm.count_eq (.rc, some s)
      rw [← hflat] at h2
      have := hsk s hs
      have hks : ((Policy.rc, some k) == (Policy.rc, some s)) = false := by
        rw [beq_eq_false_iff_ne]; intro hh; injection hh with _ hh; injection hh with hh; exact this hh.symm
      simp only [List.count_append, List.count_cons, List.count_nil, hks] at h2
      have : (if ((Policy.rc, some v) == (Policy.rc, some s)) = true then 1 else 0) ≤ 1 := by split <;> omega
      simp only [Bool.false_eq_true, if_false] at h2
      omega
    · have h := refs_upd G.rel.nodup hm (⟨.rc, .rc, ord ++ [k], prs ++ [(k, some v)]⟩ : MapC).flat .rc s (kids := X.x.s.kids)
      show refs (upd X.x.s.kids m _) X.x.s.D .rc s + X.x.s.ext s ≤ max (refs X.x.s.kids X.x.s.D .rc s + X.x.s.ext s) 2
      have h2 := hperm.count_eq (.rc, some s)
      rw [← hflat] at h2
      simp only [List.count_append, List.count_cons, List.count_nil, edge_beq, decide_eq_true_eq] at h2
      have hv0' : sg v = true ∨ refs X.x.s.kids X.x.s.D .rc v + X.x.s.ext v = 0 := hv0
      have hk0 : refs X.x.s.kids X.x.s.D .rc k + X.x.s.ext k = 0 := i.rc
      by_cases h3 : k = s
      · subst h3
        simp only [hvk, if_true, if_false] at h2
        omega
      · by_cases h4 : v = s
        · subst h4
          have := hv0'.resolve_left (by simp [hs])
          simp only [h3, if_true, if_false] at h2
          omega
        · simp only [h3, h4, if_false] at h2
          omega
    · by_cases h : y = m
      · subst h
        show _ ∈ _
        rw [hK, hmem]; exact .inl hz
      · rw [hK' y h]; exact hz
    · have : (X.x.put m ⟨.rc, .rc, ord ++ [k], prs ++ [(k, some v)]⟩).maps m = ⟨.rc, .rc, ord ++ [k], prs ++ [(k, some v)]⟩ := by
        simp [SM.put, upd]
      rw [this, hc]
      exact (insP_new hnone).symm
    · exact (rc_zero.1 h0).2 m hm (by rw [hK, hmem]; exact .inr (.inr rfl))
    · exact (rc_zero.1 h0).2 m hm (by rw [hK, hmem]; exact .inr (.inl rfl))
    · have : (X.x.put m ⟨.rc, .rc, ord ++ [k], prs ++ [(k, some v)]⟩).maps m = ⟨.rc, .rc, ord ++ [k], prs ++ [(k, some v)]⟩ := by
        simp [SM.put, upd]
      rw [hc] at ho
      simp only at ho
      rw [this, ho]
      simp
  | some v0 =>
    obtain ⟨a, p, b, hfp, hp2⟩ := look_some E hlk
    obtain ⟨hl, hkp, ha, hfd⟩ := findPair_some hfp
    rw [hc] at hl
    simp only at hl
    have hX : stepAdd eqv X.x m k (some v) = { X.x.put m ⟨.rc, .rc, ord, a ++ (p.1, some v) :: b⟩ with
        s := letGo (X.x.put m ⟨.rc, .rc, ord, a ++ (p.1, some v) :: b⟩).s k } := by
      have wd := wf.dist
      rw [hc] at wd
      have hlk := hlk
      rw [hc] at hlk
      simp only [stepAdd, hc, hlk, Option.isSome_some, if_true, replaced E (some v) hl hkp ha wd]
    simp only [hX]
    have hK : (X.x.put m ⟨.rc, .rc, ord, a ++ (p.1, some v) :: b⟩).s.kids m =
        (⟨.rc, .rc, ord, a ++ (p.1, some v) :: b⟩ : MapC).flat := by simp [SM.put, upd]
    have hK' : ∀ y, y ≠ m → (X.x.put m ⟨.rc, .rc, ord, a ++ (p.1, some v) :: b⟩).s.kids y = X.x.s.kids y := by
      intro y hy; simp [SM.put, upd, hy]
    have hperm := flat_replace ⟨.rc, .rc, ord, prs⟩ a b p (some v) hl
    simp only at hperm
    rw [hc] at hflat
    have hmem : ∀ e, e ∈ (⟨.rc, .rc, ord, a ++ (p.1, some v) :: b⟩ : MapC).flat → e ∈ X.x.s.kids m ∨ e = (.rc, some v) := by
      intro e he
      have := (hperm.mem_iff (a := e)).2 (List.mem_cons_of_mem _ he)
      rw [← hflat] at this
      simpa using this
    have hvm : (Policy.rc, some v) ∈ (⟨.rc, .rc, ord, a ++ (p.1, some v) :: b⟩ : MapC).flat :=
      (pair_flat (c := ⟨.rc, .rc, ord, a ++ (p.1, some v) :: b⟩) rfl rfl (p := (p.1, some v)) (by simp)).2
    have hu : ∀ y, Unref (X.x.put m ⟨.rc, .rc, ord, a ++ (p.1, some v) :: b⟩).s.kids X.x.s.D X.x.s.ext k y ↔ y = k := by
      refine iso_unref i.mem (by rw [hK' k hmk.symm]; exact iso_kids J i) (rc_zero.1 i.rc).1 fun y hy hp => ?_
      by_cases h : y = m
      · subst h
        obtain ⟨pol, hpol, hpm⟩ := hp
        rw [hK] at hpm
        rcases hmem _ hpm with h | h
        · exact iso_pts J i.rc y hy ⟨pol, hpol, h⟩
        · injection h with _ h
          injection h with h
          exact hvk h.symm
      · obtain ⟨pol, hpol, hpm⟩ := hp
        rw [hK' y h] at hpm
        exact iso_pts J i.rc y hy ⟨pol, hpol, hpm⟩
    have hD : ∀ y, y ∈ (letGo (X.x.put m ⟨.rc, .rc, ord, a ++ (p.1, some v) :: b⟩).s k).D ↔ y ∈ X.x.s.D ∧ y ≠ k := by
      intro y
      simp only [letGo, List.mem_filter, decide_eq_true_eq]
      exact and_congr Iff.rfl (not_congr (hu y))
    refine ⟨⟨fun y => by rw [hD]; simp, fun y hy => hy.elim, rfl, fun y _ hy => hK' y hy,
      fun y _ hy => by simp [SM.put, upd, hy], fun _ _ => rfl, fun y hy z hz => ?_, fun A B hAB hA => ?_,
      fun s hs => ?_, fun s hs => ?_⟩, fun h => (by cases h), ?_, fun h0 => ?_, fun hk => absurd rfl ((hD k).1 hk).2, fun ho => ?_⟩
    · have hy' := ((hD y).1 hy).1
      by_cases h : y = m
      · subst h
        have hz : (Policy.rc, some z) ∈ _ := hz
        rcases hmem _ (by rw [← hK]; exact hz) with hz | hz
        · exact .inl ⟨hy', hz⟩
        · exact .inr ⟨.inl rfl, .inr (.inr (.inl (by simpa using hz)))⟩
      · exact .inl ⟨hy', by rw [← hK' y h]; exact hz⟩
    · refine ⟨_, filter_dom hAB fun x hx => ?_, by simpa using List.length_filter_le _ _⟩
      have := (hD x).2 ⟨by rw [hAB]; simp [hx], fun h => hA x hx ⟨rfl, h⟩⟩
      exact (List.mem_filter.1 this).2
    · have h := refs_upd G.rel.nodup hm (⟨.rc, .rc, ord, a ++ (p.1, some v) :: b⟩ : MapC).flat .rc s (kids := X.x.s.kids)
      show refs (upd X.x.s.kids m _) (letGo (X.x.put m ⟨.rc, .rc, ord, a ++ (p.1, some v) :: b⟩).s k).D .rc s + X.x.s.ext s ≤
        refs X.x.s.kids X.x.s.D .rc s + X.x.s.ext s + 1
      have h2 := hperm.count_eq (.rc, some s)
      rw [← hflat] at h2
      simp only [List.count_append, List.count_cons, List.count_nil] at h2
      have h3 := refs_sublist (upd X.x.s.kids m (⟨.rc, .rc, ord, a ++ (p.1, some v) :: b⟩ : MapC).flat) .rc s
        (l := (letGo (X.x.put m ⟨.rc, .rc, ord, a ++ (p.1, some v) :: b⟩).s k).D) (m := X.x.s.D) List.filter_sublist
      have : (if ((Policy.rc, some v) == (Policy.rc, some s)) = true then 1 else 0) ≤ 1 := by split <;> omega
      omega
    · have h := refs_upd G.rel.nodup hm (⟨.rc, .rc, ord, a ++ (p.1, some v) :: b⟩ : MapC).flat .rc s (kids := X.x.s.kids)
      show refs (upd X.x.s.kids m _) (letGo (X.x.put m ⟨.rc, .rc, ord, a ++ (p.1, some v) :: b⟩).s k).D .rc s + X.x.s.ext s ≤
        max (refs X.x.s.kids X.x.s.D .rc s + X.x.s.ext s) 2
      have h2 := hperm.count_eq (.rc, some s)
      rw [← hflat] at h2
      simp only [List.count_append, List.count_cons, List.count_nil, edge_beq, decide_eq_true_eq] at h2
      have h3 := refs_sublist (upd X.x.s.kids m (⟨.rc, .rc, ord, a ++ (p.1, some v) :: b⟩ : MapC).flat) .rc s
        (l := (letGo (X.x.put m ⟨.rc, .rc, ord, a ++ (p.1, some v) :: b⟩).s k).D) (m := X.x.s.D) List.filter_sublist
      have hv0' : sg v = true ∨ refs X.x.s.kids X.x.s.D .rc v + X.x.s.ext v = 0 := hv0
      by_cases h4 : v = s
      · subst h4
        have := hv0'.resolve_left (by simp [hs])
        simp only [if_true] at h2
        omega
      · simp only [h4, if_false] at h2
        omega
    · have : (X.x.put m ⟨.rc, .rc, ord, a ++ (p.1, some v) :: b⟩).maps m = ⟨.rc, .rc, ord, a ++ (p.1, some v) :: b⟩ := by
        simp [SM.put, upd]
      rw [this, hc]
      show _ = insP eqv k (some v) prs
      rw [hl]
      exact (insP_old ha hkp).symm
    · exact (rc_zero.1 h0).2 m ((hD m).2 ⟨hm, hmk⟩) (by show _ ∈ (X.x.put m _).s.kids m; rw [hK]; exact hvm)
    · have : (X.x.put m ⟨.rc, .rc, ord, a ++ (p.1, some v) :: b⟩).maps m = ⟨.rc, .rc, ord, a ++ (p.1, some v) :: b⟩ := by
        simp [SM.put, upd]
      rw [hc] at ho
      simp only at ho
      show ((X.x.put m _).maps m).order = ((X.x.put m _).maps m).pairs.map Prod.fst
      rw [this, ho, hl]
      simp

end

end Verif.Rc.ParseProps
