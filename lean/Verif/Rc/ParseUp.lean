import Verif.Rc.ParseSim

/-!
# Putting a value into the container that is open (lemmas for C106)
-/

namespace Verif.Rc.ParseProps
open Verif.Chain (upd)
open Verif.Json (Byte Tok Atom PState PFrame PSt Val insertKey PInv ChainOk pstep popFrame)
open Verif.Rc.Props Verif.Rc.MapProps Verif.Rc.JsonProps

section
variable {sg oth : Nat → Bool} {E : PEnv} {X0 X X' : JS} {H : JHeap} {idx idx' : Nat → Nat} {n l r d hi hi' c : Nat} {T Q : List Nat} {key : List Byte}

/-- a static block, or a block that comes after `c` -/
def Above (sg : Nat → Bool) (X0 X : JS) (idx : Nat → Nat) (c y : Nat) : Prop :=
  sg y = true ∨ (y ∉ X0.x.s.D ∧ rnk X idx c < rnk X idx y)

theorem above_edge (k : Core sg E.eqv oth X0 X H idx n l r) {y b : Nat} (hy : y ∈ X.x.s.D) (hy0 : y ∉ X0.x.s.D)
    (hr : rnk X idx c ≤ rnk X idx y) (he : (Policy.rc, some b) ∈ X.x.s.kids y) : Above sg X0 X idx c b := by
  by_cases hs : sg b = true
  · exact .inl hs
  have h0 := (k.old.edges y hy hy0 b he).resolve_left hs
  have := k.rank y hy hy0 b he h0
  exact .inr ⟨h0, by omega⟩

theorem Above.ne (k : Core sg E.eqv oth X0 X H idx n l r) {y : Nat} (h : Above sg X0 X idx c y) (hc0 : c ∉ X0.x.s.D) : y ≠ c := by
  rintro rfl
  rcases h with h | ⟨-, h⟩
  · exact hc0 (k.old.static _ h)
  · omega

theorem Above.box (k : Core sg E.eqv oth X0 X H idx n l r) {y : Nat} {t : Tag} {kd : Kind} (h : Above sg X0 X idx c y)
    (hk : X.kind y = .json t) (ht : part t = some kd) : y ∉ X0.x.s.D ∧ rnk X idx c ≤ rnk X idx y := by
  rcases h with h | ⟨h, h'⟩
  · obtain ⟨h1, t', h2, h3⟩ := k.J.typed.static y h
    rw [hk] at h2; cases h2; rw [ht] at h3; cases h3
  · exact ⟨h, by omega⟩

theorem obj_edges (J : JG sg E.eqv oth X H) {m : Nat} (hm : m ∈ X.x.s.D) (hk : X.kind m = .map) {p : Nat × Ptr}
    (hp : p ∈ (X.x.maps m).pairs) : (Policy.rc, some p.1) ∈ X.x.s.kids m ∧ (Policy.rc, p.2) ∈ X.x.s.kids m := by
  obtain ⟨A, G, -⟩ := J.mem
  obtain ⟨hM, ord, prs, hc⟩ := J.map hm hk
  rw [(G.wf m hm hM).kids]
  exact pair_flat (by rw [hc]) (by rw [hc]) hp

/-- what a container holds, and what comes after it -/
theorem ArrAt.above (k : Core sg E.eqv oth X0 X H idx n l r) {j b : Nat} {vs : List Nat} (a : ArrAt X j b vs) (hj : j ∈ X.x.s.D)
    (h : Above sg X0 X idx c j) : Above sg X0 X idx c b ∧ ∀ v ∈ vs, Above sg X0 X idx c v := by
  obtain ⟨h0, h1⟩ := h.box k a.tag rfl
  have h2 := above_edge (c := c) k hj h0 h1 (b := b) (by rw [a.held]; simp)
  refine ⟨h2, fun v hv => ?_⟩
  rcases h2 with h2 | ⟨h2, h3⟩
  · obtain ⟨-, t, ht, -⟩ := k.J.typed.static b h2
    rw [a.kind] at ht; cases ht
  · exact above_edge k (a.mem k.J hj).1 h2 (Nat.le_of_lt h3) (by rw [a.kids]; exact List.mem_map.2 ⟨v, hv, rfl⟩)

theorem ObjAt.above (k : Core sg E.eqv oth X0 X H idx n l r) {j b : Nat} {ps : List (Nat × Nat)} (a : ObjAt X j b ps)
    (hj : j ∈ X.x.s.D) (h : Above sg X0 X idx c j) : Above sg X0 X idx c b ∧ ∀ p ∈ ps, Above sg X0 X idx c p.2 := by
  obtain ⟨h0, h1⟩ := h.box k a.tag rfl
  have h2 := above_edge (c := c) k hj h0 h1 (b := b) (by rw [a.held]; simp)
  refine ⟨h2, fun p hp => ?_⟩
  rcases h2 with h2 | ⟨h2, h3⟩
  · obtain ⟨-, t, ht, -⟩ := k.J.typed.static b h2
    rw [a.kind] at ht; cases ht
  · have hm := (a.mem k.J hj).1
    exact above_edge k hm h2 (Nat.le_of_lt h3)
      (obj_edges k.J hm a.kind (p := (p.1, some p.2)) (by rw [a.pairs]; exact List.mem_map.2 ⟨p, hp, rfl⟩)).2

/-- a value that comes after the block that changes -/
theorem holds_up (k : Core sg E.eqv oth X0 X H idx n l r) (s : SameBut X X' idx idx' c) (hc0 : c ∉ X0.x.s.D) (hle : hi ≤ hi')
    (v : Val) : ∀ j ∈ X.x.s.D, Above sg X0 X idx c j → holds E X idx hi v j → holds E X' idx' hi' v j := by
  induction v using Val.ind with
  | h0 a =>
    intro j hj ha h
    rw [holds] at h ⊢
    cases a with
    | str t =>
      obtain ⟨h1, b, h2, h3⟩ := h
      exact ⟨by rw [s.kind j hj]; exact h1, b, by rw [s.kids j hj (ha.ne k hc0)]; exact h2, h3⟩
    | bool b => cases b <;> exact h
    | null => exact h
    | undef => exact h
    | strn t => exact h
    | blob t => exact h
    | _ =>
      obtain ⟨h1, b, h2, h3⟩ := h
      exact ⟨by rw [s.kind j hj]; exact h1, b, by rw [s.kids j hj (ha.ne k hc0)]; exact h2, h3⟩
  | ha xs ih =>
    intro j hj ha h
    rw [holds] at h ⊢
    obtain ⟨b, vs, h1, h2, h3⟩ := h
    obtain ⟨hb, hvs⟩ := h2.mem k.J hj
    obtain ⟨ab, av⟩ := h2.above k hj ha
    refine ⟨b, vs, by rw [s.idx b hb]; omega, h2.same k.J hj s (ab.ne k hc0) (ha.ne k hc0), ?_⟩
    clear h2 h1
    induction xs generalizing vs with
    | nil => cases vs with
      | nil => rw [holdsL]; trivial
      | cons v vs => simp [holdsL] at h3
    | cons x xs ihx => cases vs with
      | nil => simp [holdsL] at h3
      | cons v vs =>
        rw [holdsL] at h3 ⊢
        exact ⟨ih x (by simp) v (hvs v (by simp)).1 (av v (by simp)) h3.1,
          ihx (fun y hy => ih y (List.mem_cons_of_mem _ hy)) vs h3.2 (fun w hw => hvs w (List.mem_cons_of_mem _ hw))
            (fun w hw => av w (List.mem_cons_of_mem _ hw))⟩
  | ho xs ih =>
    intro j hj ha h
    rw [holds] at h ⊢
    obtain ⟨b, vs, h1, h2, h3⟩ := h
    obtain ⟨hb, hvs⟩ := h2.mem k.J hj
    obtain ⟨ab, av⟩ := h2.above k hj ha
    refine ⟨b, vs, by rw [s.idx b hb]; omega, h2.same k.J hj s (ab.ne k hc0) (ha.ne k hc0), ?_⟩
    clear h2 h1
    induction xs generalizing vs with
    | nil => cases vs with
      | nil => rw [holdsF]; trivial
      | cons v vs => simp [holdsF] at h3
    | cons x xs ihx => cases vs with
      | nil => simp [holdsF] at h3
      | cons v vs =>
        obtain ⟨key, x⟩ := x
        rw [holdsF] at h3 ⊢
        exact ⟨h3.1, ih (key, x) (by simp) v.2 (hvs v (by simp)).2.1 (av v (by simp)) h3.2.1,
          ihx (fun y hy => ih y (List.mem_cons_of_mem _ hy)) vs h3.2.2 (fun w hw => hvs w (List.mem_cons_of_mem _ hw))
            (fun w hw => av w (List.mem_cons_of_mem _ hw))⟩

theorem holdsL_up (k : Core sg E.eqv oth X0 X H idx n l r) (s : SameBut X X' idx idx' c) (hc0 : c ∉ X0.x.s.D) (hle : hi ≤ hi')
    (xs : List Val) : ∀ vs : List Nat, (∀ v ∈ vs, v ∈ X.x.s.D ∧ Above sg X0 X idx c v) → holdsL E X idx hi xs vs →
      holdsL E X' idx' hi' xs vs := by
  induction xs with
  | nil => intro vs _ h; cases vs with
    | nil => rw [holdsL]; trivial
    | cons v vs => simp [holdsL] at h
  | cons x xs ih => intro vs hv h; cases vs with
    | nil => simp [holdsL] at h
    | cons v vs =>
      rw [holdsL] at h ⊢
      obtain ⟨h1, h2⟩ := hv v (by simp)
      exact ⟨holds_up k s hc0 hle x v h1 h2 h.1, ih vs (fun w hw => hv w (List.mem_cons_of_mem _ hw)) h.2⟩

theorem holdsF_up (k : Core sg E.eqv oth X0 X H idx n l r) (s : SameBut X X' idx idx' c) (hc0 : c ∉ X0.x.s.D) (hle : hi ≤ hi')
    (xs : List (List Byte × Val)) : ∀ vs : List (Nat × Nat), (∀ v ∈ vs, v.2 ∈ X.x.s.D ∧ Above sg X0 X idx c v.2) →
      holdsF E X idx hi xs vs → holdsF E X' idx' hi' xs vs := by
  induction xs with
  | nil => intro vs _ h; cases vs with
    | nil => rw [holdsF]; trivial
    | cons v vs => simp [holdsF] at h
  | cons x xs ih => intro vs hv h; cases vs with
    | nil => simp [holdsF] at h
    | cons v vs =>
      obtain ⟨key, x⟩ := x
      rw [holdsF] at h ⊢
      obtain ⟨h1, h2⟩ := hv v (by simp)
      exact ⟨h.1, holds_up k s hc0 hle x v.2 h1 h2 h.2.1, ih vs (fun w hw => hv w (List.mem_cons_of_mem _ hw)) h.2.2⟩

/-- `cee_list_append` on the open array -/
theorem cont_append (k : Core sg E.eqv oth X0 X H idx n l r) {xs : List Val} {j b v : Nat} (hj : j ∈ X.x.s.D)
    (hb0 : b ∉ X0.x.s.D) (h : cont E X idx hi (.arr xs) j b) (s : SameBut X X' idx idx' b)
    (hk : X'.x.s.kids b = X.x.s.kids b ++ [(.rc, some v)]) : hole E X' idx' hi (.arr xs) j b v key := by
  obtain ⟨vs, a, h⟩ := h
  obtain ⟨hb, hvs⟩ := a.mem k.J hj
  have hjb : j ≠ b := by rintro rfl; have := a.kind; rw [a.tag] at this; cases this
  refine ⟨vs, ⟨by rw [s.kind j hj]; exact a.tag, by rw [s.kids j hj hjb]; exact a.held, by rw [s.kind b hb]; exact a.kind,
    by rw [hk, a.kids]; simp⟩, holdsL_up k s hb0 (Nat.le_refl _) xs vs (fun v hv => ⟨(hvs v hv).1, ?_⟩) h⟩
  exact above_edge k hb hb0 (Nat.le_refl _) (by rw [a.kids]; exact List.mem_map.2 ⟨v, hv, rfl⟩)

/-- `cee_map_add` on the open object -/
theorem cont_put (k : Core sg E.eqv oth X0 X H idx n l r) {xs : List (List Byte × Val)} {j b v key : Nat} (hj : j ∈ X.x.s.D)
    (hb0 : b ∉ X0.x.s.D) (h : cont E X idx hi (.obj xs) j b) (s : SameBut X X' idx idx' b)
    (hk : (X'.x.maps b).pairs = insP E.eqv key (some v) (X.x.maps b).pairs)
    (ho : (X.x.maps b).order = (X.x.maps b).pairs.map Prod.fst → (X'.x.maps b).order = (X'.x.maps b).pairs.map Prod.fst) :
    hole E X' idx' hi (.obj xs) j b v (E.txt key) ∧
      (look E.eqv (X.x.maps b) key).isSome = xs.any (fun p => p.1 == E.txt key) := by
  obtain ⟨vs, a, h⟩ := h
  obtain ⟨hb, hvs⟩ := a.mem k.J hj
  have hjb : j ≠ b := by rintro rfl; have := a.kind; rw [a.tag] at this; cases this
  refine ⟨⟨vs, key, rfl, ⟨by rw [s.kind j hj]; exact a.tag, by rw [s.kids j hj hjb]; exact a.held, by rw [s.kind b hb]; exact a.kind,
    by rw [hk, a.pairs, insQ_map], by
      rw [ho (by rw [a.order, a.pairs, List.map_map]; rfl), hk, a.pairs, insQ_fst]⟩, holdsF_up k s hb0 (Nat.le_refl _) xs vs (fun p hp => ⟨(hvs p hp).2.1, ?_⟩) h, fun p hp => ?_⟩, ?_⟩
  · exact above_edge k hb hb0 (Nat.le_refl _)
      (obj_edges k.J hb a.kind (p := (p.1, some p.2)) (by rw [a.pairs]; exact List.mem_map.2 ⟨p, hp, rfl⟩)).2
  · obtain ⟨-, h1, t, h2⟩ := hvs p hp
    exact ⟨s.keep _ h1 (by rw [h2]; simp), t, by rw [s.kind _ h1]; exact h2⟩
  · rw [← holdsF_look xs vs h, look, a.pairs, Option.isSome_map]

end
end Verif.Rc.ParseProps
