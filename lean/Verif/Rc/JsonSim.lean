import Verif.Rc.JsonRc
import Verif.Rc.MapRcProps

/-!
# Static blocks do not matter for the counts of others

Memory with static blocks, whose counts are set to 0 now and then and which are never freed, behaves as memory in which these
are ordinary blocks that the program always holds.
-/

namespace Verif.Rc.JsonProps
open Verif.Chain (upd)
open Verif.Rc.Props Verif.Rc.MapProps

/-- `C` has the same blocks as `A`; only the counts of static blocks may differ -/
structure Sim (sg : Nat → Bool) (A C : RHeap) : Prop where
  live : C.live = A.live
  kids : C.kids = A.kids
  deg : ∀ x, sg x = false → C.deg x = A.deg x
  ret : ∀ x, sg x = false → C.ret x = A.ret x

variable {sg : Nat → Bool}

theorem Sim.refl (A : RHeap) : Sim sg A A := ⟨rfl, rfl, fun _ _ => rfl, fun _ _ => rfl⟩

theorem Sim.put {A C : RHeap} (S : Sim sg A C) (f : Nat → List Edge) :
    Sim sg { A with kids := f } { C with kids := f } := ⟨S.live, rfl, S.deg, S.ret⟩

theorem Sim.new {A C : RHeap} (S : Sim sg A C) (x : Nat) (es : List Edge) :
    Sim sg (newBlock A x es) (newBlock C x es) := by
  refine ⟨by simp [newBlock, S.live], by simp [newBlock, S.kids], fun z hz => ?_, fun z hz => ?_⟩ <;>
    simp only [newBlock, upd] <;> split
  · rfl
  · exact S.deg z hz
  · rfl
  · exact S.ret z hz

/-- changing the counts of static blocks -/
theorem Sim.static {A C : RHeap} (S : Sim sg A C) {s : Nat} (hs : sg s = true) (n : Nat) (b : Bool) :
    Sim sg A { C with deg := upd C.deg s n, ret := upd C.ret s b } := by
  refine ⟨S.live, S.kids, fun z hz => ?_, fun z hz => ?_⟩ <;> simp only [upd] <;> rw [if_neg (by rintro rfl; simp [hs] at hz)]
  · exact S.deg z hz
  · exact S.ret z hz

theorem Sim.degree {A C : RHeap} (S : Sim sg A C) (b n n' : Nat) (h : sg b = false → n' = n) :
    Sim sg { A with deg := upd A.deg b n } { C with deg := upd C.deg b n' } := by
  refine ⟨S.live, S.kids, fun z hz => ?_, S.ret⟩
  simp only [upd]
  split
  · rename_i e; subst e; exact h hz
  · exact S.deg z hz

theorem Sim.left {A C : RHeap} (S : Sim sg A C) {b : Nat} (hb : sg b = true) (n : Nat) :
    Sim sg { A with deg := upd A.deg b n } C := by
  refine ⟨S.live, S.kids, fun z hz => ?_, S.ret⟩
  simp only [upd]
  rw [if_neg (by rintro rfl; simp [hb] at hz)]
  exact S.deg z hz

theorem Sim.right {A C : RHeap} (S : Sim sg A C) {b : Nat} (hb : sg b = true) (n : Nat) :
    Sim sg A { C with deg := upd C.deg b n } := by
  refine ⟨S.live, S.kids, fun z hz => ?_, S.ret⟩
  simp only [upd]
  rw [if_neg (by rintro rfl; simp [hb] at hz)]
  exact S.deg z hz

/-- counting -/
theorem Sim.incr {A C A' : RHeap} (S : Sim sg A C) {p : Ptr} (e : incrIndegree A (.rc, p) = .ok A') :
    ∃ C', incrIndegree C (.rc, p) = .ok C' ∧ Sim sg A' C' := by
  cases p with
  | none => cases e
  | some b =>
    simp only [incrIndegree, incrRc] at e ⊢
    split at e
    · rename_i hl
      rw [if_pos (by rw [S.live]; exact hl)]
      cases hb : sg b with
      | false =>
        rw [S.ret b hb, S.deg b hb]
        split at e
        · rename_i hr; rw [if_pos hr]; cases e; exact ⟨C, rfl, S⟩
        · rename_i hr; rw [if_neg hr]; cases e; exact ⟨_, rfl, S.degree b _ _ (fun _ => rfl)⟩
      | true =>
        have S' : Sim sg A' C := by
          split at e
          · cases e; exact S
          · cases e; exact S.left hb _
        split
        · exact ⟨_, rfl, S'⟩
        · exact ⟨_, rfl, S'.right hb _⟩
    · cases e

/-- counting back -/
theorem Sim.decr {A C A' : RHeap} (S : Sim sg A C) {p : Ptr} (e : decrIndegree A (.rc, p) = .ok A') :
    ∃ C', decrIndegree C (.rc, p) = .ok C' ∧ Sim sg A' C' := by
  cases p with
  | none => cases e
  | some b =>
    simp only [decrIndegree, decrRc] at e ⊢
    split at e
    · rename_i hl
      rw [if_pos (by rw [S.live]; exact hl)]
      cases hb : sg b with
      | false =>
        rw [S.ret b hb, S.deg b hb]
        split at e
        · rename_i hr; rw [if_pos hr]; cases e; exact ⟨C, rfl, S⟩
        · rename_i hr
          rw [if_neg hr]
          split at e
          · rename_i hd; rw [if_pos hd]; cases e; exact ⟨_, rfl, S.degree b _ _ (fun _ => rfl)⟩
          · rename_i hd; rw [if_neg hd]; cases e; exact ⟨_, rfl, S⟩
      | true =>
        have S' : Sim sg A' C := by
          split at e
          · cases e; exact S
          · split at e
            · cases e; exact S.left hb _
            · cases e; exact S
        split
        · exact ⟨_, rfl, S'⟩
        · split
          · exact ⟨_, rfl, S'.right hb _⟩
          · exact ⟨_, rfl, S'⟩
    · cases e

/-- deletion of a block that is not static -/
def TraceOk (sg : Nat → Bool) (fuel : Nat) : Prop := ∀ (A A' C : RHeap) (a : Nat), sg a = false →
  traceDel fuel A a = .ok (some A') → Sim sg A C → (∀ s, sg s = true → A'.live s = true) →
  ∃ C', traceS sg fuel C a = .ok (some C') ∧ Sim sg A' C'

theorem traceS_static {s : Nat} (hs : sg s = true) (fuel : Nat) (h : RHeap) : traceS sg fuel h s = .ok (some h) := by
  cases fuel <;> rw [traceS, if_pos hs]

theorem Sim.delRef {fuel : Nat} (T : TraceOk sg fuel) {A A' C : RHeap} (S : Sim sg A C) {p : Ptr}
    (e : delRefWith (traceDel fuel) A p = .ok (some A')) (hs : ∀ s, sg s = true → A'.live s = true) :
    ∃ C', delRefWith (traceS sg fuel) C p = .ok (some C') ∧ Sim sg A' C' := by
  cases p with
  | none => cases e; exact ⟨C, rfl, S⟩
  | some b =>
    simp only [delRefWith] at e ⊢
    by_cases hl : A.live b = true
    · rw [if_pos hl] at e
      rw [if_pos (by rw [S.live]; exact hl)]
      cases hb : sg b with
      | false =>
        have S1 : Sim sg (if A.deg b ≠ 0 then { A with deg := upd A.deg b (A.deg b - 1) } else A)
            (if C.deg b ≠ 0 then { C with deg := upd C.deg b (C.deg b - 1) } else C) := by
          rw [S.deg b hb]
          split
          · exact S.degree b _ _ (fun _ => rfl)
          · exact S
        generalize (if A.deg b ≠ 0 then { A with deg := upd A.deg b (A.deg b - 1) } else A) = A1 at e S1
        generalize (if C.deg b ≠ 0 then { C with deg := upd C.deg b (C.deg b - 1) } else C) = C1 at S1
        rw [S1.ret b hb, S1.deg b hb]
        split at e
        · rename_i h; rw [if_pos h]; cases e; exact ⟨_, rfl, S1⟩
        · rename_i h
          rw [if_neg h]
          split at e
          · rename_i h; rw [if_pos h]; exact T _ _ _ _ hb e S1 hs
          · rename_i h; rw [if_neg h]; cases e; exact ⟨_, rfl, S1⟩
      | true =>
        have S1 : Sim sg A' C := by
          have S1 : Sim sg (if A.deg b ≠ 0 then { A with deg := upd A.deg b (A.deg b - 1) } else A) C := by
            split
            · exact S.left hb _
            · exact S
          generalize (if A.deg b ≠ 0 then { A with deg := upd A.deg b (A.deg b - 1) } else A) = A1 at e S1
          split at e
          · cases e; exact S1
          · split at e
            · have := (traceDel_shrink _ _ _ _ e).2
              rw [hs b hb] at this; cases this
            · cases e; exact S1
        have S2 : Sim sg A' (if C.deg b ≠ 0 then { C with deg := upd C.deg b (C.deg b - 1) } else C) := by
          split
          · exact S1.right hb _
          · exact S1
        rw [traceS_static hb]
        generalize (if C.deg b ≠ 0 then { C with deg := upd C.deg b (C.deg b - 1) } else C) = C1 at S2
        refine ⟨C1, ?_, S2⟩
        split
        · rfl
        · split <;> rfl
    · rw [if_neg hl] at e; cases e

theorem Sim.delE {fuel : Nat} (T : TraceOk sg fuel) {A A' C : RHeap} (S : Sim sg A C) {ed : Edge}
    (e : delE (traceDel fuel) A ed = .ok (some A')) (hs : ∀ s, sg s = true → A'.live s = true) :
    ∃ C', Verif.Rc.delE (traceS sg fuel) C ed = .ok (some C') ∧ Sim sg A' C' := by
  obtain ⟨pol, p⟩ := ed
  cases pol with
  | rc => exact S.delRef T e hs
  | noop => cases e; exact ⟨C, rfl, S⟩
  | del =>
    cases p with
    | none => cases e; exact ⟨C, rfl, S⟩
    | some b =>
      simp only [Verif.Rc.delE, delWith, S.live] at e ⊢
      split at e
      · rename_i hl
        rw [if_pos hl]
        refine T _ _ _ _ ?_ e S hs
        cases hb : sg b with
        | false => rfl
        | true =>
          have := (traceDel_shrink _ _ _ _ e).2
          rw [hs b hb] at this; cases this
      · cases e

theorem delE_shrink {fuel : Nat} {A A' : RHeap} {ed : Edge} (e : delE (traceDel fuel) A ed = .ok (some A')) :
    Shrink A A' := by
  obtain ⟨d, rfl | ⟨b, -, hb⟩⟩ := delE_cases e
  · exact ⟨rfl, rfl, fun _ h => h⟩
  · have := (traceDel_shrink _ _ _ _ hb).1
    exact ⟨this.kids, this.ret, this.mono⟩

theorem delLoop_shrink {fuel a : Nat} (es : List Edge) : ∀ {A A' : RHeap},
    delLoop (traceDel fuel) a A es = .ok (some A') → Shrink A A' := by
  induction es with
  | nil => intro A A' e; cases e; exact .refl A
  | cons ed es ih =>
    intro A A' e
    obtain ⟨-, B, e1, e2⟩ := delLoop_cons e
    exact (delE_shrink e1).trans (ih e2)

theorem Sim.delLoop {fuel : Nat} (T : TraceOk sg fuel) {a : Nat} (es : List Edge) : ∀ {A A' C : RHeap}, Sim sg A C →
    delLoop (traceDel fuel) a A es = .ok (some A') → (∀ s, sg s = true → A'.live s = true) →
    ∃ C', Verif.Rc.delLoop (traceS sg fuel) a C es = .ok (some C') ∧ Sim sg A' C' := by
  induction es with
  | nil => intro A A' C S e _; cases e; exact ⟨C, rfl, S⟩
  | cons ed es ih =>
    intro A A' C S e hs
    obtain ⟨hl, B, e1, e2⟩ := delLoop_cons e
    obtain ⟨C1, f1, S1⟩ := S.delE T e1 (fun s h => (delLoop_shrink es e2).mono s (hs s h))
    obtain ⟨C2, f2, S2⟩ := ih S1 e2 hs
    exact ⟨C2, by rw [Verif.Rc.delLoop, S.live, if_pos hl, f1]; exact f2, S2⟩

theorem traceOk (sg : Nat → Bool) (fuel : Nat) : TraceOk sg fuel := by
  induction fuel with
  | zero => intro A A' C a _ e; cases e
  | succ fuel ih =>
    intro A A' C a ha e S hs
    obtain ⟨B, e1, hl, rfl⟩ := traceDel_succ e
    have hsB : ∀ s, sg s = true → B.live s = true := by
      intro s h
      have := hs s h
      simp only [upd] at this
      split at this
      · cases this
      · exact this
    obtain ⟨C1, f1, S1⟩ := S.delLoop ih _ e1 hsB
    refine ⟨{ C1 with live := upd C1.live a false }, ?_, ?_⟩
    · rw [traceS, if_neg (by simp [ha]), S.kids, f1]
      simp only [freeBlock, S1.live, hl, if_true]
    · exact ⟨by simp [S1.live], S1.kids, S1.deg, S1.ret⟩

/-- memory with maps -/
structure SimM (sg : Nat → Bool) (A C : MHeap) : Prop where
  h : Sim sg A.h C.h
  maps : C.maps = A.maps
  other : C.other = A.other

theorem SimM.readable {A C : MHeap} (S : SimM sg A C) (m k : Nat) : readable C m k = readable A m k := by
  simp only [Verif.Rc.readable, S.h.live, S.maps, S.other]

theorem SimM.put {A C : MHeap} (S : SimM sg A C) (m : Nat) (c : MapC) : SimM sg (A.put m c) (C.put m c) := by
  refine ⟨?_, by simp only [MHeap.put, S.maps], S.other⟩
  simp only [MHeap.put, S.h.kids]
  exact S.h.put _

theorem SimM.on {A C : MHeap} (S : SimM sg A C) {a c : RHeap} (h : Sim sg a c) : SimM sg { A with h := a } { C with h := c } :=
  ⟨h, S.maps, S.other⟩

theorem map_ok {α β : Type} {r : Res α} {f : α → β} {b : β} : r.map f = .ok b ↔ ∃ a, r = .ok a ∧ f a = b := by
  cases r <;> simp [Res.map]

theorem SimM.over {fuel : Nat} {A A' C : MHeap} (S : SimM sg A C) {m k : Nat} {v r : Ptr}
    {a b : List (Nat × Ptr)} {p : Nat × Ptr} {ord : List Nat} {prs : List (Nat × Ptr)}
    (hc : A.maps m = ⟨.rc, .rc, ord, prs⟩)
    (e : mapOver fuel A m k v none a p b = .ok (some (A', r))) (hs : ∀ s, sg s = true → A'.h.live s = true) :
    ∃ C', mapOverS (traceS sg fuel) C m k v a p b = .ok (some (C', r)) ∧ SimM sg A' C' := by
  simp only [mapOver, mapOverS, S.maps, hc] at e ⊢
  obtain ⟨B, e1, e2⟩ := Res.bind_eq_ok.1 e
  have h1 : ∃ C1, (if v ≠ p.2 then
      (decrIndegree (C.put m ⟨.rc, .rc, ord, a ++ (p.1, v) :: b⟩).h (.rc, p.2)).map
        fun h => { C.put m ⟨.rc, .rc, ord, a ++ (p.1, v) :: b⟩ with h := h }
      else .ok C) = .ok C1 ∧ SimM sg B C1 := by
    split at e1
    · rename_i hv
      rw [if_pos hv]
      obtain ⟨h, e3, rfl⟩ := map_ok.1 e1
      obtain ⟨c, f3, S3⟩ := (S.put m _).h.decr e3
      exact ⟨_, by rw [f3]; rfl, (S.put m _).on S3⟩
    · rename_i hv
      rw [if_neg hv]; cases e1; exact ⟨C, rfl, S⟩
  obtain ⟨C1, f1, S1⟩ := h1
  simp only [S.maps] at f1
  rw [f1, Res.bind_ok]
  match hx : Verif.Rc.delE (traceDel fuel) B.h (.rc, some k), e2 with
  | .ok (some h), e2 =>
    simp only [hx] at e2
    cases e2
    obtain ⟨c, f2, S2⟩ := S1.h.delE (traceOk sg fuel) hx hs
    exact ⟨_, by simp only [f2], S1.on S2⟩
  | .ok none, e2 => simp [hx] at e2
  | .ub, e2 => simp [hx] at e2
  | .segv, e2 => simp [hx] at e2

theorem SimM.tail {eqv : Nat → Nat → Bool} {fuel : Nat} {A A' C : MHeap} (S : SimM sg A C) {m k : Nat} {v r : Ptr}
    {ord : List Nat} {prs : List (Nat × Ptr)} (hc : A.maps m = ⟨.rc, .rc, ord, prs⟩)
    (e : mapPut eqv fuel A m k v none = .ok (some (A', r))) (hs : ∀ s, sg s = true → A'.h.live s = true) :
    ∃ C', mapPutS (traceS sg fuel) eqv C m k v = .ok (some (C', r)) ∧ SimM sg A' C' := by
  have hcC : C.maps m = ⟨.rc, .rc, ord, prs⟩ := by rw [S.maps, hc]
  simp only [mapPut, hc] at e
  simp only [mapPutS, hcC]
  split at e
  · rename_i hr
    rw [if_pos (by rw [S.readable]; exact hr)]
    cases hf : findPair eqv k prs with
    | none =>
      rw [hf] at e
      obtain ⟨a3, e3, e⟩ := map_ok.1 e
      cases e
      obtain ⟨c3, f3, S4⟩ := (S.put m _).h.incr e3
      exact ⟨_, by simp only [f3]; rfl, (S.put m _).on S4⟩
    | some q =>
      obtain ⟨a, p, b⟩ := q
      rw [hf] at e
      exact S.over hc e hs
  · cases e

theorem SimM.remove {eqv : Nat → Nat → Bool} {A A' C : MHeap} (S : SimM sg A C) {m k : Nat} {r : Ptr}
    {ord : List Nat} {prs : List (Nat × Ptr)} (hc : A.maps m = ⟨.rc, .rc, ord, prs⟩)
    (e : mapRemove eqv A m (some k) = .ok (A', r)) :
    ∃ C', mapRemove eqv C m (some k) = .ok (C', r) ∧ SimM sg A' C' := by
  have hcC : C.maps m = ⟨.rc, .rc, ord, prs⟩ := by rw [S.maps, hc]
  simp only [mapRemove, hc] at e
  simp only [mapRemove, hcC]
  split at e
  · rename_i hr
    rw [if_pos (by rw [S.readable]; exact hr)]
    cases hf : findPair eqv k prs with
    | none =>
      rw [hf] at e
      cases e; exact ⟨C, rfl, S⟩
    | some q =>
      obtain ⟨a, p, b⟩ := q
      rw [hf] at e
      obtain ⟨a1, e1, e⟩ := Res.bind_eq_ok.1 e
      obtain ⟨a2, e2, e⟩ := Res.bind_eq_ok.1 e
      obtain ⟨c1, f1, S1⟩ := (S.put m _).h.decr e1
      obtain ⟨c2, f2, S2⟩ := S1.decr e2
      simp only [f1, Res.bind_ok, f2]
      cases hq : findKey eqv k ord with
      | none => rw [hq] at e; cases e
      | some q =>
        obtain ⟨a', q, b'⟩ := q
        rw [hq] at e
        obtain ⟨a3, e3, e⟩ := map_ok.1 e
        cases e
        have S3 := ((S.put m ⟨.rc, .rc, ord, a ++ b⟩).on S2).put m
        obtain ⟨c3, f3, S4⟩ := (S3 _).h.decr e3
        exact ⟨_, by simp only [f3]; rfl, (S3 _).on S4⟩
  · cases e

end Verif.Rc.JsonProps
