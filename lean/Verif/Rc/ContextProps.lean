import Verif.Rc.Context
import Verif.Rc.MapRcProps
import Verif.Gc.Props
import Mathlib.Data.List.Induction

/-! # The contexts of a state (C111) -/

namespace Verif.Rc.ContextProps
open Verif.Chain (upd)
open Verif.Rc.Props Verif.Rc.MapProps

/-- what a program does: it makes, links and deletes blocks, and adds and removes contexts -/
inductive Act where
  | plain (op : Op)
  | add (k v : Nat)
  | remove (k : Nat)

/-- the same as an operation on the map `c` -/
def Act.op (c : Nat) : Act → MOp
  | .plain op => .plain op
  | .add k v => .add c k (some v)
  | .remove k => .remove c k

/-- one step, through the functions of the state -/
def step (eqv : Nat → Nat → Bool) (fuel c : Nat) (H : MHeap) : Act → Res (Option MHeap)
  | .plain op => (exec fuel H.h op).map fun r => r.map fun h => { H with h := h }
  | .add k v => addContext eqv fuel H c (some k) (some v)
  | .remove k => (removeContext eqv H c (some k)).map some

/-- execution -/
def run (eqv : Nat → Nat → Bool) (fuel c : Nat) (H : MHeap) : List Act → Res (Option MHeap)
  | [] => .ok (some H)
  | a :: as =>
    match step eqv fuel c H a with
    | .ok (some H) => run eqv fuel c H as
    | .ok none => .ok none
    | .ub => .ub
    | .segv => .segv

/-- the pointers given to an operation -/
def given : Act → List Ptr
  | .plain (.mk _) => []
  | .plain (.mkTuple _ es) => es.map (·.2)
  | .plain (.append y e) => [some y, e.2]
  | .plain (.remove y _) => [some y]
  | .plain (.incr p) => [p]
  | .plain (.delRef p) => [p]
  | .plain (.del p) => [p]
  | .add k v => [some k, some v]
  | .remove k => [some k]

/-- what the context `k` should be after `as`: the value added last under an equal key, unless the key was removed after -/
def current (eqv : Nat → Nat → Bool) (k : Nat) (as : List Act) : Ptr :=
  as.foldl (fun cur a =>
    match a with
    | .add k' v => if eqv k k' then some v else cur
    | .remove k' => if eqv k k' then none else cur
    | .plain _ => cur) none

/-! ## proofs -/

variable {eqv : Nat → Nat → Bool} (E : Eqv eqv)

/-- the map of the contexts is there and nothing refers to it -/
structure Safe (X : SM) (c : Nat) : Prop where
  mem : c ∈ X.s.D
  isMap : X.isMap c = true
  alone : ∀ y ∈ X.s.D, ¬ Pts X.s.kids y c
  order : ∀ x ∈ (X.maps c).order, x ≠ c
  pairs : ∀ p ∈ (X.maps c).pairs, p.1 ≠ c ∧ p.2 ≠ some c
  vp : (X.maps c).vp = .rc

theorem addEdges_D (s : Spec) (x : Nat) (es : List Edge) : (addEdges s x es).D = s.D := by
  induction es generalizing s with
  | nil => rfl
  | cons e es ih => rw [addEdges, ih]; rfl

theorem addEdges_kids (s : Spec) (x : Nat) (es : List Edge) (y : Nat) :
    (addEdges s x es).kids y = if y = x then s.kids x ++ es else s.kids y := by
  induction es generalizing s with
  | nil => rw [addEdges]; split <;> simp_all
  | cons e es ih =>
    rw [addEdges, ih]
    by_cases h : y = x
    · simp [h, addEdge, upd]
    · simp [h, addEdge, upd]

theorem not_unref {s : Spec} {c : Nat} (S : ∀ y ∈ s.D, ¬ Pts s.kids y c) {ext : Nat → Nat} {a : Nat} (h : a ≠ c) :
    ¬ Unref s.kids s.D ext a c := by
  intro hu
  cases hu with
  | intro _ _ _ h1 _ =>
    rcases h1 with h1 | ⟨y, hy, h1⟩
    · exact h h1.symm
    · exact S y hy h1

theorem mem_flat {d : MapC} {pol : Policy} {x : Nat} (h : (pol, some x) ∈ d.flat) :
    x ∈ d.order ∨ ∃ p ∈ d.pairs, p.1 = x ∨ p.2 = some x := by
  simp only [MapC.flat, List.mem_append, List.mem_map, List.mem_flatMap, List.mem_cons, List.not_mem_nil, or_false,
    Prod.mk.injEq, Option.some.injEq] at h
  rcases h with ⟨k, hk, -, h⟩ | ⟨p, hp, ⟨-, h⟩ | ⟨-, h⟩⟩
  · exact .inl (h ▸ hk)
  · exact .inr ⟨p, hp, .inl h.symm⟩
  · exact .inr ⟨p, hp, .inr h.symm⟩

theorem safe_put {X : SM} {c : Nat} (S : Safe X c) (d : MapC) (h1 : ∀ x ∈ d.order, x ≠ c)
    (h2 : ∀ p ∈ d.pairs, p.1 ≠ c ∧ p.2 ≠ some c) (h3 : d.vp = .rc) : Safe (X.put c d) c := by
  refine ⟨S.mem, S.isMap, ?_, by simpa [SM.put, upd] using h1, by simpa [SM.put, upd] using h2,
    by simpa [SM.put, upd] using h3⟩
  rintro y hy ⟨pol, hp, hm⟩
  by_cases h : y = c
  · subst h
    simp only [SM.put, upd, if_true] at hm
    rcases mem_flat hm with h | ⟨p, hp, h | h⟩
    · exact h1 _ h rfl
    · exact (h2 p hp).1 h
    · exact (h2 p hp).2 h
  · simp only [SM.put, upd, h, if_false] at hm
    exact S.alone y hy ⟨pol, hp, hm⟩

theorem safe_letGo {X : SM} {c k : Nat} (S : Safe X c) (hk : k ≠ c) : Safe { X with s := letGo X.s k } c := by
  classical
  refine ⟨?_, S.isMap, ?_, S.order, S.pairs, S.vp⟩
  · simp only [letGo, List.mem_filter]
    exact ⟨S.mem, by simpa using not_unref S.alone hk⟩
  · intro y hy
    exact S.alone y (List.mem_of_mem_filter hy)

theorem safe_add {X : SM} {c k v : Nat} (S : Safe X c) (hk : k ≠ c) (hv : v ≠ c) :
    Safe (stepAdd eqv X c k (some v)) c := by
  unfold stepAdd
  dsimp only
  split
  · have h := safe_put S { X.maps c with pairs := (X.maps c).pairs.map (fun p => if eqv k p.1 then (p.1, some v) else p) }
      S.order (by
        intro p hp
        simp only [List.mem_map] at hp
        obtain ⟨q, hq, rfl⟩ := hp
        have := S.pairs q hq
        split
        · exact ⟨this.1, by simpa using hv⟩
        · exact this) S.vp
    split
    · exact safe_letGo h hk
    · exact h
  · refine safe_put S _ ?_ ?_ S.vp
    · intro x hx
      simp only [List.mem_append, List.mem_singleton] at hx
      rcases hx with hx | rfl
      · exact S.order x hx
      · exact hk
    · intro p hp
      simp only [List.mem_append, List.mem_singleton] at hp
      rcases hp with hp | rfl
      · exact S.pairs p hp
      · exact ⟨hk, by simpa using hv⟩

theorem safe_remove {X : SM} {c k : Nat} (S : Safe X c) : Safe (stepRemove eqv X c k) c := by
  unfold stepRemove
  dsimp only
  split
  · exact safe_put S _ (fun x hx => S.order x (List.mem_of_mem_filter hx)) (fun p hp => S.pairs p (List.mem_of_mem_filter hp))
      S.vp
  · exact S

theorem safe_drop {X : SM} {c a : Nat} (S : Safe X c) (ha : a ≠ c) : Safe { X with s := X.s.drop a } c := by
  classical
  refine ⟨?_, S.isMap, ?_, S.order, S.pairs, S.vp⟩
  · simp only [Spec.drop, List.mem_filter]
    exact ⟨S.mem, by simpa using not_unref S.alone ha⟩
  · intro y hy
    exact S.alone y (List.mem_of_mem_filter hy)

theorem safe_step {X : SM} {c : Nat} (S : Safe X c) (a : Act) (ok : MOk eqv X (a.op c)) (hg : some c ∉ given a) :
    Safe (mstep eqv X (a.op c)) c := by
  cases a with
  | add k v =>
    simp only [given, List.mem_cons, Option.some.injEq, List.not_mem_nil, or_false, not_or] at hg
    exact safe_add S (Ne.symm hg.1) (Ne.symm hg.2)
  | remove k => exact safe_remove S
  | plain op =>
    obtain ⟨ok, ok2⟩ := ok
    cases op with
    | mk x =>
      have hx : x ≠ c := fun h => ok (h ▸ S.mem)
      refine ⟨List.mem_append_left _ S.mem, by simp [mstep, Act.op, upd, Ne.symm hx, S.isMap], ?_, S.order, S.pairs, S.vp⟩
      rintro y hy ⟨pol, hp, hm⟩
      by_cases h : y = x
      · subst h; simp [mstep, Act.op, specStep, mkBlock, upd] at hm
      · simp only [mstep, Act.op, specStep, mkBlock, upd, h, if_false, List.mem_append, List.mem_singleton, or_false] at hm hy
        exact S.alone y hy ⟨pol, hp, hm⟩
    | mkTuple x es =>
      have hx : x ≠ c := fun h => ok.1 (h ▸ S.mem)
      refine ⟨?_, by simp [mstep, Act.op, upd, Ne.symm hx, S.isMap], ?_, S.order, S.pairs, S.vp⟩
      · simp only [mstep, Act.op, specStep, addEdges_D]
        exact List.mem_append_left _ S.mem
      · rintro y hy ⟨pol, hp, hm⟩
        simp only [mstep, Act.op, specStep, addEdges_D, addEdges_kids] at hm hy
        by_cases h : y = x
        · subst h
          simp only [if_true, mkBlock, upd, List.nil_append] at hm
          exact hg (List.mem_map.2 ⟨_, hm, rfl⟩)
        · simp only [h, if_false, mkBlock, upd, List.mem_append, List.mem_singleton, or_false] at hm hy
          exact S.alone y hy ⟨pol, hp, hm⟩
    | append z e =>
      refine ⟨S.mem, S.isMap, ?_, S.order, S.pairs, S.vp⟩
      rintro y hy ⟨pol, hp, hm⟩
      simp only [mstep, Act.op, specStep, addEdge, upd] at hm
      split at hm
      · rename_i h
        subst h
        simp only [List.mem_append, List.mem_singleton] at hm
        rcases hm with hm | hm
        · exact S.alone _ hy ⟨pol, hp, hm⟩
        · exact hg (by simp [given, ← hm])
      · exact S.alone y hy ⟨pol, hp, hm⟩
    | remove z i =>
      refine ⟨S.mem, S.isMap, ?_, S.order, S.pairs, S.vp⟩
      rintro y hy ⟨pol, hp, hm⟩
      simp only [mstep, Act.op, specStep, upd] at hm
      split at hm
      · rename_i h
        subst h
        exact S.alone _ hy ⟨pol, hp, List.mem_of_mem_eraseIdx hm⟩
      · exact S.alone y hy ⟨pol, hp, hm⟩
    | incr p =>
      cases p with
      | none => exact S
      | some b => exact ⟨S.mem, S.isMap, S.alone, S.order, S.pairs, S.vp⟩
    | delRef p =>
      cases p with
      | none => exact S
      | some b => exact safe_drop S (by rintro rfl; exact hg (by simp [given]))
    | del p =>
      cases p with
      | none => exact S
      | some b => exact safe_drop S (by rintro rfl; exact hg (by simp [given]))

/-! ### what the map has -/

include E

theorem eqv_congr {k k' x : Nat} (h : eqv k k' = true) : eqv k x = eqv k' x := by
  cases h1 : eqv k x <;> cases h2 : eqv k' x <;> try rfl
  · rw [E.trans _ _ _ h h2] at h1; cases h1
  · rw [E.trans _ _ _ (E.symm _ _ h) h1] at h2; cases h2

theorem look_congr {k k' : Nat} (h : eqv k k' = true) (d : MapC) : look eqv d k = look eqv d k' := by
  unfold look
  rw [show (fun p : Nat × Ptr => eqv k p.1) = fun p => eqv k' p.1 from funext fun p => eqv_congr E h]

theorem look_add (X : SM) (c k k' : Nat) (v : Ptr) :
    look eqv ((stepAdd eqv X c k' v).maps c) k = if eqv k k' then some v else look eqv (X.maps c) k := by
  unfold stepAdd
  dsimp only
  split
  · rename_i hs
    have key : look eqv { X.maps c with pairs := (X.maps c).pairs.map (fun p => if eqv k' p.1 then (p.1, v) else p) } k =
        if eqv k k' then some v else look eqv (X.maps c) k := by
      unfold look
      dsimp only
      rw [List.find?_map]
      have hc : ((fun p : Nat × Ptr => eqv k p.1) ∘ fun p => if eqv k' p.1 then (p.1, v) else p) = fun p => eqv k p.1 := by
        funext p; simp only [Function.comp]; split <;> rfl
      rw [hc]
      by_cases h : eqv k k' = true
      · rw [← look_congr E h, look] at hs
        cases hf : (X.maps c).pairs.find? (fun p => eqv k p.1) with
        | none => rw [hf] at hs; cases hs
        | some p =>
          have hp : eqv k p.1 = true := by simpa using List.find?_some hf
          rw [eqv_congr E h] at hp
          simp [h, hp]
      · cases hf : (X.maps c).pairs.find? (fun p => eqv k p.1) with
        | none => simp [h]
        | some p =>
          have hp : eqv k p.1 = true := by simpa using List.find?_some hf
          have : eqv k' p.1 = false := by
            cases h2 : eqv k' p.1 with
            | false => rfl
            | true => exact absurd (E.trans _ _ _ hp (E.symm _ _ h2)) h
          simp [h, this]
    split <;> simpa [SM.put, upd] using key
  · rename_i hs
    simp only [SM.put, upd, if_true]
    by_cases h : eqv k k' = true
    · rw [← look_congr E h] at hs
      have hn : (X.maps c).pairs.find? (fun p => eqv k p.1) = none := by
        cases hf : (X.maps c).pairs.find? (fun p => eqv k p.1) with
        | none => rfl
        | some p => rw [look, hf] at hs; simp at hs
      simp [look, List.find?_append, hn, h]
    · simp only [look, List.find?_append, h]
      cases hf : (X.maps c).pairs.find? (fun p => eqv k p.1) <;> simp [h]

theorem look_remove (X : SM) (c k k' : Nat) :
    look eqv ((stepRemove eqv X c k').maps c) k = if eqv k k' then none else look eqv (X.maps c) k := by
  unfold stepRemove
  dsimp only
  split
  · simp only [SM.put, upd, if_true, look, List.find?_filter]
    by_cases h : eqv k k' = true
    · have : (fun p : Nat × Ptr => (!eqv k' p.1) && eqv k p.1) = fun _ => false := by
        funext p; rw [eqv_congr E h]; cases eqv k' p.1 <;> rfl
      simp [h, this]
    · have : (fun p : Nat × Ptr => (!eqv k' p.1) && eqv k p.1) = fun p => eqv k p.1 := by
        funext p
        cases hp : eqv k p.1 with
        | false => simp
        | true =>
          cases h2 : eqv k' p.1 with
          | false => rfl
          | true => exact absurd (E.trans _ _ _ hp (E.symm _ _ h2)) h
      simp [h, this]
  · rename_i hs
    by_cases h : eqv k k' = true
    · rw [← look_congr E h] at hs
      simp only [h, if_true]
      cases hl : look eqv (X.maps c) k with
      | none => rfl
      | some _ => rw [hl] at hs; simp at hs
    · simp [h]

theorem current_snoc (k : Nat) (as : List Act) (a : Act) : current eqv k (as ++ [a]) =
    match a with
    | .add k' v => if eqv k k' then some v else current eqv k as
    | .remove k' => if eqv k k' then none else current eqv k as
    | .plain _ => current eqv k as := by
  rw [current, List.foldl_append]
  cases a <;> rfl

omit E in
theorem mrun_snoc (ops : List MOp) (op : MOp) (X : SM) : mrun eqv X (ops ++ [op]) = mstep eqv (mrun eqv X ops) op := by
  induction ops generalizing X with
  | nil => rfl
  | cons o ops ih => exact ih _

omit E in
theorem legal_snoc (ops : List MOp) (op : MOp) (X : SM) :
    MLegal eqv X (ops ++ [op]) ↔ MLegal eqv X ops ∧ MOk eqv (mrun eqv X ops) op := by
  induction ops generalizing X with
  | nil => simp [MLegal, mrun]
  | cons o ops ih => simp only [List.cons_append, MLegal, mrun, ih, and_assoc]

/-- after a history: the map is there, and has what it should have -/
theorem history {X : SM} {c : Nat} (S : Safe X c) (h0 : (X.maps c).pairs = []) (as : List Act)
    (hl : MLegal eqv X (as.map (Act.op c))) (hg : ∀ a ∈ as, some c ∉ given a) :
    Safe (mrun eqv X (as.map (Act.op c))) c ∧
    ∀ k, (look eqv ((mrun eqv X (as.map (Act.op c))).maps c) k).getD none = current eqv k as := by
  induction as using List.reverseRecOn with
  | nil => exact ⟨S, fun k => by simp [mrun, look, h0, current]⟩
  | append_singleton as a ih =>
    rw [List.map_append, List.map_singleton] at hl ⊢
    rw [legal_snoc] at hl
    obtain ⟨S', ih⟩ := ih hl.1 fun a ha => hg a (List.mem_append_left _ ha)
    rw [mrun_snoc]
    refine ⟨safe_step S' a hl.2 (hg a (by simp)), fun k => ?_⟩
    rw [current_snoc E, ← ih k]
    cases a with
    | plain op => rfl
    | add k' v =>
      simp only [Act.op, mstep, look_add E]
      split <;> rfl
    | remove k' =>
      simp only [Act.op, mstep, look_remove E]
      split <;> rfl

omit E in
theorem run_eq (fuel c : Nat) (H : MHeap) (as : List Act) :
    run eqv fuel c H as = mexecAll eqv fuel H (as.map (Act.op c)) := by
  induction as generalizing H with
  | nil => rfl
  | cons a as ih =>
    rw [run, List.map_cons, mexecAll]
    have : step eqv fuel c H a = mexec eqv fuel H (a.op c) := by
      cases a with
      | plain op => rfl
      | add k v => rfl
      | remove k =>
        simp only [removeContext, step, Act.op, mexec]
        cases mapRemove eqv H c (some k) <;> rfl
    rw [this]
    cases mexec eqv fuel H (a.op c) with
    | ok o => cases o with
      | none => rfl
      | some H' => exact ih H'
    | ub => rfl
    | segv => rfl

/-- **C111**, for keys and values that are live blocks of the library (strings made with `cee_str_mk`, …), given by the
rules of C102: whatever a program does with blocks and contexts, `cee_state_get_context` gives the value that was added
last under an equal key, NULL if there is none or it was removed, for every key that can be read, block or not; and that
value is in memory and counted, so that dropping other references to it does not free it.  Missing: keys that are no
blocks (`C111_literal_false`), NULL (`C111_null_false`), and collections (`C111_collected_false`). -/
theorem C111_partial (c : Nat) (as : List Act)
    (hl : MLegal eqv specEmptyM (.mkMap c .rc .rc :: as.map (Act.op c))) (hg : ∀ a ∈ as, some c ∉ given a) :
    ∃ H, run eqv (as.length + 1) c (mapMk emptyM c .rc .rc) as = .ok (some H) ∧
      ∀ (k : Nat) (others : Nat → Bool), H.h.live k = true ∨ others k = true →
        getContext eqv { H with other := others } c (some k) = .ok (current eqv k as) ∧
        ∀ v, current eqv k as = some v → H.h.live v = true ∧ 1 ≤ H.h.deg v := by
  obtain ⟨H, e, G⟩ := mexecAll_spec E _ (good_empty eqv) hl (fuel := as.length + 1) (by simp [specEmptyM, specEmpty])
  rw [mexecAll] at e
  simp only [mexec] at e
  obtain ⟨S, hc⟩ := history E (X := mstep eqv specEmptyM (.mkMap c .rc .rc)) (c := c)
    ⟨by simp [mstep, mkBlock], by simp [mstep, upd], by
      rintro y hy ⟨pol, -, hm⟩
      simp [mstep, mkBlock, specEmptyM, specEmpty] at hy
      subst hy
      simp [mstep, mkBlock, upd] at hm, by simp [mstep, upd], by simp [mstep, upd],
      by simp [mstep, upd]⟩ (by simp [mstep, upd]) as hl.2 hg
  rw [mrun] at G
  refine ⟨H, by rw [run_eq, e], fun k others hk => ?_⟩
  have wf := G.wf c S.mem S.isMap
  generalize mrun eqv (mstep eqv specEmptyM (.mkMap c .rc .rc)) (as.map (Act.op c)) = X at *
  have hlive : ∀ x ∈ (X.maps c).order, H.h.live x = true := fun x hx =>
    (G.rel.live x).2 (G.rel.tgt c S.mem _ (wf.pts hx))
  have hp : ∀ p ∈ (X.maps c).pairs, H.h.live p.1 = true := fun p hp =>
    hlive _ (wf.perm.mem_iff.1 (List.mem_map.2 ⟨p, hp, rfl⟩))
  have hr : readable { H with other := others } c k = true := by
    simp only [readable, Bool.and_eq_true, List.all_eq_true, Bool.or_eq_true]
    rw [G.maps]
    exact ⟨⟨⟨(G.rel.live c).2 S.mem, hk⟩, fun p h => .inl (hp p h)⟩, fun x h => .inl (hlive x h)⟩
  have hv := hc k
  refine ⟨?_, ?_⟩
  · rw [getContext, mapFind, if_pos hr, ← hv]
    simp only [G.maps]
    cases hl : look eqv (X.maps c) k with
    | none =>
      rw [findPair_none.2 (by simpa [look] using hl)]
      rfl
    | some v =>
      obtain ⟨a, p, b, h1, h2⟩ := look_some E hl
      rw [h1, ← h2]
      rfl
  · intro v hcur
    rw [← hv] at hcur
    cases hl : look eqv (X.maps c) k with
    | none => rw [hl] at hcur; cases hcur
    | some w =>
      rw [hl] at hcur
      change w = some v at hcur
      subst hcur
      obtain ⟨a, p, b, h1, h2⟩ := look_some E hl
      have hpm : p ∈ (X.maps c).pairs := by rw [(findPair_some h1).1]; simp
      have hmem : (Policy.rc, some v) ∈ X.s.kids c := by
        rw [wf.kids, MapC.flat, List.mem_append, List.mem_flatMap]
        right
        exact ⟨p, hpm, by rw [S.vp, ← h2]; simp⟩
      have hD := G.rel.tgt c S.mem v ⟨.rc, by simp, hmem⟩
      refine ⟨(G.rel.live v).2 hD, ?_⟩
      rw [G.rel.deg v hD, Spec.rc]
      have := refs_pos (kids := X.s.kids) S.mem hmem
      omega

omit E

/-- three contexts under two keys: the key 2 is added and removed; the texts 1 and 101 are equal, so 5 replaces 4 (and the
string 101 is freed) -/
def demoC : List Act :=
  [.plain (.mk 1), .plain (.mk 4), .add 1 4, .plain (.mk 2), .plain (.mk 6), .add 2 6, .remove 2, .plain (.mk 101),
   .plain (.mk 5), .add 101 5]

/-- the hypotheses of `C111_partial` are met; the context is read with a string literal at 201 -/
example : MLegal eq2 specEmptyM (.mkMap 10 .rc .rc :: demoC.map (Act.op 10)) ∧ (∀ a ∈ demoC, some 10 ∉ given a) ∧
    current eq2 201 demoC = some 5 ∧ current eq2 2 demoC = none ∧
    ∃ H, run eq2 11 10 (mapMk emptyM 10 .rc .rc) demoC = .ok (some H) ∧ H.h.live 101 = false ∧
      getContext eq2 { H with other := fun x => x == 201 } 10 (some 201) = .ok (some 5) := by
  refine ⟨?_, by decide, by decide, by decide, _, rfl, by decide, by rfl⟩
  simp [demoC, Act.op, MLegal, MOk, OkOp, OkAdd, OkRemove, OkEdges, OkEdge, mstep, specStep, mkBlock, addEdge, Spec.rc,
    Spec.own, Spec.Floating, refs, upd, specEmpty, specEmptyM, look, stepAdd, stepRemove, SM.put, MapC.flat, eq2]

/-- **C111 is false** for a key that is no block of the library, like a string literal: `cee_state_add_context` takes a
`char *` and counts it as if it were a block.  Whatever the memory, the contexts and the value, this is undefined
behaviour. -/
theorem C111_literal_false (eqv : Nat → Nat → Bool) (fuel : Nat) (H : MHeap) (c k : Nat) (v : Ptr)
    (hk : H.h.live k = false) (hp : (H.maps c).kp = .rc) : addContext eqv fuel H c (some k) v = .ub := by
  simp only [addContext, mapAdd, mapAddE, hp, incrIndegree, incrRc, hk]
  split <;> rfl

/-- the contexts of a new state, and a string literal at 7 that can be read -/
example : ∃ H : MHeap, H.h.live 10 = true ∧ (H.maps 10).kp = .rc ∧ H.h.live 7 = false ∧ readable H 10 7 = true :=
  ⟨{ mapMk emptyM 10 .rc .rc with other := fun x => x == 7 }, by decide, by decide, by decide, by decide⟩

/-- **C111 is false** for the value NULL, which is counted too. -/
theorem C111_null_false (eqv : Nat → Nat → Bool) (fuel : Nat) (H : MHeap) (c k : Nat)
    (hk : (H.maps c).kp = .rc) (hv : (H.maps c).vp = .rc) : addContext eqv fuel H c (some k) none = .ub := by
  simp only [addContext, mapAdd, mapAddE, hk, hv, incrIndegree]
  split
  · cases h : incrRc H.h (some k) with
    | ok h' => rfl
    | ub => rfl
    | segv =>
      rw [incrRc] at h
      split at h
      · split at h <;> cases h
      · cases h
  · rfl

example : ((mapMk emptyM 10 .rc .rc).maps 10).kp = .rc ∧ ((mapMk emptyM 10 .rc .rc).maps 10).vp = .rc := by decide

/-- **C111 is false** after a collection: whatever the addresses, the first `cee_state_gc` of a new state frees the list of
the keys of the contexts, which the contexts still point to; adding a context writes to it, which is undefined
behaviour. -/
theorem C111_collected_false {r s o c : Nat} (hnd : [0, r, s, o, c].Nodup) :
    ∃ h0 h', Gc.stateMk r s o c = .ok h0 ∧ Gc.gc 2 5 h0 = .ok (some h') ∧ h'.ch.live c = true ∧
      h'.obj c = .map (some o) [] ∧ ∀ k, Gc.store h' o (.node [k]) = .ub := by
  obtain ⟨h0, h', e0, e1, -, -, h1, h2⟩ := Gc.Props.C19_private_parts_false hnd
  have ho : h'.obj = h0.obj := by
    unfold Gc.gc at e1
    dsimp only at e1
    split at e1 <;> try cases e1
    split at e1 <;> cases e1
    rfl
  have hc : h'.obj c = .map (some o) [] := by
    rw [ho, Gc.Props.stateMk_obj e0]
    simp only [List.nodup_cons, List.mem_cons, List.not_mem_nil, or_false, not_or] at hnd
    simp [upd, Ne.symm hnd.1.2.2.2]
  refine ⟨h0, h', e0, e1, h1, hc, fun k => ?_⟩
  rw [Gc.store, if_neg]
  intro hl
  refine h2 fun b hb => ?_
  rw [hc] at hb
  simp only [Gc.Obj.holds, List.mem_cons, Option.some.injEq, List.not_mem_nil, or_false] at hb
  rw [hb]; exact hl

example : [0, 1, 2, 3, 4].Nodup := by decide

end Verif.Rc.ContextProps
