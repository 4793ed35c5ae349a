import Verif.Rc.Model
import Mathlib.Algebra.BigOperators.Group.List.Basic

/-! # Lemmas about reference counting -/

namespace Verif.Rc
open Verif.Chain (upd)

/-- number of pointers to `x` with policy `pol` held by the blocks of `D` -/
def refs (kids : Nat → List Edge) (D : List Nat) (pol : Policy) (x : Nat) : Nat :=
  (D.map (fun y => (kids y).count (pol, some x))).sum

/-- `y` holds a counted or owning pointer to `x` -/
def Pts (kids : Nat → List Edge) (y x : Nat) : Prop :=
  ∃ pol, pol ≠ Policy.noop ∧ (pol, some x) ∈ kids y

/-- The blocks of `D` that lose their last reference when the reference to `a` goes away: `a`
itself, if the program holds no other reference and all blocks pointing to it are being freed; and
every block that is referenced, not by the program, and only by blocks that are being freed. -/
inductive Unref (kids : Nat → List Edge) (D : List Nat) (ext : Nat → Nat) (a : Nat) : Nat → Prop where
  | intro (x : Nat) : x ∈ D → ext x = 0 → (x = a ∨ ∃ y ∈ D, Pts kids y x) →
      (∀ y ∈ D, Pts kids y x → Unref kids D ext a y) → Unref kids D ext a x

theorem refs_erase (kids : Nat → List Edge) {D : List Nat} {b : Nat} (hb : b ∈ D) (pol : Policy)
    (x : Nat) : refs kids D pol x = refs kids (D.erase b) pol x + (kids b).count (pol, some x) := by
  have := List.sum_map_erase (fun y => (kids y).count (pol, some x)) hb
  unfold refs
  omega

theorem refs_pos {kids : Nat → List Edge} {D : List Nat} {pol : Policy} {x y : Nat} (hy : y ∈ D)
    (h : (pol, some x) ∈ kids y) : 0 < refs kids D pol x := by
  rw [refs_erase kids hy]
  have := List.count_pos_iff.2 h
  omega

theorem refs_zero {kids : Nat → List Edge} {D : List Nat} {x : Nat}
    (h1 : refs kids D .rc x = 0) (h2 : refs kids D .del x = 0) {y : Nat} (hy : y ∈ D) :
    ¬ Pts kids y x := by
  rintro ⟨pol, hn, hm⟩
  have := refs_pos hy hm
  cases pol with
  | rc => omega
  | del => omega
  | noop => exact hn rfl

theorem refs_eq_zero_of {kids : Nat → List Edge} {D : List Nat} {pol : Policy} {x : Nat}
    (hn : pol ≠ .noop) (h : ∀ y ∈ D, ¬ Pts kids y x) : refs kids D pol x = 0 := by
  induction D with
  | nil => rfl
  | cons d D ih =>
    have h1 : (kids d).count (pol, some x) = 0 :=
      List.count_eq_zero.2 (fun hm => h d (by simp) ⟨pol, hn, hm⟩)
    have h2 := ih (fun y hy => h y (List.mem_cons_of_mem _ hy))
    simp only [refs, List.map_cons, List.sum_cons] at h2 ⊢
    omega

/-- what the original heap looked like and what the program holds after dropping its reference -/
structure Ctx where
  D0 : List Nat
  kids : Nat → List Edge
  ret : Nat → Bool
  ext : Nat → Nat
  a : Nat
  /-- blocks without any reference to begin with -/
  Z : Nat → Prop

/-- Invariant in the middle of a deletion: `D` the live blocks not being deleted, `S` the blocks
whose trace function is running, `P` the pointers still to be dropped by those. -/
structure IInv (c : Ctx) (h : RHeap) (D S : List Nat) (P : List Edge) : Prop where
  kids : h.kids = c.kids
  ret : h.ret = c.ret
  nodup : (S ++ D).Nodup
  live : ∀ x, h.live x = true ↔ x ∈ S ++ D
  sub : ∀ x ∈ D, x ∈ c.D0
  tgtD : ∀ y ∈ D, ∀ x, Pts c.kids y x → x ∈ D
  tgtP : ∀ pol x, (pol, some x) ∈ P → pol ≠ .noop → x ∈ D
  src : ∀ pol x, (pol, some x) ∈ P → pol ≠ .noop → x = c.a ∨ ∃ y ∈ c.D0, Pts c.kids y x
  ext : ∀ x, 0 < c.ext x → x ∈ D
  deg : ∀ x ∈ D,
    h.deg x = refs c.kids D .rc x + P.count (.rc, some x) + c.ext x
  own : ∀ x ∈ D, refs c.kids D .del x + P.count (.del, some x) = if c.ret x then 1 else 0
  excl : ∀ x ∈ D, c.ret x = true → refs c.kids D .rc x + P.count (.rc, some x) + c.ext x = 0
  gone : ∀ y ∈ c.D0, y ∉ D → Unref c.kids c.D0 c.ext c.a y
  keep : ∀ x ∈ D, refs c.kids D .rc x + refs c.kids D .del x + P.count (.rc, some x) +
    P.count (.del, some x) + c.ext x = 0 → c.Z x

theorem count_cons' (e : Edge) (es : List Edge) (f : Edge) :
    (e :: es).count f = es.count f + if e = f then 1 else 0 := by
  rw [List.count_cons]
  congr 1
  by_cases h : e = f <;> simp [h]

/-- block `b`, to which the last pointer is being dropped, starts its own deletion -/
theorem IInv.enter {c : Ctx} {h : RHeap} {D S : List Nat} {es : List Edge} {pol : Policy} {b : Nat}
    (I : IInv c h D S ((pol, some b) :: es)) (hp : pol ≠ .noop)
    (h1 : refs c.kids D .rc b = 0) (h2 : refs c.kids D .del b = 0)
    (h3 : es.count (.rc, some b) = 0) (h4 : es.count (.del, some b) = 0) (h5 : c.ext b = 0)
    (g : RHeap) (gk : g.kids = h.kids) (gr : g.ret = h.ret) (gl : g.live = h.live)
    (gd : ∀ x, x ≠ b → g.deg x = h.deg x) :
    IInv c g (D.erase b) (b :: S) (c.kids b ++ es) := by
  have hb : b ∈ D := I.tgtP pol b (by simp) hp
  have hndD : D.Nodup := (List.nodup_append.1 I.nodup).2.1
  have mem : ∀ x, x ∈ D.erase b ↔ x ≠ b ∧ x ∈ D := fun x => hndD.mem_erase_iff
  have nob : ∀ y ∈ D, ¬ Pts c.kids y b := fun y hy => refs_zero h1 h2 hy
  have cnt : ∀ (q : Policy) x, x ≠ b →
      (((pol, some b) :: es : List Edge)).count (q, some x) = es.count (q, some x) := by
    intro q x hx
    rw [count_cons', if_neg]
    · rfl
    · simp only [Prod.mk.injEq, Option.some.injEq, not_and]; intro _ e; exact hx e.symm
  have re := refs_erase c.kids hb
  refine ⟨by rw [gk]; exact I.kids, by rw [gr]; exact I.ret, ?_, ?_, ?_, ?_, ?_, ?_, ?_, ?_, ?_, ?_,
    ?_, ?_⟩
  · have hd := List.nodup_append.1 I.nodup
    rw [List.cons_append, List.nodup_cons]
    refine ⟨?_, ?_⟩
    · rw [List.mem_append, mem]
      rintro (hx | hx)
      · exact hd.2.2 b hx b hb rfl
      · exact hx.1 rfl
    · rw [List.nodup_append]
      exact ⟨hd.1, hndD.erase b, fun x hx y hy => hd.2.2 x hx y ((mem y).1 hy).2⟩
  · intro x
    rw [gl, I.live, List.cons_append, List.mem_cons, List.mem_append, List.mem_append, mem]
    by_cases hx : x = b
    · subst hx; simp [hb]
    · simp [hx]
  · intro x hx; exact I.sub x ((mem x).1 hx).2
  · intro y hy x hx
    rw [mem]
    refine ⟨?_, I.tgtD y ((mem y).1 hy).2 x hx⟩
    rintro rfl
    exact nob y ((mem y).1 hy).2 hx
  · intro q x hx hq
    rw [mem]
    rw [List.mem_append] at hx
    rcases hx with hx | hx
    · refine ⟨?_, I.tgtD b hb x ⟨q, hq, hx⟩⟩
      rintro rfl
      exact nob x hb ⟨q, hq, hx⟩
    · refine ⟨?_, I.tgtP q x (List.mem_cons_of_mem _ hx) hq⟩
      rintro rfl
      have := List.count_pos_iff.2 ‹(q, some x) ∈ es›
      cases q with
      | rc => omega
      | del => omega
      | noop => exact hq rfl
  · intro q x hx hq
    rcases List.mem_append.1 hx with hx | hx
    · exact .inr ⟨b, I.sub b hb, q, hq, hx⟩
    · exact I.src q x (List.mem_cons_of_mem _ hx) hq
  · intro x hx
    rw [mem]
    refine ⟨?_, I.ext x hx⟩
    rintro rfl
    omega
  · intro x hx
    obtain ⟨hxb, hxD⟩ := (mem x).1 hx
    rw [gd x hxb, I.deg x hxD, cnt _ _ hxb, re, List.count_append]
    omega
  · intro x hx
    obtain ⟨hxb, hxD⟩ := (mem x).1 hx
    rw [← I.own x hxD, cnt _ _ hxb, re, List.count_append]
    omega
  · intro x hx hr
    obtain ⟨hxb, hxD⟩ := (mem x).1 hx
    have := I.excl x hxD hr
    rw [cnt _ _ hxb, re] at this
    rw [List.count_append]
    omega
  · intro y hy hny
    rw [mem] at hny
    by_cases hyb : y = b
    · subst hyb
      refine .intro y hy h5 (I.src pol y (by simp) hp) ?_
      intro z hz hzp
      by_cases hzD : z ∈ D
      · exact absurd hzp (nob z hzD)
      · exact I.gone z hz hzD
    · exact I.gone y hy (fun hyD => hny ⟨hyb, hyD⟩)
  · intro x hx ht
    obtain ⟨hxb, hxD⟩ := (mem x).1 hx
    apply I.keep x hxD
    rw [cnt _ _ hxb, cnt _ _ hxb, re, re]
    rw [List.count_append, List.count_append] at ht
    omega

/-- a pointer that is neither counted nor owning is dropped without effect -/
theorem IInv.skip {c : Ctx} {h : RHeap} {D S : List Nat} {es : List Edge} {e : Edge}
    (I : IInv c h D S (e :: es)) (he : e.1 = .noop ∨ e.2 = none) : IInv c h D S es := by
  have cnt : ∀ (q : Policy) x, q ≠ .noop →
      ((e :: es : List Edge)).count (q, some x) = es.count (q, some x) := by
    intro q x hq
    rw [count_cons', if_neg]
    · rfl
    · rintro rfl
      rcases he with he | he
      · exact hq he
      · simp at he
  have h1 : ∀ x, ((e :: es : List Edge)).count (.rc, some x) = es.count (.rc, some x) :=
    fun x => cnt _ x (by decide)
  have h2 : ∀ x, ((e :: es : List Edge)).count (.del, some x) = es.count (.del, some x) :=
    fun x => cnt _ x (by decide)
  refine ⟨I.kids, I.ret, I.nodup, I.live, I.sub, I.tgtD,
    fun q x hx => I.tgtP q x (List.mem_cons_of_mem _ hx),
    fun q x hx => I.src q x (List.mem_cons_of_mem _ hx), I.ext, ?_, ?_, ?_, I.gone, ?_⟩
  · intro x hx; rw [I.deg x hx, h1]
  · intro x hx; rw [← I.own x hx, h2]
  · intro x hx hr; rw [← h1]; exact I.excl x hx hr
  · intro x hx ht; exact I.keep x hx (by rw [h1, h2]; exact ht)

/-- dropping one of several counted pointers -/
theorem IInv.drop {c : Ctx} {h : RHeap} {D S : List Nat} {es : List Edge} {b : Nat}
    (I : IInv c h D S ((.rc, some b) :: es)) (hr : c.ret b = false)
    (hd : h.deg b ≠ 1) :
    IInv c { h with deg := upd h.deg b (h.deg b - 1) } D S es := by
  have hb : b ∈ D := I.tgtP .rc b (by simp) (by decide)
  have h1 : ∀ x, x ≠ b →
      (((.rc, some b) :: es : List Edge)).count (.rc, some x) = es.count (.rc, some x) := by
    intro x hx
    rw [count_cons', if_neg]
    · rfl
    · simp only [Prod.mk.injEq, Option.some.injEq, true_and]; exact fun e => hx e.symm
  have h1b : (((.rc, some b) :: es : List Edge)).count (.rc, some b) =
      es.count (.rc, some b) + 1 := by rw [count_cons', if_pos rfl]
  have h2 : ∀ x, (((.rc, some b) :: es : List Edge)).count (.del, some x) =
      es.count (.del, some x) := by
    intro x
    rw [count_cons', if_neg]
    · rfl
    · simp
  have hdeg := I.deg b hb
  rw [h1b] at hdeg
  refine ⟨I.kids, I.ret, I.nodup, I.live, I.sub, I.tgtD,
    fun q x hx => I.tgtP q x (List.mem_cons_of_mem _ hx),
    fun q x hx => I.src q x (List.mem_cons_of_mem _ hx), I.ext, ?_, ?_, ?_, I.gone, ?_⟩
  · intro x hx
    by_cases hxb : x = b
    · subst hxb; simp only [upd, if_true]; omega
    · simp only [upd, if_neg hxb]; rw [I.deg x hx, h1 x hxb]
  · intro x hx; rw [← I.own x hx, h2]
  · intro x hx hr'
    have hxb : x ≠ b := by rintro rfl; rw [hr] at hr'; simp at hr'
    rw [← h1 x hxb]; exact I.excl x hx hr'
  · intro x hx ht
    by_cases hxb : x = b
    · subst hxb; omega
    · exact I.keep x hx (by rw [h1 x hxb, h2]; exact ht)

theorem IInv.free {c : Ctx} {h : RHeap} {D S : List Nat} {P : List Edge} {a : Nat}
    (I : IInv c h D (a :: S) P) :
    freeBlock h a = .ok (some { h with live := upd h.live a false }) ∧
      IInv c { h with live := upd h.live a false } D S P := by
  have hl : h.live a = true := (I.live a).2 (by simp)
  have hnd := I.nodup
  rw [List.cons_append, List.nodup_cons] at hnd
  refine ⟨by rw [freeBlock, if_pos hl], I.kids, I.ret, hnd.2, ?_, I.sub, I.tgtD, I.tgtP, I.src, I.ext,
    I.deg, I.own, I.excl, I.gone, I.keep⟩
  intro x
  by_cases hx : x = a
  · subst hx; simp only [upd, if_true, Bool.false_eq_true, false_iff]; exact hnd.1
  · simp only [upd, if_neg hx]
    rw [I.live, List.cons_append, List.mem_cons]
    simp [hx]

/-- statement of `delLoop_spec` for one recursion depth -/
def LoopOk (c : Ctx) (fuel : Nat) : Prop := ∀ (es : List Edge) (h : RHeap) (D S : List Nat)
    (P : List Edge) (a : Nat), a ∈ S → D.length ≤ fuel → IInv c h D S (es ++ P) →
    ∃ h' D', delLoop (traceDel fuel) a h es = .ok (some h') ∧ IInv c h' D' S P ∧
      D'.length ≤ D.length

theorem traceDel_spec {c : Ctx} {fuel : Nat} (ihf : LoopOk c fuel) {h : RHeap} {D S : List Nat}
    {P : List Edge} {b : Nat} (hD : D.length ≤ fuel) (I : IInv c h D (b :: S) (c.kids b ++ P)) :
    ∃ h' D', traceDel (fuel + 1) h b = .ok (some h') ∧ IInv c h' D' S P ∧
      D'.length ≤ D.length := by
  obtain ⟨h1, D1, e1, I1, l1⟩ := ihf (c.kids b) h D (b :: S) P b (by simp) hD I
  obtain ⟨e2, I2⟩ := I1.free
  refine ⟨_, D1, ?_, I2, l1⟩
  rw [traceDel, I.kids, e1]
  exact e2

/-- dropping one pointer -/
theorem delE_spec {c : Ctx} {fuel : Nat} (ihf : LoopOk c fuel) {h : RHeap} {D S : List Nat}
    {P : List Edge} {e : Edge} (hD : D.length ≤ fuel + 1) (I : IInv c h D S (e :: P)) :
    ∃ h1 D1, delE (traceDel (fuel + 1)) h e = .ok (some h1) ∧ IInv c h1 D1 S P ∧
      D1.length ≤ D.length := by
  obtain ⟨pol, p⟩ := e
  by_cases hp : pol = .noop
  · subst hp; exact ⟨h, D, rfl, I.skip (.inl rfl), Nat.le_refl _⟩
  cases p with
  | none =>
    refine ⟨h, D, ?_, I.skip (.inr rfl), Nat.le_refl _⟩
    cases pol <;> rfl
  | some b =>
    have hb : b ∈ D := I.tgtP pol b (by simp) hp
    have hlb : h.live b = true := (I.live b).2 (List.mem_append_right _ hb)
    have hlen : (D.erase b).length ≤ fuel := by rw [List.length_erase_of_mem hb]; omega
    have hlen' : (D.erase b).length ≤ D.length := by rw [List.length_erase_of_mem hb]; omega
    cases pol with
    | noop => exact absurd rfl hp
    | rc =>
      have hret : c.ret b = false := by
        cases hr : c.ret b with
        | false => rfl
        | true =>
          have := I.excl b hb hr
          rw [count_cons', if_pos rfl] at this
          omega
      have hdeg := I.deg b hb
      rw [count_cons', if_pos rfl] at hdeg
      have hne : h.deg b ≠ 0 := by omega
      have hr1 : h.ret b = false := by rw [I.ret]; exact hret
      by_cases h1 : h.deg b = 1
      · have hown := I.own b hb
        rw [count_cons', if_neg (by simp), hret] at hown
        simp only [Bool.false_eq_true, if_false] at hown
        have I1 := I.enter (by decide) (by omega) (by omega) (by omega) (by omega) (by omega)
          { h with deg := upd h.deg b (h.deg b - 1) } rfl rfl rfl
          (fun x hx => by simp [upd, hx])
        obtain ⟨h2, D2, e2, I2, l2⟩ := traceDel_spec ihf hlen I1
        refine ⟨h2, D2, ?_, I2, by omega⟩
        rw [delE, delRefWith, if_pos hlb]
        simp only [if_pos hne, hr1, Bool.false_eq_true, if_false]
        rw [if_pos (by simp [upd, h1])]
        exact e2
      · refine ⟨_, D, ?_, I.drop hret h1, Nat.le_refl _⟩
        rw [delE, delRefWith, if_pos hlb]
        simp only [if_pos hne, hr1, Bool.false_eq_true, if_false]
        rw [if_neg (by simp only [upd, if_true]; omega)]
    | del =>
      have hown := I.own b hb
      rw [count_cons', if_pos rfl] at hown
      have hret : c.ret b = true := by
        cases hr : c.ret b with
        | true => rfl
        | false => rw [hr] at hown; simp at hown
      rw [hret] at hown
      simp only [if_true] at hown
      have hex := I.excl b hb hret
      rw [count_cons', if_neg (by simp)] at hex
      have I1 := I.enter (by decide) (by omega) (by omega) (by omega) (by omega) (by omega)
        h rfl rfl rfl (fun x hx => rfl)
      obtain ⟨h2, D2, e2, I2, l2⟩ := traceDel_spec ihf hlen I1
      refine ⟨h2, D2, ?_, I2, by omega⟩
      rw [delE, delWith, if_pos hlb]
      exact e2

/-- deleting the pointers of a block (and, recursively, whatever loses its last reference) -/
theorem delLoop_spec (c : Ctx) (fuel : Nat) : LoopOk c fuel := by
  induction fuel with
  | zero =>
    intro es
    induction es with
    | nil => intro h D S P a _ _ I; exact ⟨h, D, rfl, I, Nat.le_refl _⟩
    | cons e es ih =>
      intro h D S P a ha hD I
      have hla : h.live a = true := (I.live a).2 (List.mem_append_left _ ha)
      have hD0 : D = [] := List.length_eq_zero_iff.1 (by omega)
      have hsk : e.1 = .noop ∨ e.2 = none := by
        obtain ⟨pol, p⟩ := e
        by_cases hp : pol = .noop
        · exact .inl hp
        · right
          cases p with
          | none => rfl
          | some b =>
            have := I.tgtP pol b (by simp) hp
            rw [hD0] at this
            simp at this
      obtain ⟨h', D', e', I', l'⟩ := ih h D S P a ha hD (I.skip hsk)
      refine ⟨h', D', ?_, I', l'⟩
      have : delE (traceDel 0) h e = .ok (some h) := by
        obtain ⟨pol, p⟩ := e
        rcases hsk with hs | hs
        · simp only at hs; subst hs; rfl
        · simp only at hs; subst hs; cases pol <;> rfl
      rw [delLoop, if_pos hla, this]
      exact e'
  | succ fuel ihf =>
    intro es
    induction es with
    | nil => intro h D S P a _ _ I; exact ⟨h, D, rfl, I, Nat.le_refl _⟩
    | cons e es ih =>
      intro h D S P a ha hD I
      have hla : h.live a = true := (I.live a).2 (List.mem_append_left _ ha)
      obtain ⟨h1, D1, e1, I1, l1⟩ := delE_spec ihf hD I
      obtain ⟨h', D', e', I', l'⟩ := ih h1 D1 S P a ha (by omega) I1
      refine ⟨h', D', ?_, I', by omega⟩
      rw [delLoop, if_pos hla, e1]
      exact e'

end Verif.Rc
