import Verif.Rc.GcRc

/-!
# C107: reference counting and garbage collection together (state.c, cee-common.c)
-/

namespace Verif.Rc.GcProps
open Verif.Chain (upd)
open Verif.Rc.Props

/-! ## more blocks in memory do not matter -/

/-- the same memory with more live blocks -/
def wide (Z : Nat → Bool) (h : RHeap) : RHeap := { h with live := fun x => h.live x || Z x }

theorem wide_live {Z : Nat → Bool} {h : RHeap} {a : Nat} (hl : h.live a = true) : (wide Z h).live a = true := by
  simp [wide, hl]

theorem incrRc_wide (Z : Nat → Bool) {h h' : RHeap} {p : Ptr} (e : incrRc h p = .ok h') :
    incrRc (wide Z h) p = .ok (wide Z h') := by
  cases p with
  | none => cases e
  | some a =>
    simp only [incrRc] at e ⊢
    by_cases hl : h.live a = true
    · rw [if_pos hl] at e
      rw [if_pos (wide_live hl)]
      by_cases hr : h.ret a = true
      · rw [if_pos hr] at e; cases e; exact if_pos hr
      · rw [if_neg hr] at e; cases e; exact if_neg hr
    · rw [if_neg hl] at e; cases e

theorem retain_wide (Z : Nat → Bool) {h h' : RHeap} {p : Ptr} (e : retain h p = .ok h') :
    retain (wide Z h) p = .ok (wide Z h') := by
  cases p with
  | none => cases e
  | some a =>
    simp only [retain] at e ⊢
    by_cases hl : h.live a = true
    · rw [if_pos hl] at e; rw [if_pos (wide_live hl)]; cases e; rfl
    · rw [if_neg hl] at e; cases e

theorem release_wide (Z : Nat → Bool) {h h' : RHeap} {p : Ptr} (e : release h p = .ok h') :
    release (wide Z h) p = .ok (wide Z h') := by
  cases p with
  | none => cases e
  | some a =>
    simp only [release] at e ⊢
    by_cases hl : h.live a = true
    · rw [if_pos hl] at e
      rw [if_pos (wide_live hl)]
      by_cases hr : h.ret a = true
      · rw [if_pos hr] at e; cases e; exact if_pos hr
      · rw [if_neg hr] at e; cases e
    · rw [if_neg hl] at e; cases e

theorem decrRc_wide (Z : Nat → Bool) {h h' : RHeap} {p : Ptr} (e : decrRc h p = .ok h') :
    decrRc (wide Z h) p = .ok (wide Z h') := by
  cases p with
  | none => cases e
  | some a =>
    simp only [decrRc] at e ⊢
    by_cases hl : h.live a = true
    · rw [if_pos hl] at e
      rw [if_pos (wide_live hl)]
      by_cases hr : h.ret a = true
      · rw [if_pos hr] at e; cases e; exact if_pos hr
      · rw [if_neg hr] at e
        rw [if_neg (show ¬ (wide Z h).ret a = true from hr)]
        by_cases hd : h.deg a ≠ 0
        · rw [if_pos hd] at e; cases e; exact if_pos hd
        · rw [if_neg hd] at e; cases e; exact if_neg hd
    · rw [if_neg hl] at e; cases e

theorem incrIndegree_wide (Z : Nat → Bool) {h h' : RHeap} {ed : Edge} (e : incrIndegree h ed = .ok h') :
    incrIndegree (wide Z h) ed = .ok (wide Z h') := by
  obtain ⟨pol, p⟩ := ed
  cases pol with
  | rc => exact incrRc_wide Z e
  | del => exact retain_wide Z e
  | noop => cases e; rfl

theorem decrIndegree_wide (Z : Nat → Bool) {h h' : RHeap} {ed : Edge} (e : decrIndegree h ed = .ok h') :
    decrIndegree (wide Z h) ed = .ok (wide Z h') := by
  obtain ⟨pol, p⟩ := ed
  cases pol with
  | rc => exact decrRc_wide Z e
  | del => exact release_wide Z e
  | noop => cases e; rfl

theorem incrAll_wide (Z : Nat → Bool) (es : List Edge) : ∀ {h h' : RHeap}, incrAll h es = .ok h' →
    incrAll (wide Z h) es = .ok (wide Z h') := by
  induction es with
  | nil => intro h h' e; cases e; rfl
  | cons ed es ih =>
    intro h h' e
    obtain ⟨g, e1, e2⟩ := Res.bind_eq_ok.1 e
    rw [incrAll, incrIndegree_wide Z e1]
    exact ih e2

theorem newBlock_wide (Z : Nat → Bool) (h : RHeap) (x : Nat) (es : List Edge) :
    newBlock (wide Z h) x es = wide Z (newBlock h x es) := by
  simp only [newBlock, wide, RHeap.mk.injEq, and_true]
  funext z
  by_cases hz : z = x <;> simp [upd, hz]

/-- the blocks of `Z` are others -/
def Apart (Z : Nat → Bool) (h : RHeap) : Prop := ∀ x, h.live x = true → Z x = false

theorem Apart.deg {Z : Nat → Bool} {h : RHeap} (a : Apart Z h) (d : Nat → Nat) : Apart Z { h with deg := d } := a

theorem delRefWith_wide {Z : Nat → Bool} {tr : RHeap → Nat → Res (Option RHeap)}
    (ht : ∀ h h' b, Apart Z h → tr h b = .ok (some h') → tr (wide Z h) b = .ok (some (wide Z h'))) {h h' : RHeap} {p : Ptr}
    (ap : Apart Z h) (e : delRefWith tr h p = .ok (some h')) : delRefWith tr (wide Z h) p = .ok (some (wide Z h')) := by
  cases p with
  | none => cases e; rfl
  | some a =>
    have tail : ∀ h1 : RHeap, Apart Z h1 →
        (if h1.ret a then .ok (some h1) else if h1.deg a = 0 then tr h1 a else .ok (some h1)) = Res.ok (some h') →
        (if (wide Z h1).ret a then .ok (some (wide Z h1)) else if (wide Z h1).deg a = 0 then tr (wide Z h1) a
          else .ok (some (wide Z h1))) = Res.ok (some (wide Z h')) := by
      intro h1 ap1 e1
      by_cases hr : h1.ret a = true
      · rw [if_pos hr] at e1; cases e1; exact if_pos hr
      · rw [if_neg hr] at e1
        rw [if_neg (show ¬ (wide Z h1).ret a = true from hr)]
        by_cases h0 : h1.deg a = 0
        · rw [if_pos h0] at e1
          rw [if_pos (show (wide Z h1).deg a = 0 from h0)]
          exact ht _ _ _ ap1 e1
        · rw [if_neg h0] at e1
          rw [if_neg (show ¬ (wide Z h1).deg a = 0 from h0)]
          cases e1; rfl
    simp only [delRefWith] at e ⊢
    by_cases hl : h.live a = true
    · rw [if_pos hl] at e
      rw [if_pos (wide_live hl)]
      by_cases hd : h.deg a ≠ 0
      · rw [if_pos hd] at e
        rw [if_pos (show (wide Z h).deg a ≠ 0 from hd)]
        exact tail _ (Apart.deg ap _) e
      · rw [if_neg hd] at e
        rw [if_neg (show ¬ (wide Z h).deg a ≠ 0 from hd)]
        exact tail _ ap e
    · rw [if_neg hl] at e; cases e

theorem delWith_wide {Z : Nat → Bool} {tr : RHeap → Nat → Res (Option RHeap)}
    (ht : ∀ h h' b, Apart Z h → tr h b = .ok (some h') → tr (wide Z h) b = .ok (some (wide Z h'))) {h h' : RHeap} {p : Ptr}
    (ap : Apart Z h) (e : delWith tr h p = .ok (some h')) : delWith tr (wide Z h) p = .ok (some (wide Z h')) := by
  cases p with
  | none => cases e; rfl
  | some a =>
    simp only [delWith] at e ⊢
    by_cases hl : h.live a = true
    · rw [if_pos hl] at e; rw [if_pos (wide_live hl)]; exact ht _ _ _ ap e
    · rw [if_neg hl] at e; cases e

theorem delE_wide {Z : Nat → Bool} {tr : RHeap → Nat → Res (Option RHeap)}
    (ht : ∀ h h' b, Apart Z h → tr h b = .ok (some h') → tr (wide Z h) b = .ok (some (wide Z h'))) {h h' : RHeap} {ed : Edge}
    (ap : Apart Z h) (e : delE tr h ed = .ok (some h')) : delE tr (wide Z h) ed = .ok (some (wide Z h')) := by
  obtain ⟨pol, p⟩ := ed
  cases pol with
  | rc => exact delRefWith_wide ht ap e
  | del => exact delWith_wide ht ap e
  | noop => cases e; rfl

theorem traceDel_wide (Z : Nat → Bool) (fuel : Nat) : ∀ h h' b, Apart Z h → traceDel fuel h b = .ok (some h') →
    traceDel fuel (wide Z h) b = .ok (some (wide Z h')) := by
  induction fuel with
  | zero => intro h h' b _ e; cases e
  | succ fuel ih =>
    intro h h' b ap e
    obtain ⟨g, e1, hl, rfl⟩ := traceDel_succ e
    have loop : ∀ (es : List Edge) (h h1 : RHeap), Apart Z h → delLoop (traceDel fuel) b h es = .ok (some h1) →
        delLoop (traceDel fuel) b (wide Z h) es = .ok (some (wide Z h1)) ∧ Apart Z h1 := by
      intro es
      induction es with
      | nil => intro h h1 ap e; cases e; exact ⟨rfl, ap⟩
      | cons ed es ihe =>
        intro h h1 ap e
        obtain ⟨hb, g, e1, e2⟩ := delLoop_cons e
        have ap1 : Apart Z g := by
          obtain ⟨d, rfl | ⟨z, -, hz⟩⟩ := delE_cases e1
          · exact ap
          · exact fun x hx => ap x ((traceDel_shrink _ _ _ _ hz).1.mono x hx)
        rw [delLoop, if_pos (wide_live hb), delE_wide ih ap e1]
        exact ihe g h1 ap1 e2
    obtain ⟨e2, ap2⟩ := loop _ _ _ ap e1
    rw [traceDel]
    rw [show (wide Z h).kids b = h.kids b from rfl, e2]
    simp only [freeBlock]
    rw [if_pos (wide_live hl)]
    congr 2
    simp only [wide, RHeap.mk.injEq, and_true]
    funext z
    by_cases hz : z = b
    · subst hz; simp [upd, ap2 z hl]
    · simp [upd, hz]

theorem exec_wide {Z : Nat → Bool} {fuel : Nat} {h h' : RHeap} (op : Op) (ap : Apart Z h)
    (e : exec fuel h op = .ok (some h')) : exec fuel (wide Z h) op = .ok (some (wide Z h')) := by
  have some_of : ∀ {r : Res RHeap}, r.map some = .ok (some h') → r = .ok h' := by
    intro r er
    cases r with
    | ok a => cases er; rfl
    | ub => cases er
    | segv => cases er
  cases op with
  | mk x => cases e; rw [exec, newBlock_wide]
  | mkTuple x es =>
    have := some_of e
    rw [tupleMk] at this
    rw [exec, tupleMk, newBlock_wide, incrAll_wide Z es this]; rfl
  | append y ed =>
    have := some_of e
    rw [listAppend] at this
    by_cases hl : h.live y = true
    · rw [if_pos hl] at this
      rw [exec, listAppend, if_pos (wide_live hl)]
      have := incrIndegree_wide Z this
      rw [show wide Z { h with kids := upd h.kids y (h.kids y ++ [ed]) } =
        { wide Z h with kids := upd (wide Z h).kids y ((wide Z h).kids y ++ [ed]) } from rfl] at this
      rw [this]; rfl
    · rw [if_neg hl] at this; cases this
  | remove y i =>
    have := some_of e
    rw [listRemove] at this
    by_cases hl : h.live y = true
    · rw [if_pos hl] at this
      rw [exec, listRemove, if_pos (wide_live hl)]
      rw [show (wide Z h).kids y = h.kids y from rfl]
      cases hk : (h.kids y)[i]? with
      | none => rw [hk] at this; cases this; rfl
      | some ed =>
        rw [hk] at this
        have := decrIndegree_wide Z this
        simp only
        rw [show wide Z { h with kids := upd h.kids y ((h.kids y).eraseIdx i) } =
          { wide Z h with kids := upd (wide Z h).kids y ((h.kids y).eraseIdx i) } from rfl] at this
        rw [this]; rfl
    · rw [if_neg hl] at this; cases this
  | incr p => rw [exec, incrIndegree_wide Z (some_of e)]; rfl
  | delRef p => exact delRefWith_wide (traceDel_wide Z fuel) ap e
  | del p => exact delWith_wide (traceDel_wide Z fuel) ap e

/-! ## marking -/

/-- from `a` the block `x` is reached along pointers of any policy -/
inductive Down (kids : Nat → List Edge) (a : Nat) : Nat → Prop where
  | refl : Down kids a a
  | step {y x : Nat} {pol : Policy} : Down kids a y → (pol, some x) ∈ kids y → Down kids a x

theorem Down.head {kids : Nat → List Edge} {a b x : Nat} {pol : Policy} (h : (pol, some b) ∈ kids a) (d : Down kids b x) :
    Down kids a x := by
  induction d with
  | refl => exact .step .refl h
  | step _ h2 ih => exact .step ih h2

theorem Down.cases_head {kids : Nat → List Edge} {a x : Nat} (d : Down kids a x) :
    x = a ∨ ∃ pol b, (pol, some b) ∈ kids a ∧ Down kids b x := by
  induction d with
  | refl => exact .inl rfl
  | @step y x pol _ h2 ih =>
    rcases ih with rfl | ⟨q, b, h3, h4⟩
    · exact .inr ⟨pol, x, h2, .refl⟩
    · exact .inr ⟨q, b, h3, .step h4 h2⟩

/-- a root reaches `x` -/
def Reach (kids : Nat → List Edge) (R : List Nat) (x : Nat) : Prop := ∃ a ∈ R, Down kids a x

/-- a part of memory that is closed, live and without cycles -/
structure Tidy (h : RHeap) (C : Nat → Prop) (rank : Nat → Nat) : Prop where
  live : ∀ y, C y → h.live y = true
  down : ∀ y, C y → ∀ pol x, (pol, some x) ∈ h.kids y → C x ∧ rank x < rank y

open Classical in
theorem fold_spec {h : RHeap} {C : Nat → Prop} {rank : Nat → Nat} {m fuel : Nat}
    (hv : ∀ a mk, C a → rank a < fuel → ∃ mk', visit h m fuel (some a) mk = .ok (some mk') ∧
      ∀ x, mk' x = if Down h.kids a x then m else mk x) (ps : List Ptr) :
    ∀ mk, (∀ a, some a ∈ ps → C a ∧ rank a < fuel) → ∃ mk', visitAll h m fuel ps mk = .ok (some mk') ∧
      ∀ x, mk' x = if ∃ a, some a ∈ ps ∧ Down h.kids a x then m else mk x := by
  induction ps with
  | nil => intro mk _; exact ⟨mk, rfl, by simp⟩
  | cons p ps ih =>
    intro mk hp
    obtain ⟨mk1, e1, h1⟩ : ∃ mk1, visit h m fuel p mk = .ok (some mk1) ∧
        ∀ x, mk1 x = if ∃ a, p = some a ∧ Down h.kids a x then m else mk x := by
      cases p with
      | none => exact ⟨mk, by cases fuel <;> rfl, by simp⟩
      | some a =>
        obtain ⟨mk1, e1, h1⟩ := hv a mk (hp a (by simp)).1 (hp a (by simp)).2
        exact ⟨mk1, e1, by simpa using h1⟩
    obtain ⟨mk2, e2, h2⟩ := ih mk1 fun a ha => hp a (by simp [ha])
    refine ⟨mk2, ?_, fun x => ?_⟩
    · rw [visitAll, List.foldl_cons]
      simp only [e1]
      exact e2
    · rw [h2, h1]
      by_cases c1 : ∃ a, some a ∈ ps ∧ Down h.kids a x
      · rw [if_pos c1, if_pos]
        obtain ⟨a, h3, h4⟩ := c1
        exact ⟨a, by simp [h3], h4⟩
      · rw [if_neg c1]
        by_cases c2 : ∃ a, p = some a ∧ Down h.kids a x
        · rw [if_pos c2, if_pos]
          obtain ⟨a, rfl, h4⟩ := c2
          exact ⟨a, by simp, h4⟩
        · rw [if_neg c2, if_neg]
          rintro ⟨a, h3, h4⟩
          rcases List.mem_cons.1 h3 with h3 | h3
          · exact c2 ⟨a, h3.symm, h4⟩
          · exact c1 ⟨a, h3, h4⟩

open Classical in
theorem visit_spec {h : RHeap} {C : Nat → Prop} {rank : Nat → Nat} (T : Tidy h C rank) (m : Nat) (fuel : Nat) :
    ∀ a mk, C a → rank a < fuel → ∃ mk', visit h m fuel (some a) mk = .ok (some mk') ∧
      ∀ x, mk' x = if Down h.kids a x then m else mk x := by
  induction fuel with
  | zero => intro a mk _ h; omega
  | succ fuel ih =>
    intro a mk ha hr
    obtain ⟨mk', e, hm⟩ := fold_spec ih ((h.kids a).map (·.2)) (upd mk a m) (by
      intro b hb
      obtain ⟨⟨pol, p⟩, h1, h2⟩ := List.mem_map.1 hb
      simp only at h2
      subst h2
      obtain ⟨h3, h4⟩ := T.down a ha pol b h1
      exact ⟨h3, by omega⟩)
    refine ⟨mk', ?_, fun x => ?_⟩
    · rw [visit, if_pos (T.live a ha)]
      exact e
    · rw [hm]
      by_cases c : ∃ b, some b ∈ (h.kids a).map (·.2) ∧ Down h.kids b x
      · rw [if_pos c, if_pos]
        obtain ⟨b, hb, hd⟩ := c
        obtain ⟨⟨pol, p⟩, h1, h2⟩ := List.mem_map.1 hb
        simp only at h2
        subst h2
        exact .head h1 hd
      · rw [if_neg c]
        by_cases hx : x = a
        · subst hx; rw [if_pos .refl]; simp [upd]
        · rw [if_neg, upd, if_neg hx]
          intro d
          rcases d.cases_head with rfl | ⟨pol, b, h1, h2⟩
          · exact hx rfl
          · exact c ⟨b, List.mem_map.2 ⟨_, h1, rfl⟩, h2⟩

/-! ## the specification -/

/-- what a program with a collector has made -/
structure GS where
  /-- the blocks that the program may use, and the references to them: `ext` are those of the program and those lost -/
  s : Spec
  /-- how many counts are left over from blocks that were collected -/
  lost : Nat → Nat
  roots : List Nat
  next : Nat
  /-- made since the last collection -/
  fresh : Nat → Prop
  /-- garbage that the last collection left in memory -/
  junk : Nat → Prop

open Classical in
/-- the blocks that are not reached -/
noncomputable def GS.dead (g : GS) : List Nat := g.s.D.filter fun x => ¬ Reach g.s.kids g.roots x

open Classical in
/-- a collection: the blocks reached stay; the counts that the others hold on them stay too -/
noncomputable def GS.collect (g : GS) : GS where
  s := ⟨g.s.D.filter fun x => Reach g.s.kids g.roots x, g.s.kids,
    fun x => if Reach g.s.kids g.roots x then g.s.ext x + refs g.s.kids g.dead .rc x else 0⟩
  lost := fun x => if Reach g.s.kids g.roots x then g.lost x + refs g.s.kids g.dead .rc x else 0
  roots := g.roots
  next := if g.next = 0 then 1 else 0
  fresh := fun _ => False
  junk := fun x => g.next = 0 ∧ x ∈ g.dead ∧ g.fresh x

noncomputable def gspec (g : GS) : GOp → GS
  | .op o => { g with s := specStep g.s o, fresh := fun x => g.fresh x ∨ made o = some x }
  | .root x => { g with roots := if g.roots.contains x then g.roots else g.roots ++ [x] }
  | .unroot x => { g with roots := g.roots.filter (· != x) }
  | .gc => g.collect

/-- what a program may do: as in C21; the addresses of new blocks are not in use, and only own references are dropped.
A collection is called when all that is reached is in memory, without cycles, and not owned by a block that is not reached. -/
def GOk (g : GS) : GOp → Prop
  | .op o => OkOp g.s o ∧ (∀ x, made o = some x → ¬ g.junk x) ∧
      ∀ a, o = .delRef (some a) → g.lost a < g.s.ext a ∨ g.s.Floating a
  | .root _ => True
  | .unroot _ => True
  | .gc => (∀ x, Reach g.s.kids g.roots x → x ∈ g.s.D) ∧
      (∃ rank : Nat → Nat, ∀ y, Reach g.s.kids g.roots y → ∀ pol x, (pol, some x) ∈ g.s.kids y → rank x < rank y) ∧
      ∀ y ∈ g.dead, ∀ x, (.del, some x) ∈ g.s.kids y → ¬ Reach g.s.kids g.roots x

def GLegal (g : GS) : List GOp → Prop
  | [] => True
  | op :: ops => GOk g op ∧ GLegal (gspec g op) ops

noncomputable def grun (g : GS) : List GOp → GS
  | [] => g
  | op :: ops => grun (gspec g op) ops

/-- memory is as the specification says -/
structure Agree (g : GS) (c : GSt) : Prop where
  roots : c.roots = g.roots
  next : c.next = g.next
  bit : g.next = 0 ∨ g.next = 1
  /-- exactly these blocks are in memory -/
  live : ∀ x, c.h.live x = true ↔ x ∈ g.s.D ∨ g.junk x
  apart : ∀ x, g.junk x → x ∉ g.s.D
  kids : c.h.kids = g.s.kids
  nodup : g.s.D.Nodup
  /-- no pointer of a block that may be used dangles -/
  tgt : ∀ y ∈ g.s.D, ∀ x, Pts g.s.kids y x → x ∈ g.s.D
  ext : ∀ x, 0 < g.s.ext x → x ∈ g.s.D
  lost : ∀ x, g.lost x ≤ g.s.ext x
  /-- the counts: references of blocks, of the program, and lost ones -/
  deg : ∀ x ∈ g.s.D, c.h.deg x = refs g.s.kids g.s.D .rc x + (g.s.ext x - g.lost x) + g.lost x
  own : ∀ x ∈ g.s.D, g.s.own x = if c.h.ret x then 1 else 0
  excl : ∀ x ∈ g.s.D, c.h.ret x = true → g.s.rc x = 0
  /-- marks -/
  new : ∀ x ∈ g.s.D, g.fresh x → c.mark x = 0
  old : ∀ x ∈ g.s.D, ¬ g.fresh x → c.mark x ≠ g.next
  junk : ∀ x, g.junk x → c.mark x = 0 ∧ g.next = 1

/-! ## one step -/

theorem step_D {s : Spec} {o : Op} {x : Nat} (h : x ∈ (specStep s o).D) : x ∈ s.D ∨ made o = some x := by
  classical
  cases o with
  | mk y => simp only [specStep, mkBlock, List.mem_append, List.mem_singleton] at h; rcases h with h | rfl; exacts [.inl h, .inr rfl]
  | mkTuple y es =>
    simp only [specStep, addEdges_D, mkBlock, List.mem_append, List.mem_singleton] at h
    rcases h with h | rfl
    exacts [.inl h, .inr rfl]
  | append y e => exact .inl h
  | remove y i => exact .inl h
  | incr p => cases p <;> exact .inl h
  | delRef p =>
    cases p with
    | none => exact .inl h
    | some a => simp only [specStep, Spec.drop] at h; exact .inl (List.mem_filter.1 h).1
  | del p =>
    cases p with
    | none => exact .inl h
    | some a => simp only [specStep, Spec.drop] at h; exact .inl (List.mem_filter.1 h).1

theorem addEdges_ext (s : Spec) (y : Nat) (es : List Edge) : (addEdges s y es).ext = s.ext := by
  induction es generalizing s with
  | nil => rfl
  | cons e es ih => rw [addEdges, ih]; rfl

theorem step_lost {s : Spec} {o : Op} {lost : Nat → Nat} (hl : ∀ x, lost x ≤ s.ext x) (ok : OkOp s o)
    (hd : ∀ a, o = .delRef (some a) → lost a < s.ext a ∨ s.Floating a) (x : Nat) : lost x ≤ (specStep s o).ext x := by
  classical
  have hx := hl x
  cases o with
  | mk y => exact hx
  | mkTuple y es => simp only [specStep, addEdges_ext]; exact hx
  | append y e => exact hx
  | remove y i => exact hx
  | incr p =>
    cases p with
    | none => exact hx
    | some b =>
      simp only [specStep, upd]
      split
      · rename_i h; subst h; omega
      · exact hx
  | delRef p =>
    cases p with
    | none => exact hx
    | some a =>
      simp only [specStep, Spec.drop, upd]
      split
      · rename_i h
        subst h
        rcases hd x rfl with h | h
        · omega
        · have := h.1; simp only [Spec.rc] at this; omega
      · exact hx
  | del p =>
    cases p with
    | none => exact hx
    | some a =>
      simp only [specStep, Spec.drop, upd]
      split
      · rename_i h
        subst h
        have := ok.2.1; simp only [Spec.rc] at this; omega
      · exact hx

theorem agree_op {g : GS} {c : GSt} (A : Agree g c) {o : Op} (ok : GOk g (.op o)) {fuel : Nat} (hf : g.s.D.length ≤ fuel) :
    ∃ c', gexec fuel c (.op o) = .ok (some c') ∧ Agree (gspec g (.op o)) c' := by
  classical
  obtain ⟨ok1, ok2, ok3⟩ := ok
  let Z : Nat → Bool := fun x => decide (g.junk x)
  let h0 : RHeap := { c.h with live := fun x => decide (x ∈ g.s.D) }
  have R : Rel g.s h0 := by
    refine ⟨A.kids, A.nodup, fun x => by simp [h0], A.tgt, A.ext, fun x hx => ?_, A.own, A.excl⟩
    have h1 := A.deg x hx
    have h2 := A.lost x
    show c.h.deg x = _
    simp only [Spec.rc]; omega
  have hw : wide Z h0 = c.h := by
    have : (fun x => decide (x ∈ g.s.D) || decide (g.junk x)) = c.h.live := by
      funext x
      rw [Bool.eq_iff_iff, A.live x]; simp
    simp only [wide, h0, Z, this]
  have ap : Apart Z h0 := by
    intro x hx
    have : x ∈ g.s.D := by simpa [h0] using hx
    simp only [Z, decide_eq_false_iff_not]
    exact fun hj => A.apart x hj this
  obtain ⟨h', e, R'⟩ := exec_spec R o ok1 hf
  have e2 := exec_wide o ap e
  rw [hw] at e2
  have hmark : ∀ x, made o ≠ some x → unmark c.mark (made o) x = c.mark x := by
    intro x hx
    cases hm : made o with
    | none => rfl
    | some z =>
      rw [hm] at hx
      simp only [unmark, upd]
      rw [if_neg (by rintro rfl; exact hx rfl)]
  refine ⟨{ c with h := wide Z h', mark := unmark c.mark (made o) }, by simp only [gexec, e2], ?_⟩
  refine ⟨A.roots, A.next, A.bit, fun x => ?_, fun x hj hx => ?_, R'.kids, R'.nodup, R'.tgt, R'.ext, ?_, fun x hx => ?_, R'.own,
    R'.excl, fun x hx hn => ?_, fun x hx hn => ?_, fun x hj => ?_⟩
  · show (h'.live x || decide (g.junk x)) = true ↔ x ∈ (specStep g.s o).D ∨ g.junk x
    rw [← R'.live x]; simp
  · rcases step_D hx with h | h
    · exact A.apart x hj h
    · exact ok2 x h hj
  · exact step_lost A.lost ok1 ok3
  · have h1 := R'.deg x hx
    have h2 := step_lost A.lost ok1 ok3 x
    show h'.deg x = refs (specStep g.s o).kids (specStep g.s o).D .rc x + ((specStep g.s o).ext x - g.lost x) + g.lost x
    simp only [Spec.rc] at h1; omega
  · show unmark c.mark (made o) x = 0
    by_cases hm : made o = some x
    · rw [hm]; simp [unmark, upd]
    · rw [hmark x hm]
      rcases step_D hx with h | h
      · rcases hn with hn | hn
        · exact A.new x h hn
        · exact absurd hn hm
      · exact absurd h hm
  · show unmark c.mark (made o) x ≠ g.next
    simp only [gspec, not_or] at hn
    rw [hmark x hn.2]
    rcases step_D hx with h | h
    · exact A.old x h hn.1
    · exact absurd h hn.2
  · show unmark c.mark (made o) x = 0 ∧ g.next = 1
    rw [hmark x (fun h => ok2 x h hj)]
    exact A.junk x hj

theorem refs_filter (kids : Nat → List Edge) (D : List Nat) (p : Nat → Bool) (pol : Policy) (x : Nat) :
    refs kids D pol x = refs kids (D.filter p) pol x + refs kids (D.filter (fun y => !p y)) pol x := by
  induction D with
  | nil => rfl
  | cons a D ih =>
    simp only [refs, List.map_cons, List.sum_cons, List.filter_cons] at ih ⊢
    cases p a <;> simp only [Bool.not_true, Bool.not_false, if_true, Bool.false_eq_true, if_false, List.map_cons, List.sum_cons] <;> omega

open Classical in
theorem refs_split (g : GS) (pol : Policy) (x : Nat) :
    refs g.s.kids g.s.D pol x = refs g.s.kids g.collect.s.D pol x + refs g.s.kids g.dead pol x := by
  rw [refs_filter g.s.kids g.s.D (fun y => decide (Reach g.s.kids g.roots y))]
  congr 2
  simp only [GS.dead, decide_not]

/-- how deep the recursion is at most -/
def deepest (rank : Nat → Nat) : List Nat → Nat
  | [] => 0
  | a :: l => max (rank a + 1) (deepest rank l)

theorem deepest_le (rank : Nat → Nat) {a : Nat} {l : List Nat} (h : a ∈ l) : rank a < deepest rank l := by
  induction l with
  | nil => cases h
  | cons b l ih =>
    simp only [deepest]
    rcases List.mem_cons.1 h with rfl | h
    · omega
    · have := ih h; omega

theorem agree_gc {g : GS} {c : GSt} (A : Agree g c) (ok : GOk g .gc) (rank : Nat → Nat)
    (hr : ∀ y, Reach g.s.kids g.roots y → ∀ pol x, (pol, some x) ∈ g.s.kids y → rank x < rank y) (fuel : Nat)
    (hfuel : deepest rank g.roots ≤ fuel) :
    ∃ c', gexec fuel c .gc = .ok (some c') ∧ Agree (gspec g .gc) c' ∧ c'.h.deg = c.h.deg := by
  classical
  obtain ⟨ok1, -, ok3⟩ := ok
  have T : Tidy c.h (Reach g.s.kids g.roots) rank := by
    refine ⟨fun y hy => (A.live y).2 (.inl (ok1 y hy)), fun y hy pol x hx => ?_⟩
    rw [A.kids] at hx
    refine ⟨?_, hr y hy pol x hx⟩
    obtain ⟨a, ha, hd⟩ := hy
    exact ⟨a, ha, .step hd hx⟩
  obtain ⟨mk, e, hm⟩ := fold_spec (visit_spec T g.next fuel) (g.roots.map some) c.mark (by
    intro a ha
    obtain ⟨b, hb, rfl⟩ : ∃ b, b ∈ g.roots ∧ b = a := by simpa using ha
    exact ⟨⟨b, hb, .refl⟩, Nat.lt_of_lt_of_le (deepest_le rank hb) hfuel⟩)
  have hm' : ∀ x, mk x = if Reach g.s.kids g.roots x then g.next else c.mark x := by
    intro x
    rw [hm, A.kids]
    have : (∃ a, some a ∈ g.roots.map some ∧ Down g.s.kids a x) ↔ Reach g.s.kids g.roots x := by simp [Reach]
    by_cases h : Reach g.s.kids g.roots x
    · rw [if_pos h, if_pos (this.2 h)]
    · rw [if_neg h, if_neg (fun h' => h (this.1 h'))]
  refine ⟨{ c with h := sweepAll c.h mk g.next, mark := mk, next := if g.next = 0 then 1 else 0 },
    by simp only [gexec, gcRun, A.next, A.roots, e], ?_, rfl⟩
  have memD : ∀ x, x ∈ g.collect.s.D ↔ x ∈ g.s.D ∧ Reach g.s.kids g.roots x := by intro x; simp [GS.collect]
  have memX : ∀ x, x ∈ g.dead ↔ x ∈ g.s.D ∧ ¬ Reach g.s.kids g.roots x := by intro x; simp [GS.dead]
  have extx : ∀ x, Reach g.s.kids g.roots x → g.collect.s.ext x = g.s.ext x + refs g.s.kids g.dead .rc x := by
    intro x hx; simp [GS.collect, hx]
  have lostx : ∀ x, Reach g.s.kids g.roots x → g.collect.lost x = g.lost x + refs g.s.kids g.dead .rc x := by
    intro x hx; simp [GS.collect, hx]
  have rcx : ∀ x, Reach g.s.kids g.roots x → g.collect.s.rc x = g.s.rc x := by
    intro x hx
    have := refs_split g .rc x
    have h2 : g.collect.s.kids = g.s.kids := rfl
    simp only [Spec.rc, extx x hx, h2]; omega
  have ownx : ∀ x, Reach g.s.kids g.roots x → g.collect.s.own x = g.s.own x := by
    intro x hx
    have := refs_split g .del x
    have h2 : g.collect.s.kids = g.s.kids := rfl
    have h3 : refs g.s.kids g.dead .del x = 0 := by
      apply List.sum_eq_zero
      intro n hn
      obtain ⟨y, hy, rfl⟩ := List.mem_map.1 hn
      exact List.count_eq_zero.2 fun hc => ok3 y hy x hc hx
    simp only [Spec.own, h2]; omega
  refine ⟨A.roots, rfl, ?_, fun x => ?_, fun x hj hx => ?_, A.kids, A.nodup.filter _, fun y hy x hp => ?_, fun x hx => ?_,
    fun x => ?_, fun x hx => ?_, fun x hx => ?_, fun x hx hret => ?_, fun x _ hn => hn.elim, fun x hx _ => ?_, fun x hj => ?_⟩
  · show (if g.next = 0 then 1 else 0) = 0 ∨ (if g.next = 0 then 1 else 0) = 1
    split <;> simp
  · show (c.h.live x && mk x == g.next) = true ↔ x ∈ g.collect.s.D ∨ (g.next = 0 ∧ x ∈ g.dead ∧ g.fresh x)
    rw [Bool.and_eq_true, beq_iff_eq, hm', A.live x, memD, memX]
    by_cases hx : Reach g.s.kids g.roots x
    · simp only [hx, if_true, and_true, not_true, and_false, false_and, or_false]
      exact ⟨fun _ => ok1 x hx, fun h => .inl h⟩
    · simp only [hx, if_false, and_false, false_or, not_false_iff, and_true]
      constructor
      · rintro ⟨h1 | h1, h2⟩
        · by_cases hfr : g.fresh x
          · exact ⟨by rw [← h2]; exact A.new x h1 hfr, h1, hfr⟩
          · exact absurd h2 (A.old x h1 hfr)
        · obtain ⟨h3, h4⟩ := A.junk x h1
          rw [h3, h4] at h2; cases h2
      · rintro ⟨h1, h2, h3⟩
        exact ⟨.inl h2, by rw [h1]; exact A.new x h2 h3⟩
  · exact ((memX x).1 hj.2.1).2 ((memD x).1 hx).2
  · obtain ⟨h1, a, ha, hd⟩ := (memD y).1 hy
    obtain ⟨pol, h2, h3⟩ := hp
    exact (memD x).2 ⟨A.tgt y h1 x ⟨pol, h2, h3⟩, a, ha, .step hd h3⟩
  · by_cases h : Reach g.s.kids g.roots x
    · exact (memD x).2 ⟨ok1 x h, h⟩
    · simp [gspec, GS.collect, h] at hx
  · show g.collect.lost x ≤ g.collect.s.ext x
    by_cases h : Reach g.s.kids g.roots x
    · rw [lostx x h, extx x h]; have := A.lost x; omega
    · simp [GS.collect, h]
  · obtain ⟨h1, h2⟩ := (memD x).1 hx
    show c.h.deg x = refs g.s.kids g.collect.s.D .rc x + (g.collect.s.ext x - g.collect.lost x) + g.collect.lost x
    rw [A.deg x h1, lostx x h2, extx x h2, refs_split g .rc x]
    have := A.lost x
    omega
  · obtain ⟨h1, h2⟩ := (memD x).1 hx
    show g.collect.s.own x = _
    rw [ownx x h2]; exact A.own x h1
  · obtain ⟨h1, h2⟩ := (memD x).1 hx
    show g.collect.s.rc x = 0
    rw [rcx x h2]; exact A.excl x h1 hret
  · obtain ⟨h1, h2⟩ := (memD x).1 hx
    show mk x ≠ if g.next = 0 then 1 else 0
    rw [hm', if_pos h2]
    split
    · omega
    · assumption
  · obtain ⟨h1, h2, h3⟩ := hj
    obtain ⟨h4, h5⟩ := (memX x).1 h2
    show mk x = 0 ∧ (if g.next = 0 then 1 else 0) = 1
    rw [hm', if_neg h5, if_pos h1]
    exact ⟨A.new x h4 h3, rfl⟩

/-! ## the theorems -/

/-- at the start -/
def gspec0 : GS := ⟨specEmpty, fun _ => 0, [], 1, fun _ => False, fun _ => False⟩

theorem agree_start : Agree gspec0 gstart :=
  ⟨rfl, rfl, .inr rfl, by simp [gstart, gspec0, empty, specEmpty], fun _ h => h.elim, rfl, List.nodup_nil,
    by simp [gspec0, specEmpty], by simp [gspec0, specEmpty], by simp [gspec0], by simp [gspec0, specEmpty],
    by simp [gspec0, specEmpty], by simp [gspec0, specEmpty], by simp [gspec0, specEmpty], by simp [gspec0, specEmpty],
    fun _ h => h.elim⟩

/-- **C107** (partial).  Every program that makes containers, adds and removes elements, takes and drops references, adds and
removes roots, and collects garbage, following the rules of `GOk`, runs without touching a freed block, and at the end memory
is as the specification says (`Agree`): exactly the blocks of the specification are in memory, no pointer of a block that
the program may use dangles, and every count is the number of references plus those lost in collections.  Missing: counts
without the lost ones (`C107_lost_false`), blocks that the last collection left behind (`C107_dangling_false`), owners that
are collected before what they own (`C107_owner_false`), roots that were deleted (`C107_root_false`), cycles (C20). -/
theorem C107_partial (ops : List GOp) (hl : GLegal gspec0 ops) :
    ∃ N, ∀ fuel, N ≤ fuel → ∃ c, gexecAll fuel gstart ops = .ok (some c) ∧ Agree (grun gspec0 ops) c := by
  -- the depth of the recursion depends on the memory, which is not known before; it is bounded by the specification
  suffices ∀ (ops : List GOp) (g : GS), GLegal g ops → ∃ N, ∀ fuel, N ≤ fuel → ∀ c, Agree g c →
      ∃ c', gexecAll fuel c ops = .ok (some c') ∧ Agree (grun g ops) c' by
    obtain ⟨N, h⟩ := this ops gspec0 hl
    exact ⟨N, fun fuel hf => h fuel hf gstart agree_start⟩
  intro ops
  induction ops with
  | nil => intro g _; exact ⟨0, fun _ _ c A => ⟨c, rfl, A⟩⟩
  | cons op ops ih =>
    intro g hl
    obtain ⟨N1, h1⟩ := ih (gspec g op) hl.2
    obtain ⟨N2, h2⟩ : ∃ N2, ∀ fuel, N2 ≤ fuel → ∀ c, Agree g c →
        ∃ c', gexec fuel c op = .ok (some c') ∧ Agree (gspec g op) c' := by
      cases op with
      | op o => exact ⟨g.s.D.length, fun fuel hf c A => agree_op A hl.1 hf⟩
      | root x => exact ⟨0, fun fuel _ c A => ⟨_, rfl, { A with roots := by simp only [gspec, A.roots] }⟩⟩
      | unroot x => exact ⟨0, fun fuel _ c A => ⟨_, rfl, { A with roots := by simp only [gspec, A.roots] }⟩⟩
      | gc =>
        obtain ⟨rank, hr⟩ := hl.1.2.1
        refine ⟨deepest rank g.roots, fun fuel hf c A => ?_⟩
        obtain ⟨c', e, A', -⟩ := agree_gc A hl.1 rank hr fuel hf
        exact ⟨c', e, A'⟩
    refine ⟨max N1 N2, fun fuel hf c A => ?_⟩
    obtain ⟨c1, e1, A1⟩ := h2 fuel (by omega) c A
    obtain ⟨c2, e2, A2⟩ := h1 fuel (by omega) c1 A1
    exact ⟨c2, by rw [gexecAll, e1]; exact e2, A2⟩

/-- **C107**, one collection: it keeps what the roots reach, and every second time also garbage made since the last
collection; no count is changed. -/
theorem C107_gc_exact {g : GS} {c : GSt} (A : Agree g c) (ok : GOk g .gc) :
    ∃ N, ∀ fuel, N ≤ fuel → ∃ c', gcRun fuel c = .ok (some c') ∧
      (∀ x, c'.h.live x = true ↔ Reach c.h.kids c.roots x ∨
        (c.next = 0 ∧ c.h.live x = true ∧ g.fresh x ∧ ¬ Reach c.h.kids c.roots x)) ∧
      c'.h.deg = c.h.deg ∧ c'.next = 1 - c.next := by
  classical
  obtain ⟨ok1, ⟨rank, hr⟩, ok3⟩ := ok
  refine ⟨deepest rank g.roots, fun fuel hf => ?_⟩
  obtain ⟨c', e, A', hd⟩ := agree_gc A ⟨ok1, ⟨rank, hr⟩, ok3⟩ rank hr fuel hf
  refine ⟨c', e, fun x => ?_, hd, ?_⟩
  · rw [A'.live x, A.kids, A.roots, A.next, A.live x]
    have memD : x ∈ g.collect.s.D ↔ x ∈ g.s.D ∧ Reach g.s.kids g.roots x := by simp [GS.collect]
    have memX : x ∈ g.dead ↔ x ∈ g.s.D ∧ ¬ Reach g.s.kids g.roots x := by simp [GS.dead]
    show (x ∈ g.collect.s.D ∨ (g.next = 0 ∧ x ∈ g.dead ∧ g.fresh x)) ↔ _
    rw [memD, memX]
    constructor
    · rintro (⟨-, h⟩ | ⟨h1, ⟨h2, h3⟩, h4⟩)
      · exact .inl h
      · exact .inr ⟨h1, .inl h2, h4, h3⟩
    · rintro (h | ⟨h1, h2 | h2, h4, h3⟩)
      · exact .inl ⟨ok1 x h, h⟩
      · exact .inr ⟨h1, ⟨h2, h3⟩, h4⟩
      · have := (A.junk x h2).2; omega
  · rw [A'.next, A.next]
    show (if g.next = 0 then 1 else 0) = 1 - g.next
    rcases A.bit with h | h <;> simp [h]

/-- a string 1 in a tuple 2 and in a list 3, which is a root -/
def demoA : List GOp :=
  [.op (.mk 1), .op (.mkTuple 2 [(.rc, some 1)]), .op (.mk 3), .op (.append 3 (.rc, some 1)), .root 3]

def gA : GS := ⟨⟨[1, 2, 3], fun x => if x = 2 ∨ x = 3 then [(.rc, some 1)] else [], fun _ => 0⟩, fun _ => 0, [3], 1,
  fun x => x = 1 ∨ x = 2 ∨ x = 3, fun _ => False⟩

theorem legal_append (as bs : List GOp) : ∀ g, GLegal g (as ++ bs) ↔ GLegal g as ∧ GLegal (grun g as) bs := by
  induction as with
  | nil => intro g; simp [GLegal, grun]
  | cons a as ih => intro g; simp only [List.cons_append, GLegal, grun, ih, and_assoc]

theorem grun_append (as bs : List GOp) : ∀ g, grun g (as ++ bs) = grun (grun g as) bs := by
  induction as with
  | nil => intro g; rfl
  | cons a as ih => intro g; exact ih _

theorem legal_demoA : GLegal gspec0 demoA := by
  simp [demoA, GLegal, GOk, gspec, gspec0, OkOp, OkEdges, OkEdge, specStep, mkBlock, addEdges, addEdge, Spec.rc,
    Spec.own, Spec.Floating, refs, upd, specEmpty, made]

theorem run_demoA : grun gspec0 demoA = gA := by
  simp only [demoA, grun, gspec, gspec0, specStep, mkBlock, addEdges, addEdge, specEmpty, made, gA]
  congr 1
  · congr 1
    funext x
    simp only [upd]
    split_ifs <;> simp_all
  · funext x; simp [eq_comm, or_assoc]

theorem reach_gA (x : Nat) : Reach gA.s.kids gA.roots x ↔ x = 3 ∨ x = 1 := by
  constructor
  · rintro ⟨a, ha, d⟩
    have ha : a = 3 := by simpa [gA] using ha
    subst ha
    induction d with
    | refl => exact .inl rfl
    | step _ h ih =>
      rcases ih with rfl | rfl
      · right; have := h; simp [gA] at this; exact this.2
      · simp [gA] at h
  · rintro (rfl | rfl)
    · exact ⟨3, by simp [gA], .refl⟩
    · exact ⟨3, by simp [gA], .step (pol := .rc) .refl (by simp [gA])⟩

theorem legal_gA : GOk gA .gc := by
  refine ⟨fun x h => ?_, ⟨fun x => if x = 1 then 0 else 1, fun y h pol x hx => ?_⟩, fun y _ x hx => ?_⟩
  · rcases (reach_gA x).1 h with rfl | rfl <;> simp [gA]
  · rcases (reach_gA y).1 h with rfl | rfl
    · simp [gA] at hx; simp [hx.2]
    · simp [gA] at hx
  · simp only [gA] at hx
    split_ifs at hx <;> simp at hx

/-- a collection in the middle of a program -/
example : GLegal gspec0 (demoA ++ [.gc, .op (.mk 4), .op (.incr (some 3))]) := by
  rw [legal_append, run_demoA]
  refine ⟨legal_demoA, legal_gA, ⟨?_, ?_, ?_⟩, ⟨?_, ?_, ?_⟩, trivial⟩
  · simp [OkOp, gspec, GS.collect, gA]
  · simp [made, gspec, GS.collect, gA]
  · simp
  · simp only [OkOp, gspec, GS.collect, specStep, mkBlock, Spec.own, Spec.rc, reach_gA, GS.dead]
    refine ⟨3, rfl, ?_, ?_, ?_⟩ <;> simp [gA, refs, upd]
  · simp [made]
  · simp

/-- the state before the collection is met by running the code -/
example : (∃ c, Agree gA c) ∧ GOk gA .gc := by
  obtain ⟨N, h⟩ := C107_partial demoA legal_demoA
  obtain ⟨c, -, A⟩ := h N (Nat.le_refl N)
  exact ⟨⟨c, run_demoA ▸ A⟩, legal_gA⟩

/-- **C107 is false**: the tuple 2 is collected, but the string 1 that it held keeps its count; after the list 3 is deleted
nothing refers to the string, and it stays in memory with a count of 1. -/
theorem C107_lost_false : ∃ c, gexecAll 5 gstart
      [.op (.mk 1), .op (.mkTuple 2 [(.rc, some 1)]), .op (.mk 3), .op (.append 3 (.rc, some 1)), .root 3, .gc, .unroot 3,
       .op (.delRef (some 3))] = .ok (some c) ∧
    c.h.live 2 = false ∧ c.h.live 3 = false ∧ c.h.live 1 = true ∧ c.h.deg 1 = 1 ∧ c.h.kids 1 = [] :=
  ⟨_, rfl, by decide, by decide, by decide, by decide, by decide⟩

/-- **C107 is false**: the second collection leaves the new tuple 2 in memory, though it is garbage, and frees the block 1
that it holds; the program, which holds the tuple, runs into undefined behaviour when it drops it. -/
theorem C107_dangling_false : ∃ c, gexecAll 5 gstart
      [.op (.mk 1), .root 1, .gc, .unroot 1, .op (.mkTuple 2 [(.rc, some 1)]), .op (.incr (some 2)), .gc] = .ok (some c) ∧
    c.h.live 2 = true ∧ c.h.deg 2 = 1 ∧ c.h.live 1 = false ∧ (.rc, some 1) ∈ c.h.kids 2 ∧
    gexec 5 c (.op (.delRef (some 2))) = .ub :=
  ⟨_, rfl, by decide, by decide, by decide, by decide, rfl⟩

/-- **C107 is false** for owners: the list 2 owns the block 1, and is collected; the block 1 is a root and stays, but it
stays retained, so that dropping it does not free it. -/
theorem C107_owner_false : ∃ c, gexecAll 5 gstart
      [.op (.mk 1), .op (.mk 2), .op (.append 2 (.del, some 1)), .root 1, .gc, .unroot 1, .op (.delRef (some 1))] =
        .ok (some c) ∧
    c.h.live 2 = false ∧ c.h.live 1 = true ∧ c.h.ret 1 = true :=
  ⟨_, rfl, by decide, by decide, by decide⟩

/-- **C107 is false** for roots that are deleted: the set of roots does not count them, and the collection reads a freed
block. -/
theorem C107_root_false (fuel : Nat) : gexecAll (fuel + 1) gstart
    [.op (.mk 1), .root 1, .op (.delRef (some 1)), .gc] = .ub := rfl

end Verif.Rc.GcProps
