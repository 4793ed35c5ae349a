import Verif.Rc.GrowRc
import Verif.Rc.Props

/-! # Property C122: strings that grow in counted memory -/

namespace Verif.Rc.GrowProps
open Verif.Chain (upd)
open Verif.Rc.Props

/-- calls of C21, and growth of a string: to a copy, or with `realloc` -/
inductive GOp where
  | op (o : Op)
  | growM (a b : Nat)
  | growR (a b : Nat)

def exec (fuel : Nat) (h : RHeap) : GOp → Res (Option RHeap)
  | .op o => Props.exec fuel h o
  | .growM a b => (growMalloc h a b).map some
  | .growR a b => (growRealloc h a b).map some

def execAll (fuel : Nat) (h : RHeap) : List GOp → Res (Option RHeap)
  | [] => .ok (some h)
  | op :: ops =>
    match exec fuel h op with
    | .ok (some h') => execAll fuel h' ops
    | r => r

/-- a copy is a new block without references; a block that moves takes the references of the program along -/
noncomputable def step (s : Spec) : GOp → Spec
  | .op o => specStep s o
  | .growM _ b => mkBlock s b
  | .growR a b => if b = a then s else { D := s.D.erase a ++ [b], kids := upd s.kids b [], ext := upd (upd s.ext a 0) b (s.ext a) }

/-- a string that is copied has no references at all; one that moves has none but the program's own -/
def Ok (s : Spec) : GOp → Prop
  | .op o => OkOp s o
  | .growM a b => a ∈ s.D ∧ s.kids a = [] ∧ b ∉ s.D ∧ s.Floating a
  | .growR a b => a ∈ s.D ∧ s.kids a = [] ∧ (b ∉ s.D ∨ b = a) ∧ ∀ y ∈ s.D, ¬ Pts s.kids y a

def Legal (s : Spec) : List GOp → Prop
  | [] => True
  | op :: ops => Ok s op ∧ Legal (step s op) ops

noncomputable def run (s : Spec) : List GOp → Spec
  | [] => s
  | op :: ops => run (step s op) ops

section
variable {s : Spec} {h : RHeap} {a b : Nat}

/-- what a copy does: the memory is as if the program held as many references to it as there were to the string -/
theorem growM_spec (R : Rel s h) (ha : a ∈ s.D) (hk : s.kids a = []) (hb : b ∉ s.D) (hr : h.ret a = false) :
    ∃ h', growMalloc h a b = .ok h' ∧ h'.deg b = s.rc a ∧ Rel { mkBlock s b with ext := upd s.ext b (s.rc a) } h' := by
  have R1 := mk_spec R hb
  have hla := (R.live a).2 ha
  have h0 : (mkBlock s b).rc b = 0 := by
    have := R1.deg b (by simp [mkBlock])
    simpa [newBlock, upd] using this.symm
  refine ⟨_, by rw [growMalloc, if_pos hla], by simp [upd, R.deg a ha], ?_⟩
  have hrc : ∀ x, Spec.rc { mkBlock s b with ext := upd s.ext b (s.rc a) } x = if x = b then s.rc a else (mkBlock s b).rc x := by
    intro x
    simp only [Spec.rc, mkBlock] at h0 ⊢
    by_cases hx : x = b
    · subst hx; simp [upd]; omega
    · simp [upd, hx]
  refine ⟨?_, R1.nodup, ?_, R1.tgt, ?_, ?_, ?_, ?_⟩
  · simp only [mkBlock, R.kids, hk]
  · exact fun x => R1.live x
  · intro x hx
    simp only [upd] at hx
    split at hx
    · simp [mkBlock, *]
    · simp [mkBlock, R.ext x hx]
  · intro x hx
    rw [hrc]
    have := R1.deg x hx
    simp only [newBlock] at this
    by_cases hxb : x = b
    · subst hxb; simp [upd, R.deg a ha]
    · simpa [upd, hxb] using this
  · intro x hx
    have := R1.own x hx
    simp only [newBlock] at this
    by_cases hxb : x = b
    · subst hxb
      simp only [upd, if_true, Bool.false_eq_true, if_false] at this
      simpa [upd, hr, Spec.own] using this
    · simpa [upd, hxb, Spec.own] using this
  · intro x hx hret
    rw [hrc]
    by_cases hxb : x = b
    · subst hxb; simp [upd, hr] at hret
    · rw [if_neg hxb]
      exact R1.excl x hx (by simpa [newBlock, upd, hxb] using hret)

theorem growR_spec (R : Rel s h) (ha : a ∈ s.D) (hk : s.kids a = []) (hb : b ∉ s.D ∨ b = a) (hp : ∀ y ∈ s.D, ¬ Pts s.kids y a) :
    ∃ h', growRealloc h a b = .ok h' ∧ Rel (step s (.growR a b)) h' := by
  have hla := (R.live a).2 ha
  refine ⟨_, by rw [growRealloc, if_pos hla], ?_⟩
  simp only [step]
  split
  · rename_i hba
    subst hba
    have e : ∀ {T : Type} (f : Nat → T), upd f b (f b) = f := fun f => by funext x; simp only [upd]; split <;> simp_all
    rw [show upd (upd h.live b false) b true = h.live by
      funext x; simp only [upd]; split
      · simp_all
      · rfl, e, e, e]
    exact R
  rename_i hba
  have hb : b ∉ s.D := hb.resolve_right hba
  have hpb : ∀ y ∈ s.D, ¬ Pts s.kids y b := fun y hy h => hb (R.tgt y hy b h)
  have hmem : ∀ x, x ∈ s.D.erase a ++ [b] ↔ (x ∈ s.D ∧ x ≠ a) ∨ x = b := by
    intro x
    rw [List.mem_append, List.mem_singleton, R.nodup.mem_erase_iff]
    tauto
  have hkid : ∀ y, y ∈ s.D → upd s.kids b [] y = s.kids y := fun y hy => by
    simp only [upd]; rw [if_neg]; rintro rfl; exact hb hy
  have hrefs : ∀ pol x, refs (upd s.kids b []) (s.D.erase a ++ [b]) pol x = refs s.kids s.D pol x := by
    intro pol x
    rw [refs_erase s.kids ha, hk]
    simp only [refs, List.map_append, List.sum_append, List.map_cons, List.map_nil, List.sum_cons, List.sum_nil, upd, if_true, List.count_nil, Nat.add_zero]
    congr 1
    refine List.map_congr_left fun y hy => ?_
    rw [if_neg]
    rintro rfl
    exact hb (List.mem_of_mem_erase hy)
  have hrca : s.rc a = s.ext a := by rw [Spec.rc, refs_eq_zero_of (by simp) hp]; omega
  have hrb : refs s.kids s.D .rc b = 0 := refs_eq_zero_of (by simp) hpb
  have hob : s.own b = 0 := refs_eq_zero_of (by simp) hpb
  have hreta : h.ret a = false := by
    have h1 : s.own a = 0 := refs_eq_zero_of (by simp) hp
    have h2 := R.own a ha
    rw [h1] at h2
    cases hx : h.ret a with
    | false => rfl
    | true => rw [hx] at h2; simp at h2
  refine ⟨?_, ?_, ?_, ?_, ?_, ?_, ?_, ?_⟩
  · simp only [R.kids, hk]
  · rw [List.nodup_append]
    refine ⟨R.nodup.erase a, by simp, ?_⟩
    intro x hx y hy e
    simp only [List.mem_singleton] at hy
    subst hy; subst e
    exact hb (List.mem_of_mem_erase hx)
  · intro x
    rw [hmem]
    simp only [upd]
    by_cases h1 : x = b
    · simp [h1]
    · by_cases h2 : x = a
      · simp [h1, h2, Ne.symm hba]
      · simp [h1, h2, R.live]
  · intro y hy x hpx
    rw [hmem] at hy ⊢
    rcases hy with ⟨hy, hya⟩ | rfl
    · have : Pts s.kids y x := by
        obtain ⟨pol, h1, h2⟩ := hpx
        simp only at h2
        rw [hkid y hy] at h2
        exact ⟨pol, h1, h2⟩
      exact .inl ⟨R.tgt y hy x this, fun e => hp y hy (e ▸ this)⟩
    · obtain ⟨pol, h1, h2⟩ := hpx
      simp [upd] at h2
  · intro x hx
    rw [hmem]
    simp only [upd] at hx
    split at hx
    · exact .inr ‹_›
    · split at hx
      · omega
      · exact .inl ⟨R.ext x hx, ‹_›⟩
  · intro x hx
    rw [hmem] at hx
    simp only [Spec.rc, hrefs, upd]
    by_cases h1 : x = b
    · subst h1
      simp only [if_true]
      rw [hrb, R.deg a ha, hrca]; omega
    · obtain ⟨hx, hxa⟩ := hx.resolve_right h1
      simp only [if_neg h1, if_neg hxa]
      exact R.deg x hx
  · intro x hx
    rw [hmem] at hx
    simp only [Spec.own, hrefs, upd]
    by_cases h1 : x = b
    · subst h1
      simp only [if_true, hreta]
      exact hob
    · obtain ⟨hx, hxa⟩ := hx.resolve_right h1
      simp only [if_neg h1]
      exact R.own x hx
  · intro x hx hret
    rw [hmem] at hx
    simp only [Spec.rc, hrefs, upd] at hret ⊢
    by_cases h1 : x = b
    · subst h1
      simp [hreta] at hret
    · obtain ⟨hx, hxa⟩ := hx.resolve_right h1
      simp only [if_neg h1, if_neg hxa] at hret ⊢
      exact R.excl x hx hret

theorem exec_spec (R : Rel s h) (op : GOp) (ok : Ok s op) {fuel : Nat} (hf : s.D.length ≤ fuel) :
    ∃ h', exec fuel h op = .ok (some h') ∧ Rel (step s op) h' := by
  cases op with
  | op o => exact Props.exec_spec R o ok hf
  | growM a b =>
    obtain ⟨ha, hk, hb, h1, h2⟩ := ok
    have hr : h.ret a = false := by
      have := R.own a ha
      rw [h2] at this
      cases hx : h.ret a with
      | false => rfl
      | true => rw [hx] at this; simp at this
    obtain ⟨h', e, _, R'⟩ := growM_spec R ha hk hb hr
    refine ⟨h', by rw [exec, e]; rfl, ?_⟩
    rw [h1] at R'
    have : upd s.ext b 0 = s.ext := by
      funext x; simp only [upd]; split
      · rename_i hx; subst hx
        by_contra hc
        exact hb (R.ext _ (by omega))
      · rfl
    rw [this] at R'
    exact R'
  | growR a b =>
    obtain ⟨ha, hk, hb, hp⟩ := ok
    obtain ⟨h', e, R'⟩ := growR_spec R ha hk hb hp
    exact ⟨h', by rw [exec, e]; rfl, R'⟩

theorem step_length (s : Spec) (op : GOp) : (step s op).D.length ≤ s.D.length + 1 := by
  cases op with
  | op o => exact Props.step_length s o
  | growM a b => simp [step, mkBlock]
  | growR a b =>
    simp only [step]
    split
    · omega
    · simp; exact List.length_erase_le ..

end

/-- **C122, what holds.**  Programs as in C21 whose strings also grow: as long as a string is in no container when it grows (and, for the default method,
the program has taken no reference to it), nothing freed is touched and all counts are exact afterwards.  The old block of a copied string is a string of its
own.  Missing: strings in containers, for which the claim is false. -/
theorem C122_partial (ops : List GOp) (hl : Legal specEmpty ops) :
    ∃ h, execAll ops.length empty ops = .ok (some h) ∧ Rel (run specEmpty ops) h := by
  have : ∀ (ops : List GOp) (s : Spec) (h : RHeap) (fuel : Nat), Rel s h → Legal s ops → s.D.length + ops.length ≤ fuel →
      ∃ h', execAll fuel h ops = .ok (some h') ∧ Rel (run s ops) h' := by
    intro ops
    induction ops with
    | nil => intro s h fuel R _ _; exact ⟨h, rfl, R⟩
    | cons op ops ih =>
      intro s h fuel R hl hf
      simp only [List.length_cons] at hf
      obtain ⟨h1, e1, R1⟩ := exec_spec R op hl.1 (fuel := fuel) (by omega)
      have := step_length s op
      obtain ⟨h2, e2, R2⟩ := ih _ _ fuel R1 hl.2 (by omega)
      exact ⟨h2, by rw [execAll, e1]; exact e2, R2⟩
  exact this ops _ _ _ rel_empty hl (by simp [specEmpty])

/-! ## Strings in containers -/

/-- the spec never takes away references of the program without `cee_del_ref` or `cee_del` -/
theorem ext_keep {b : Nat} (op : Op) (h1 : op ≠ .delRef (some b)) (h2 : op ≠ .del (some b)) (s : Spec) : s.ext b ≤ (specStep s op).ext b := by
  have hadd : ∀ (es : List Edge) (s : Spec) (y : Nat), (addEdges s y es).ext = s.ext := by
    intro es
    induction es with
    | nil => intro s y; rfl
    | cons e es ih => intro s y; rw [addEdges, ih]; rfl
  cases op with
  | mk x => exact Nat.le_refl _
  | mkTuple x es => simp only [specStep, hadd]; exact Nat.le_refl _
  | append y e => exact Nat.le_refl _
  | remove y i => exact Nat.le_refl _
  | incr p =>
    cases p with
    | none => exact Nat.le_refl _
    | some c => simp only [specStep, upd]; split <;> simp_all
  | delRef p =>
    cases p with
    | none => exact Nat.le_refl _
    | some c =>
      have : b ≠ c := by rintro rfl; exact h1 rfl
      simp only [specStep, Spec.drop, upd, if_neg this]; exact Nat.le_refl _
  | del p =>
    cases p with
    | none => exact Nat.le_refl _
    | some c =>
      have : b ≠ c := by rintro rfl; exact h2 rfl
      simp only [specStep, Spec.drop, upd, if_neg this]; exact Nat.le_refl _

/-- **C122 is false: counts are copied.**  A string that has references (from containers or the program) and grows: nobody refers to the new block, but
it has the count of the old one.  So however it is put into containers and these are deleted, it is not freed by counting (only by `cee_del_ref` or
`cee_del` on itself): the references of the old block are never dropped for the new one. -/
theorem C122_count_false {s : Spec} {h : RHeap} (R : Rel s h) {a b : Nat} (ha : a ∈ s.D) (hk : s.kids a = []) (hb : b ∉ s.D) (ho : s.own a = 0)
    (hrc : 0 < s.rc a) : ∃ h', growMalloc h a b = .ok h' ∧ h'.deg b = s.rc a ∧ (∀ y, h'.live y = true → ¬ Pts h'.kids y b) ∧
      ∀ (ops : List Op), Props.Legal { mkBlock s b with ext := upd s.ext b (s.rc a) } ops → (∀ op ∈ ops, op ≠ .delRef (some b) ∧ op ≠ .del (some b)) →
        ∃ h'', Props.execAll (s.D.length + 1 + ops.length) h' ops = .ok (some h'') ∧ h''.live b = true := by
  have hr : h.ret a = false := by
    have := R.own a ha
    rw [ho] at this
    cases hx : h.ret a with
    | false => rfl
    | true => rw [hx] at this; simp at this
  obtain ⟨h', e, hd, R'⟩ := growM_spec R ha hk hb hr
  refine ⟨h', e, hd, ?_, fun ops hl hno => ?_⟩
  · intro y hy hp
    rw [R'.live] at hy
    rw [R'.kids] at hp
    simp only [mkBlock, List.mem_append, List.mem_singleton] at hy hp
    obtain ⟨pol, h1, h2⟩ := hp
    simp only [upd] at h2
    split at h2
    · simp at h2
    · rcases hy with hy | hy
      · exact hb (R.tgt y hy b ⟨pol, h1, h2⟩)
      · exact absurd hy ‹_›
  · obtain ⟨h'', e2, R2⟩ := Props.execAll_spec ops R' hl (fuel := s.D.length + 1 + ops.length) (by simp [mkBlock])
    refine ⟨h'', e2, (R2.live b).2 (R2.ext b ?_)⟩
    have : ∀ (ops : List Op) (t : Spec), (∀ op ∈ ops, op ≠ .delRef (some b) ∧ op ≠ .del (some b)) → t.ext b ≤ (specRun t ops).ext b := by
      intro ops
      induction ops with
      | nil => intro t _; exact Nat.le_refl _
      | cons op ops ih =>
        intro t hno
        rw [List.forall_mem_cons] at hno
        exact Nat.le_trans (ext_keep op hno.1.1 hno.1.2 t) (ih _ hno.2)
    refine Nat.lt_of_lt_of_le ?_ (this ops _ hno)
    simpa [upd] using hrc

/-- **C122 is false: the owner is copied.**  A string in a container that owns it (`CEE_DP_DEL`) grows: the new block is marked as retained without an
owner, and no sequence of reference operations frees it. -/
theorem C122_retained_false {s : Spec} {h : RHeap} (R : Rel s h) {a b : Nat} (ha : a ∈ s.D) (hk : s.kids a = []) (hb : b ∉ s.D) (ho : s.own a ≠ 0) :
    ∃ h', growMalloc h a b = .ok h' ∧ h'.ret b = true ∧ (∀ y, h'.live y = true → ¬ Pts h'.kids y b) ∧
      ∀ fuel ops h'', execRcAll fuel h' ops = .ok (some h'') → h''.live b = true := by
  have hr : h.ret a = true := by
    have := R.own a ha
    cases hx : h.ret a with
    | true => rfl
    | false => rw [hx] at this; simp at this; exact absurd this ho
  have hpts : ∀ y, upd h.live b true y = true → ¬ Pts (upd h.kids b (h.kids a)) y b := by
    intro y hy hp
    obtain ⟨pol, h1, h2⟩ := hp
    simp only [upd] at h2 hy
    split at h2
    · rw [R.kids, hk] at h2; simp at h2
    · rename_i hyb
      rw [if_neg hyb, R.live] at hy
      rw [R.kids] at h2
      exact hb (R.tgt y hy b ⟨pol, h1, h2⟩)
  refine ⟨_, by rw [growMalloc, if_pos ((R.live a).2 ha)], by simp [upd, hr], hpts, ?_⟩
  intro fuel ops h'' e
  rcases (C23_retained fuel ops _ h'' b (by simp [upd]) (by simp [upd, hr]) e).2 with h1 | ⟨y, h1, _, h3⟩
  · exact h1
  · exact absurd ⟨.del, by simp, h3⟩ (hpts y h1)

/-- a loop over elements one of which is freed does not end well -/
theorem delLoop_dead {fuel y a : Nat} {pol : Policy} (hpol : pol ≠ .noop) (es : List Edge) : ∀ (h h' : RHeap), h.live a = false → (pol, some a) ∈ es →
    delLoop (traceDel fuel) y h es ≠ .ok (some h') := by
  induction es with
  | nil => intro h h' _ hm; simp at hm
  | cons ed es ih =>
    intro h h' hd hm e
    obtain ⟨-, g, e1, e2⟩ := delLoop_cons e
    rcases List.mem_cons.1 hm with rfl | hm
    · cases pol with
      | rc => simp [delE, delRefWith, hd] at e1
      | del => simp [delE, delWith, hd] at e1
      | noop => exact hpol rfl
    · refine ih g h' ?_ hm e2
      have hmono : g.live a = true → h.live a = true := by
        obtain ⟨d, rfl | ⟨z, -, hz⟩⟩ := delE_cases e1
        · exact id
        · exact (traceDel_shrink _ _ _ _ hz).1.mono a
      cases hx : g.live a with
      | false => rfl
      | true => rw [hmono hx] at hd; simp at hd

/-- **C122 is false: containers keep the old address.**  A string in a container grows with `realloc` and moves: the container cannot be deleted any more,
its deletion reaches the freed block. -/
theorem C122_realloc_false {s : Spec} {h : RHeap} (R : Rel s h) {a b y : Nat} {pol : Policy} (ha : a ∈ s.D) (hb : b ∉ s.D) (hy : y ∈ s.D) (hya : y ≠ a)
    (hpol : pol ≠ .noop) (hp : (pol, some a) ∈ s.kids y) :
    ∃ h', growRealloc h a b = .ok h' ∧ h'.live y = true ∧ ∀ fuel h'', traceDel fuel h' y ≠ .ok (some h'') := by
  have hab : a ≠ b := by rintro rfl; exact hb ha
  have hyb : y ≠ b := by rintro rfl; exact hb hy
  refine ⟨_, by rw [growRealloc, if_pos ((R.live a).2 ha)], by simp [upd, hyb, hya, (R.live y).2 hy], ?_⟩
  intro fuel h'' e
  cases fuel with
  | zero => simp [traceDel] at e
  | succ fuel =>
    obtain ⟨g, e1, _⟩ := traceDel_succ e
    refine delLoop_dead (a := a) hpol _ _ _ ?_ ?_ e1
    · simp [upd, hab]
    · simpa [upd, hyb, R.kids] using hp

/-! ## The hypotheses are met -/

/-- a string grows twice before it is put into a list, which is deleted: the string is freed, the first block stays -/
example : Legal specEmpty [.op (.mk 1), .growM 1 2, .growR 2 3, .op (.mk 4), .op (.append 4 (.rc, some 3))] := by
  simp [Legal, Ok, step, specEmpty, OkOp, specStep, mkBlock, Spec.Floating, Spec.rc, Spec.own, refs, upd, OkEdge, Pts]

/-- string 1 in list 2 -/
def inList (pol : Policy) : Spec := ⟨[1, 2], fun x => if x = 2 then [(pol, some 1)] else [], fun _ => 0⟩

def inListHeap (pol : Policy) : RHeap :=
  ⟨fun x => x == 1 || x == 2, fun x => if x = 2 then [(pol, some 1)] else [], fun x => if x = 1 ∧ pol = .rc then 1 else 0, fun x => x == 1 && pol == .del⟩

theorem inList_rel (pol : Policy) (hp : pol ≠ .noop) : Rel (inList pol) (inListHeap pol) := by
  refine ⟨rfl, by simp [inList], by simp [inList, inListHeap], ?_, by simp [inList], ?_, ?_, ?_⟩
  · rintro y hy x ⟨p, _, hx⟩
    simp only [inList] at hx
    split at hx
    · simp only [List.mem_singleton, Prod.mk.injEq, Option.some.injEq] at hx
      simp [inList, hx.2]
    · simp at hx
  all_goals
    intro x hx
    simp only [inList, List.mem_cons, List.not_mem_nil, or_false] at hx
    rcases hx with rfl | rfl <;> cases pol <;> first | exact absurd rfl hp | decide

example : Rel (inList .rc) (inListHeap .rc) ∧ 1 ∈ (inList .rc).D ∧ (inList .rc).kids 1 = [] ∧ 3 ∉ (inList .rc).D ∧ (inList .rc).own 1 = 0 ∧
    0 < (inList .rc).rc 1 ∧ (.rc, some 1) ∈ (inList .rc).kids 2 := ⟨inList_rel _ (by decide), by decide, rfl, by decide, by decide, by decide, by decide⟩

example : Rel (inList .del) (inListHeap .del) ∧ (inList .del).own 1 ≠ 0 := ⟨inList_rel _ (by decide), by decide⟩

end Verif.Rc.GrowProps
