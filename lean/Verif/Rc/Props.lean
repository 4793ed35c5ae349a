import Verif.Rc.Lemmas

/-! # Properties of reference counting (C21, C22, C23, C49) -/

namespace Verif.Rc.Props
open Verif.Chain (upd)

/-! ## Specification: a graph of blocks and the references held by the program -/

structure Spec where
  /-- the live blocks -/
  D : List Nat
  /-- what they hold -/
  kids : Nat → List Edge
  /-- references held by the program itself (`cee_incr_indegree(CEE_DP_DEL_RC, p)`) -/
  ext : Nat → Nat

/-- references to `x`: counted ones, and owning ones -/
def Spec.rc (s : Spec) (x : Nat) : Nat := refs s.kids s.D .rc x + s.ext x
def Spec.own (s : Spec) (x : Nat) : Nat := refs s.kids s.D .del x

/-- nobody refers to `x` -/
def Spec.Floating (s : Spec) (x : Nat) : Prop := s.rc x = 0 ∧ s.own x = 0

open Classical in
/-- dropping the reference to `a` (the program's own one, or none at all): the blocks that lose
their last reference disappear -/
noncomputable def Spec.drop (s : Spec) (a : Nat) : Spec :=
  let ext' := upd s.ext a (s.ext a - 1)
  { s with D := s.D.filter (fun x => ¬ Unref s.kids s.D ext' a x), ext := ext' }

inductive Op where
  /-- make a list (or another container that is still empty) -/
  | mk (x : Nat)
  /-- make a tuple, triple, quadruple, n-tuple with contents -/
  | mkTuple (x : Nat) (es : List Edge)
  /-- add an element -/
  | append (y : Nat) (e : Edge)
  /-- remove an element -/
  | remove (y i : Nat)
  /-- the program takes a counted reference -/
  | incr (p : Ptr)
  | delRef (p : Ptr)
  | del (p : Ptr)

def addEdge (s : Spec) (y : Nat) (e : Edge) : Spec :=
  { s with kids := upd s.kids y (s.kids y ++ [e]) }

def addEdges (s : Spec) (y : Nat) : List Edge → Spec
  | [] => s
  | e :: es => addEdges (addEdge s y e) y es

def mkBlock (s : Spec) (x : Nat) : Spec :=
  { s with D := s.D ++ [x], kids := upd s.kids x [] }

noncomputable def specStep (s : Spec) : Op → Spec
  | .mk x => mkBlock s x
  | .mkTuple x es => addEdges (mkBlock s x) x es
  | .append y e => addEdge s y e
  | .remove y i => { s with kids := upd s.kids y ((s.kids y).eraseIdx i) }
  | .incr (some b) => { s with ext := upd s.ext b (s.ext b + 1) }
  | .incr none => s
  | .delRef (some a) => s.drop a
  | .delRef none => s
  | .del (some a) => s.drop a
  | .del none => s

/-- an element that may be inserted: `CEE_DP_NOOP` anything; `CEE_DP_DEL_RC` a live block that no
container owns and that has fewer than 65535 references; `CEE_DP_DEL` a live block without any
reference ("It's developer's responsiblity ...", cee.h:62-65) -/
def OkEdge (s : Spec) : Edge → Prop
  | (.noop, _) => True
  | (_, none) => False
  | (.rc, some b) => b ∈ s.D ∧ s.own b = 0 ∧ s.rc b + 1 < 65536
  | (.del, some b) => b ∈ s.D ∧ s.Floating b

def OkEdges (s : Spec) (y : Nat) : List Edge → Prop
  | [] => True
  | e :: es => OkEdge s e ∧ OkEdges (addEdge s y e) y es

/-- what a program may do -/
def OkOp (s : Spec) : Op → Prop
  | .mk x => x ∉ s.D
  | .mkTuple x es => x ∉ s.D ∧ OkEdges (mkBlock s x) x es
  | .append y e => y ∈ s.D ∧ OkEdge s e
  | .remove y i => y ∈ s.D ∧ ∃ e, (s.kids y)[i]? = some e ∧ (e.1 = .noop ∨ e.2 ≠ none)
  | .incr p => ∃ b, p = some b ∧ b ∈ s.D ∧ s.own b = 0 ∧ s.rc b + 1 < 65536
  | .delRef none => True
  | .delRef (some a) => a ∈ s.D ∧ (0 < s.ext a ∨ s.Floating a)
  | .del none => True
  | .del (some a) => a ∈ s.D ∧ s.Floating a

def Legal (s : Spec) : List Op → Prop
  | [] => True
  | op :: ops => OkOp s op ∧ Legal (specStep s op) ops

noncomputable def specRun (s : Spec) : List Op → Spec
  | [] => s
  | op :: ops => specRun (specStep s op) ops

/-- execution on the model; `ok none` when the recursion is deeper than `fuel` -/
def exec (fuel : Nat) (h : RHeap) : Op → Res (Option RHeap)
  | .mk x => .ok (some (newBlock h x []))
  | .mkTuple x es => (tupleMk h x es).map some
  | .append y e => (listAppend h y e).map some
  | .remove y i => (listRemove h y i).map some
  | .incr p => (incrIndegree h (.rc, p)).map some
  | .delRef p => delRef fuel h p
  | .del p => del fuel h p

def execAll (fuel : Nat) (h : RHeap) : List Op → Res (Option RHeap)
  | [] => .ok (some h)
  | op :: ops =>
    match exec fuel h op with
    | .ok (some h') => execAll fuel h' ops
    | r => r

/-- what the memory looks like when no deletion is running -/
structure Rel (s : Spec) (h : RHeap) : Prop where
  kids : h.kids = s.kids
  nodup : s.D.Nodup
  /-- exactly the blocks of the specification are allocated -/
  live : ∀ x, h.live x = true ↔ x ∈ s.D
  /-- no live block holds a dangling (counted or owning) pointer, nor does the program -/
  tgt : ∀ y ∈ s.D, ∀ x, Pts s.kids y x → x ∈ s.D
  ext : ∀ x, 0 < s.ext x → x ∈ s.D
  /-- `in_degree` is the number of references -/
  deg : ∀ x ∈ s.D, h.deg x = s.rc x
  /-- `retained` tells whether a container owns the block -/
  own : ∀ x ∈ s.D, s.own x = if h.ret x then 1 else 0
  excl : ∀ x ∈ s.D, h.ret x = true → s.rc x = 0

/-! ## Proofs -/

theorem refs_perm {kids : Nat → List Edge} {D D' : List Nat} (h : D.Perm D') (pol : Policy) (x : Nat) :
    refs kids D pol x = refs kids D' pol x := (h.map _).sum_eq

theorem perm_of_mem {D D' : List Nat} (h1 : D.Nodup) (h2 : D'.Nodup) (h : ∀ x, x ∈ D ↔ x ∈ D') :
    D.Perm D' := (List.perm_ext_iff_of_nodup h1 h2).2 h

/-- the end of a deletion -/
theorem done {c : Ctx} {h : RHeap} {D : List Nat} (I : IInv c h D [] [])
    (hZ : ∀ x, c.Z x → x ≠ c.a ∧ ∀ y ∈ c.D0, ¬ Pts c.kids y x) (x : Nat) :
    x ∈ D ↔ x ∈ c.D0 ∧ ¬ Unref c.kids c.D0 c.ext c.a x := by
  have key : ∀ x, Unref c.kids c.D0 c.ext c.a x → x ∉ D := by
    intro x hu
    induction hu with
    | intro x h0 he hs hp ih =>
      intro hx
      have hno : ∀ y ∈ D, ¬ Pts c.kids y x := fun y hy hyp => ih y (I.sub y hy) hyp hy
      have h1 : refs c.kids D .rc x = 0 := refs_eq_zero_of (by decide) hno
      have h2 : refs c.kids D .del x = 0 := refs_eq_zero_of (by decide) hno
      obtain ⟨h3, h4⟩ := hZ x (I.keep x hx (by simp [h1, h2, he]))
      rcases hs with hs | ⟨y, hy, hyp⟩
      · exact h3 hs
      · exact h4 y hy hyp
  constructor
  · intro hx
    exact ⟨I.sub x hx, fun hu => key x hu hx⟩
  · rintro ⟨h0, hu⟩
    by_contra hn
    exact hu (I.gone x h0 hn)

/-- back to the resting invariant -/
theorem rel_of_done {s : Spec} {h0 h : RHeap} {a : Nat} {Z : Nat → Prop} {D : List Nat}
    (I : IInv ⟨s.D, s.kids, h0.ret, upd s.ext a (s.ext a - 1), a, Z⟩ h D [] [])
    (hZ : ∀ x, Z x → x ≠ a ∧ ∀ y ∈ s.D, ¬ Pts s.kids y x) (hnd : s.D.Nodup) :
    Rel (s.drop a) h := by
  classical
  have hm := done I hZ
  have hndD : D.Nodup := I.nodup
  have hD : ∀ x, x ∈ (s.drop a).D ↔ x ∈ D := by
    intro x
    rw [hm x]
    simp only [Spec.drop, List.mem_filter, decide_eq_true_eq]
  have hnd' : (s.drop a).D.Nodup := hnd.filter _
  have hp := perm_of_mem hnd' hndD hD
  refine ⟨I.kids, hnd', ?_, ?_, ?_, ?_, ?_, ?_⟩
  · intro x; rw [I.live, hD]; rfl
  · intro y hy x hx; rw [hD] at *; exact I.tgtD y hy x hx
  · intro x hx; rw [hD]; exact I.ext x hx
  · intro x hx
    rw [hD] at hx
    rw [I.deg x hx, Spec.rc, refs_perm hp]
    rfl
  · intro x hx
    rw [hD] at hx
    have := I.own x hx
    rw [Spec.own, refs_perm hp, I.ret]
    exact this
  · intro x hx hr
    rw [hD] at hx
    have hr' : h0.ret x = true := by rw [← hr, I.ret]
    have := I.excl x hx hr'
    rw [Spec.rc, refs_perm hp]
    exact this

theorem drop_spec {s : Spec} {h : RHeap} (R : Rel s h) {a : Nat} (ha : a ∈ s.D)
    {fuel : Nat} (hf : s.D.length ≤ fuel) :
    (0 < s.ext a → ∃ h', delRef fuel h (some a) = .ok (some h') ∧ Rel (s.drop a) h') ∧
    (s.Floating a → (∃ h', del fuel h (some a) = .ok (some h') ∧ Rel (s.drop a) h') ∧
      delRef fuel h (some a) = del fuel h (some a)) := by
  have hpos : 0 < s.D.length := List.length_pos_of_mem ha
  obtain ⟨f, rfl⟩ : ∃ f, fuel = f + 1 := ⟨fuel - 1, by omega⟩
  let ext' := upd s.ext a (s.ext a - 1)
  let Z : Nat → Prop := fun x => x ≠ a ∧ ∀ y ∈ s.D, ¬ Pts s.kids y x
  let c : Ctx := ⟨s.D, s.kids, h.ret, ext', a, Z⟩
  have hext : ∀ x, x ≠ a → ext' x = s.ext x := fun x hx => by simp [ext', upd, hx]
  have hexta : ext' a = s.ext a - 1 := by simp [ext', upd]
  have cnt0 : ∀ x, x ≠ a → ([(Policy.rc, some a)] : List Edge).count (.rc, some x) = 0 := by
    intro x hx
    rw [List.count_eq_zero]
    simpa using hx
  have cnt1 : ([(Policy.rc, some a)] : List Edge).count (.rc, some a) = 1 := by simp
  have cntd : ∀ x, ([(Policy.rc, some a)] : List Edge).count (.del, some x) = 0 := by
    intro x
    rw [List.count_eq_zero]
    simp
  -- the program's reference as a pending pointer
  have start : ∀ g : RHeap, g.kids = h.kids → g.ret = h.ret → g.live = h.live →
      (∀ x, x ≠ a → g.deg x = h.deg x) → h.ret a = false →
      g.deg a = refs s.kids s.D .rc a + 1 + ext' a → IInv c g s.D [] [(.rc, some a)] := by
    intro g gk gr gl gd hra gda
    refine ⟨by rw [gk]; exact R.kids, gr, R.nodup, ?_, fun x hx => hx, R.tgt, ?_, ?_, ?_, ?_, ?_, ?_,
      fun y hy hn => absurd hy hn, ?_⟩
    · intro x; rw [gl]; exact R.live x
    · intro pol x hx _
      simp only [List.mem_singleton, Prod.mk.injEq, Option.some.injEq] at hx
      rw [hx.2]; exact ha
    · intro pol x hx _
      simp only [List.mem_singleton, Prod.mk.injEq, Option.some.injEq] at hx
      exact .inl hx.2
    · intro x hx
      by_cases hxa : x = a
      · rw [hxa]; exact ha
      · exact R.ext x (by rw [← hext x hxa]; exact hx)
    · intro x hx
      by_cases hxa : x = a
      · subst hxa; rw [cnt1]; exact gda
      · rw [cnt0 x hxa, gd x hxa, R.deg x hx]
        show _ = refs s.kids s.D .rc x + 0 + ext' x
        rw [hext x hxa]; rfl
    · intro x hx; rw [cntd]; exact R.own x hx
    · intro x hx hr
      have hxa : x ≠ a := by
        rintro rfl
        have hr' : h.ret x = true := hr
        rw [hra] at hr'; simp at hr'
      rw [cnt0 x hxa]
      have := R.excl x hx hr
      show refs s.kids s.D .rc x + 0 + ext' x = 0
      rw [hext x hxa]; exact this
    · intro x hx ht
      by_cases hxa : x = a
      · subst hxa; rw [cnt1] at ht; omega
      · refine ⟨hxa, fun y hy hyp => ?_⟩
        exact refs_zero (kids := s.kids) (by
          have : refs c.kids s.D .rc x = 0 := by omega
          exact this) (by
          have : refs c.kids s.D .del x = 0 := by omega
          exact this) hy hyp
  refine ⟨fun he => ?_, fun hfl => ?_⟩
  · have hra : h.ret a = false := by
      cases hr : h.ret a with
      | false => rfl
      | true =>
        have := R.excl a ha hr
        simp only [Spec.rc] at this
        omega
    have I0 := start h rfl rfl rfl (fun _ _ => rfl) hra (by
      rw [R.deg a ha, hexta, Spec.rc]; omega)
    obtain ⟨h', D', e', I', -⟩ := delE_spec (delLoop_spec c f) hf I0
    exact ⟨h', e', rel_of_done I' (fun x hx => hx) R.nodup⟩
  · have hra : h.ret a = false := by
      cases hr : h.ret a with
      | false => rfl
      | true =>
        have := R.own a ha
        rw [hr, hfl.2] at this
        simp at this
    have hd0 : h.deg a = 0 := by rw [R.deg a ha]; exact hfl.1
    have h1 := hfl.1
    have h2 := hfl.2
    simp only [Spec.rc, Spec.own] at h1 h2
    have I0 := start { h with deg := upd h.deg a 1 } rfl rfl rfl (fun x hx => by simp [upd, hx]) hra
      (by simp only [upd, if_true]; rw [hexta]; omega)
    have I1 := I0.enter (by decide) (by exact (by omega : refs s.kids s.D .rc a = 0)) h2 (by simp)
      (by simp) (by show ext' a = 0; rw [hexta]; omega) h rfl rfl rfl
      (fun x hx => by simp [upd, hx])
    have hlen : (s.D.erase a).length ≤ f := by rw [List.length_erase_of_mem ha]; omega
    obtain ⟨h', D', e', I', -⟩ := traceDel_spec (delLoop_spec c f) hlen I1
    have hla : h.live a = true := (R.live a).2 ha
    refine ⟨⟨h', ?_, rel_of_done I' (fun x hx => hx) R.nodup⟩, ?_⟩
    · rw [del, delWith, if_pos hla]; exact e'
    · rw [del, delWith, if_pos hla, delRef, delRefWith, if_pos hla]
      simp [hd0, hra]

/-! ### Insertions and removals -/

theorem refs_upd {kids : Nat → List Edge} {D : List Nat} (hnd : D.Nodup) {y : Nat} (hy : y ∈ D)
    (l : List Edge) (pol : Policy) (x : Nat) :
    refs (upd kids y l) D pol x + (kids y).count (pol, some x) =
      refs kids D pol x + l.count (pol, some x) := by
  rw [refs_erase _ hy, refs_erase kids hy]
  have h1 : refs (upd kids y l) (D.erase y) pol x = refs kids (D.erase y) pol x := by
    unfold refs
    congr 1
    apply List.map_congr_left
    intro z hz
    have : z ≠ y := ((hnd.mem_erase_iff).1 hz).1
    simp [upd, this]
  rw [h1]
  simp only [upd, if_true]
  omega

theorem mk_spec {s : Spec} {h : RHeap} (R : Rel s h) {x : Nat} (hx : x ∉ s.D) :
    Rel (mkBlock s x) (newBlock h x []) := by
  have hr : ∀ pol z, refs (upd s.kids x []) (s.D ++ [x]) pol z = refs s.kids s.D pol z := by
    intro pol z
    unfold refs
    rw [List.map_append, List.sum_append]
    simp only [List.map_cons, List.map_nil, List.sum_cons, List.sum_nil, upd, if_true,
      List.count_nil, Nat.add_zero]
    congr 1
    apply List.map_congr_left
    intro w hw
    have : w ≠ x := by rintro rfl; exact hx hw
    simp [this]
  have hno : ∀ y ∈ s.D, ¬ Pts s.kids y x := fun y hy hp => hx (R.tgt y hy x hp)
  have he : s.ext x = 0 := by
    cases hz : s.ext x with
    | zero => rfl
    | succ n => exact absurd (R.ext x (by omega)) hx
  refine ⟨?_, ?_, ?_, ?_, ?_, ?_, ?_, ?_⟩
  · simp only [newBlock, mkBlock]; rw [R.kids]
  · simp only [mkBlock]
    rw [List.nodup_append]
    exact ⟨R.nodup, by simp, by intro a ha b hb; simp at hb; subst hb; rintro rfl; exact hx ha⟩
  · intro z
    simp only [newBlock, mkBlock, upd, List.mem_append, List.mem_singleton]
    by_cases hz : z = x
    · simp [hz]
    · simp [hz, R.live]
  · intro y hy z hz
    simp only [mkBlock, List.mem_append, List.mem_singleton] at hy ⊢
    obtain ⟨pol, hn, hm⟩ := hz
    simp only [mkBlock, upd] at hm
    split at hm
    · simp at hm
    · next hyx =>
      rcases hy with hy | hy
      · exact .inl (R.tgt y hy z ⟨pol, hn, hm⟩)
      · exact absurd hy hyx
  · intro z hz
    simp only [mkBlock, List.mem_append]
    exact .inl (R.ext z hz)
  · intro z hz
    simp only [newBlock, upd]
    simp only [Spec.rc, mkBlock]
    rw [hr]
    by_cases hzx : z = x
    · subst hzx
      rw [if_pos rfl, refs_eq_zero_of (by decide) hno, he]
    · rw [if_neg hzx]
      simp only [mkBlock, List.mem_append, List.mem_singleton, hzx, or_false] at hz
      exact R.deg z hz
  · intro z hz
    have ho : (mkBlock s x).own z = s.own z := hr .del z
    rw [ho]
    by_cases hzx : z = x
    · subst hzx
      have h0 : (newBlock h z []).ret z = false := by simp [newBlock, upd]
      rw [h0, Spec.own, refs_eq_zero_of (by decide) hno]; rfl
    · have h0 : (newBlock h x []).ret z = h.ret z := by simp [newBlock, upd, hzx]
      rw [h0]
      simp only [mkBlock, List.mem_append, List.mem_singleton, hzx, or_false] at hz
      exact R.own z hz
  · intro z hz hr'
    simp only [newBlock, upd] at hr'
    simp only [Spec.rc, mkBlock]
    rw [hr]
    by_cases hzx : z = x
    · subst hzx; simp at hr'
    · rw [if_neg hzx] at hr'
      simp only [mkBlock, List.mem_append, List.mem_singleton, hzx, or_false] at hz
      exact R.excl z hz hr'

theorem addEdge_refs {s : Spec} (hnd : s.D.Nodup) {y : Nat} (hy : y ∈ s.D) (e : Edge)
    (pol : Policy) (x : Nat) :
    refs (addEdge s y e).kids s.D pol x =
      refs s.kids s.D pol x + if e = (pol, some x) then 1 else 0 := by
  have := refs_upd (kids := s.kids) hnd hy (s.kids y ++ [e]) pol x
  rw [List.count_append] at this
  have h2 : ([e] : List Edge).count (pol, some x) = if e = (pol, some x) then 1 else 0 := by
    rw [count_cons']; simp
  simp only [addEdge]
  omega

theorem append_spec {s : Spec} {h : RHeap} (R : Rel s h) {y : Nat} {e : Edge} (hy : y ∈ s.D)
    (he : OkEdge s e) : ∃ h', listAppend h y e = .ok h' ∧ Rel (addEdge s y e) h' := by
  have hly : h.live y = true := (R.live y).2 hy
  have hre := addEdge_refs R.nodup hy e
  have hD : (addEdge s y e).D = s.D := rfl
  have hE : (addEdge s y e).ext = s.ext := rfl
  have hpts : ∀ z x, Pts (addEdge s y e).kids z x → Pts s.kids z x ∨ (z = y ∧ e.1 ≠ .noop ∧ e.2 = some x) := by
    rintro z x ⟨pol, hn, hm⟩
    simp only [addEdge, upd] at hm
    split at hm
    · next hz =>
      rw [List.mem_append, List.mem_singleton] at hm
      rcases hm with hm | hm
      · exact .inl ⟨pol, hn, hz ▸ hm⟩
      · rw [← hm]; exact .inr ⟨hz, hn, rfl⟩
    · exact .inl ⟨pol, hn, hm⟩
  rw [listAppend, if_pos hly]
  obtain ⟨pol, p⟩ := e
  cases pol with
  | noop =>
    have hr0 : ∀ q x, q ≠ .noop → refs (addEdge s y (.noop, p)).kids s.D q x = refs s.kids s.D q x := by
      intro q x hq
      rw [hre, if_neg (by rintro h; simp only [Prod.mk.injEq] at h; exact hq h.1.symm)]; rfl
    refine ⟨_, rfl, by simp only [addEdge]; rw [R.kids], R.nodup, R.live, ?_, R.ext, ?_, ?_, ?_⟩
    · intro z hz x hx
      rcases hpts z x hx with h1 | h1
      · exact R.tgt z hz x h1
      · exact absurd rfl h1.2.1
    · intro x hx; rw [Spec.rc, hD, hE, hr0 _ _ (by decide)]; exact R.deg x hx
    · intro x hx; rw [Spec.own, hD, hr0 _ _ (by decide)]; exact R.own x hx
    · intro x hx hr; rw [Spec.rc, hD, hE, hr0 _ _ (by decide)]; exact R.excl x hx hr
  | rc =>
    cases p with
    | none => exact absurd he id
    | some b =>
      obtain ⟨hb, ho, hlt⟩ := he
      have hrb : h.ret b = false := by
        cases hr : h.ret b with
        | false => rfl
        | true => have := R.own b hb; rw [hr, ho] at this; simp at this
      have hdb := R.deg b hb
      have hlb : h.live b = true := (R.live b).2 hb
      have hrd : ∀ x, refs (addEdge s y (.rc, some b)).kids s.D .del x = refs s.kids s.D .del x := by
        intro x; rw [hre, if_neg (by simp)]; rfl
      have hrc : ∀ x, x ≠ b → refs (addEdge s y (.rc, some b)).kids s.D .rc x = refs s.kids s.D .rc x := by
        intro x hx
        rw [hre, if_neg]
        · rfl
        · simp only [Prod.mk.injEq, Option.some.injEq, true_and]; exact fun e => hx e.symm
      have hrcb : refs (addEdge s y (.rc, some b)).kids s.D .rc b = refs s.kids s.D .rc b + 1 := by
        rw [hre, if_pos rfl]
      refine ⟨{ h with kids := upd h.kids y (h.kids y ++ [(.rc, some b)]),
                       deg := upd h.deg b ((h.deg b + 1) % 65536) },
        by simp only [incrIndegree, incrRc, hlb, hrb, if_true, Bool.false_eq_true, if_false],
        by simp only [addEdge]; rw [R.kids], R.nodup, R.live, ?_, R.ext, ?_, ?_, ?_⟩
      · intro z hz x hx
        rcases hpts z x hx with h1 | h1
        · exact R.tgt z hz x h1
        · have : b = x := by simpa using h1.2.2
          rw [← this]; exact hb
      · intro x hx
        rw [Spec.rc, hD, hE]
        by_cases hxb : x = b
        · subst hxb
          rw [hrcb]
          simp only [upd, if_true]
          rw [hdb, Spec.rc, Nat.mod_eq_of_lt (by simp only [Spec.rc] at hlt; omega)]
          omega
        · rw [hrc x hxb]
          simp only [upd, if_neg hxb]
          exact R.deg x hx
      · intro x hx; rw [Spec.own, hD, hrd]; exact R.own x hx
      · intro x hx hr
        have hxb : x ≠ b := by
          rintro rfl
          have hr' : h.ret x = true := hr
          rw [hrb] at hr'; simp at hr'
        rw [Spec.rc, hD, hE, hrc x hxb]; exact R.excl x hx hr
  | del =>
    cases p with
    | none => exact absurd he id
    | some b =>
      obtain ⟨hb, hf1, hf2⟩ := he
      have hlb : h.live b = true := (R.live b).2 hb
      have hrc : ∀ x, refs (addEdge s y (.del, some b)).kids s.D .rc x = refs s.kids s.D .rc x := by
        intro x; rw [hre, if_neg (by simp)]; rfl
      have hrd : ∀ x, x ≠ b → refs (addEdge s y (.del, some b)).kids s.D .del x = refs s.kids s.D .del x := by
        intro x hx
        rw [hre, if_neg]
        · rfl
        · simp only [Prod.mk.injEq, Option.some.injEq, true_and]; exact fun e => hx e.symm
      have hrdb : refs (addEdge s y (.del, some b)).kids s.D .del b = refs s.kids s.D .del b + 1 := by
        rw [hre, if_pos rfl]
      refine ⟨{ h with kids := upd h.kids y (h.kids y ++ [(.del, some b)]), ret := upd h.ret b true },
        by simp only [incrIndegree, retain, hlb, if_true],
        by simp only [addEdge]; rw [R.kids], R.nodup, R.live, ?_, R.ext, ?_, ?_, ?_⟩
      · intro z hz x hx
        rcases hpts z x hx with h1 | h1
        · exact R.tgt z hz x h1
        · have : b = x := by simpa using h1.2.2
          rw [← this]; exact hb
      · intro x hx
        rw [Spec.rc, hD, hE, hrc]
        exact R.deg x hx
      · intro x hx
        rw [Spec.own, hD]
        by_cases hxb : x = b
        · subst hxb
          have h0 : upd h.ret x true x = true := by simp [upd]
          show _ = if upd h.ret x true x = true then 1 else 0
          rw [hrdb, h0]
          simp only [Spec.own] at hf2
          rw [hf2]; rfl
        · have h0 : upd h.ret b true x = h.ret x := by simp [upd, hxb]
          show _ = if upd h.ret b true x = true then 1 else 0
          rw [hrd x hxb, h0]
          exact R.own x hx
      · intro x hx hr
        rw [Spec.rc, hD, hE, hrc]
        by_cases hxb : x = b
        · subst hxb; exact hf1
        · simp only [upd, if_neg hxb] at hr
          exact R.excl x hx hr

theorem remove_spec {s : Spec} {h : RHeap} (R : Rel s h) {y i : Nat} {e : Edge} (hy : y ∈ s.D)
    (hi : (s.kids y)[i]? = some e) (he : e.1 = .noop ∨ e.2 ≠ none) :
    ∃ h', listRemove h y i = .ok h' ∧
      Rel { s with kids := upd s.kids y ((s.kids y).eraseIdx i) } h' := by
  have hly : h.live y = true := (R.live y).2 hy
  obtain ⟨hlt, hei⟩ := List.getElem?_eq_some_iff.1 hi
  have hperm : (e :: (s.kids y).eraseIdx i).Perm (s.kids y) := by
    rw [← hei]; exact List.getElem_cons_eraseIdx_perm hlt
  let k' := upd s.kids y ((s.kids y).eraseIdx i)
  have hre : ∀ pol x, refs s.kids s.D pol x =
      refs k' s.D pol x + if e = (pol, some x) then 1 else 0 := by
    intro pol x
    have h1 := refs_upd (kids := s.kids) R.nodup hy ((s.kids y).eraseIdx i) pol x
    have h2 := hperm.count_eq (pol, some x)
    rw [count_cons'] at h2
    show _ = refs (upd s.kids y ((s.kids y).eraseIdx i)) s.D pol x + _
    omega
  have hpts : ∀ z x, Pts k' z x → Pts s.kids z x := by
    rintro z x ⟨pol, hn, hm⟩
    refine ⟨pol, hn, ?_⟩
    simp only [k', upd] at hm
    split at hm
    · next hz => rw [hz]; exact List.mem_of_mem_eraseIdx hm
    · exact hm
  have hk : h.kids y = s.kids y := by rw [R.kids]
  rw [listRemove, if_pos hly, hk, hi]
  simp only
  obtain ⟨pol, p⟩ := e
  cases pol with
  | noop =>
    have hr0 : ∀ q x, q ≠ .noop → refs k' s.D q x = refs s.kids s.D q x := by
      intro q x hq
      rw [hre, if_neg (by rintro h; simp only [Prod.mk.injEq] at h; exact hq h.1.symm)]; rfl
    refine ⟨_, rfl, by simp only; rw [R.kids], R.nodup, R.live, ?_, R.ext, ?_, ?_, ?_⟩
    · intro z hz x hx; exact R.tgt z hz x (hpts z x hx)
    · intro x hx; show _ = refs k' s.D .rc x + s.ext x; rw [hr0 _ _ (by decide)]; exact R.deg x hx
    · intro x hx; show refs k' s.D .del x = _; rw [hr0 _ _ (by decide)]; exact R.own x hx
    · intro x hx hr; show refs k' s.D .rc x + s.ext x = 0; rw [hr0 _ _ (by decide)]; exact R.excl x hx hr
  | rc =>
    cases p with
    | none => simp at he
    | some b =>
      have hb : b ∈ s.D := R.tgt y hy b ⟨.rc, by decide, List.mem_of_getElem? hi⟩
      have hlb : h.live b = true := (R.live b).2 hb
      have hrcb : refs s.kids s.D .rc b = refs k' s.D .rc b + 1 := by rw [hre, if_pos rfl]
      have hrc : ∀ x, x ≠ b → refs k' s.D .rc x = refs s.kids s.D .rc x := by
        intro x hx
        rw [hre, if_neg]
        · rfl
        · simp only [Prod.mk.injEq, Option.some.injEq, true_and]; exact fun e => hx e.symm
      have hrd : ∀ x, refs k' s.D .del x = refs s.kids s.D .del x := by
        intro x; rw [hre, if_neg (by simp)]; rfl
      have hrb : h.ret b = false := by
        cases hr : h.ret b with
        | false => rfl
        | true => have := R.excl b hb hr; simp only [Spec.rc] at this; omega
      have hdb := R.deg b hb
      simp only [Spec.rc] at hdb
      have hd0 : h.deg b ≠ 0 := by omega
      refine ⟨{ h with kids := upd h.kids y ((s.kids y).eraseIdx i),
                       deg := upd h.deg b (h.deg b - 1) },
        by simp only [decrIndegree, decrRc, hlb, hrb, if_true, Bool.false_eq_true, if_false,
          if_pos hd0],
        by simp only; rw [R.kids], R.nodup, R.live, ?_, R.ext, ?_, ?_, ?_⟩
      · intro z hz x hx; exact R.tgt z hz x (hpts z x hx)
      · intro x hx
        show _ = refs k' s.D .rc x + s.ext x
        by_cases hxb : x = b
        · subst hxb; simp only [upd, if_true]; omega
        · rw [hrc x hxb]; simp only [upd, if_neg hxb]; exact R.deg x hx
      · intro x hx; show refs k' s.D .del x = _; rw [hrd]; exact R.own x hx
      · intro x hx hr
        show refs k' s.D .rc x + s.ext x = 0
        have hxb : x ≠ b := by
          rintro rfl
          have hr' : h.ret x = true := hr
          rw [hrb] at hr'; simp at hr'
        rw [hrc x hxb]; exact R.excl x hx hr
  | del =>
    cases p with
    | none => simp at he
    | some b =>
      have hb : b ∈ s.D := R.tgt y hy b ⟨.del, by decide, List.mem_of_getElem? hi⟩
      have hlb : h.live b = true := (R.live b).2 hb
      have hrdb : refs s.kids s.D .del b = refs k' s.D .del b + 1 := by rw [hre, if_pos rfl]
      have hrd : ∀ x, x ≠ b → refs k' s.D .del x = refs s.kids s.D .del x := by
        intro x hx
        rw [hre, if_neg]
        · rfl
        · simp only [Prod.mk.injEq, Option.some.injEq, true_and]; exact fun e => hx e.symm
      have hrc : ∀ x, refs k' s.D .rc x = refs s.kids s.D .rc x := by
        intro x; rw [hre, if_neg (by simp)]; rfl
      have hob := R.own b hb
      simp only [Spec.own] at hob
      have hrb : h.ret b = true := by
        cases hr : h.ret b with
        | true => rfl
        | false => rw [hr] at hob; simp at hob; omega
      rw [hrb] at hob
      simp only [if_true] at hob
      refine ⟨{ h with kids := upd h.kids y ((s.kids y).eraseIdx i), ret := upd h.ret b false },
        by simp only [decrIndegree, release, hlb, hrb, if_true],
        by simp only; rw [R.kids], R.nodup, R.live, ?_, R.ext, ?_, ?_, ?_⟩
      · intro z hz x hx; exact R.tgt z hz x (hpts z x hx)
      · intro x hx; show _ = refs k' s.D .rc x + s.ext x; rw [hrc]; exact R.deg x hx
      · intro x hx
        show refs k' s.D .del x = _
        by_cases hxb : x = b
        · subst hxb
          have h0 : upd h.ret x false x = false := by simp [upd]
          show _ = if upd h.ret x false x = true then 1 else 0
          rw [h0]
          simp only [Bool.false_eq_true, if_false]
          omega
        · have h0 : upd h.ret b false x = h.ret x := by simp [upd, hxb]
          show _ = if upd h.ret b false x = true then 1 else 0
          rw [hrd x hxb, h0]
          exact R.own x hx
      · intro x hx hr
        show refs k' s.D .rc x + s.ext x = 0
        rw [hrc]
        by_cases hxb : x = b
        · subst hxb; simp [upd] at hr
        · simp only [upd, if_neg hxb] at hr
          exact R.excl x hx hr

theorem incr_spec {s : Spec} {h : RHeap} (R : Rel s h) {b : Nat} (hb : b ∈ s.D) (ho : s.own b = 0)
    (hlt : s.rc b + 1 < 65536) : ∃ h', incrIndegree h (.rc, some b) = .ok h' ∧
      Rel { s with ext := upd s.ext b (s.ext b + 1) } h' := by
  have hrb : h.ret b = false := by
    cases hr : h.ret b with
    | false => rfl
    | true => have := R.own b hb; rw [hr, ho] at this; simp at this
  have hlb : h.live b = true := (R.live b).2 hb
  refine ⟨{ h with deg := upd h.deg b ((h.deg b + 1) % 65536) }, by simp [incrIndegree, incrRc, hlb, hrb],
    R.kids, R.nodup, R.live, R.tgt, ?_, ?_, R.own, ?_⟩
  · intro x hx
    by_cases hxb : x = b
    · rw [hxb]; exact hb
    · simp only [upd, if_neg hxb] at hx; exact R.ext x hx
  · intro x hx
    by_cases hxb : x = b
    · subst hxb
      simp only [upd, if_true, Spec.rc]
      rw [R.deg x hb, Nat.mod_eq_of_lt hlt]
      simp only [Spec.rc]
      omega
    · simp only [upd, if_neg hxb, Spec.rc]
      exact R.deg x hx
  · intro x hx hr
    have hxb : x ≠ b := by
      rintro rfl
      have hr' : h.ret x = true := hr
      rw [hrb] at hr'; simp at hr'
    simp only [Spec.rc, upd, if_neg hxb]
    exact R.excl x hx hr

/-- the counting operations do not look at the pointers held -/
theorem incrIndegree_kids {h h' : RHeap} {e : Edge} (he : incrIndegree h e = .ok h')
    (k : Nat → List Edge) : incrIndegree { h with kids := k } e = .ok { h' with kids := k } := by
  obtain ⟨pol, p⟩ := e
  cases pol <;> cases p <;> simp only [incrIndegree, incrRc, retain, Res.ok.injEq] at he ⊢
  · simp at he
  · split at he
    · next hl =>
      rw [if_pos hl]
      split at he
      · next hr => rw [if_pos hr]; simp only [Res.ok.injEq] at he; rw [he]
      · next hr => rw [if_neg hr]; simp only [Res.ok.injEq] at he; rw [← he]
    · simp at he
  · simp at he
  · split at he
    · next hl => rw [if_pos hl]; simp only [Res.ok.injEq] at he; rw [← he]
    · simp at he
  · rw [he]
  · rw [he]

theorem incrAll_spec (es : List Edge) {s : Spec} {h : RHeap} (R : Rel s h) {y : Nat} (hy : y ∈ s.D)
    (he : OkEdges s y es) :
    ∃ h', incrAll { h with kids := upd h.kids y (h.kids y ++ es) } es = .ok h' ∧
      Rel (addEdges s y es) h' := by
  induction es generalizing s h with
  | nil =>
    refine ⟨h, ?_, R⟩
    have : upd h.kids y (h.kids y ++ []) = h.kids := by
      funext z; by_cases hz : z = y <;> simp [upd, hz]
    rw [this]; rfl
  | cons e es ih =>
    obtain ⟨h1, e1, R1⟩ := append_spec R hy he.1
    have hly : h.live y = true := (R.live y).2 hy
    rw [listAppend, if_pos hly] at e1
    obtain ⟨h2, e2, R2⟩ := ih R1 hy he.2
    refine ⟨h2, ?_, R2⟩
    have e3 := incrIndegree_kids e1 (upd h.kids y (h.kids y ++ e :: es))
    have hk : upd h1.kids y (h1.kids y ++ es) = upd h.kids y (h.kids y ++ e :: es) := by
      have : h1.kids = upd h.kids y (h.kids y ++ [e]) := by rw [R1.kids, R.kids]; rfl
      funext z
      rw [this]
      by_cases hz : z = y <;> simp [upd, hz]
    rw [hk] at e2
    rw [incrAll, e3]
    exact e2

theorem tuple_spec {s : Spec} {h : RHeap} (R : Rel s h) {x : Nat} {es : List Edge} (hx : x ∉ s.D)
    (he : OkEdges (mkBlock s x) x es) :
    ∃ h', tupleMk h x es = .ok h' ∧ Rel (addEdges (mkBlock s x) x es) h' := by
  have R1 := mk_spec R hx
  obtain ⟨h', e, R'⟩ := incrAll_spec es R1 (by simp [mkBlock]) he
  refine ⟨h', ?_, R'⟩
  rw [tupleMk, ← e]
  congr 1
  have : upd (newBlock h x []).kids x ((newBlock h x []).kids x ++ es) = upd h.kids x es := by
    funext z
    by_cases hz : z = x <;> simp [newBlock, upd, hz]
  rw [this]; rfl

theorem exec_spec {s : Spec} {h : RHeap} (R : Rel s h) (op : Op) (ok : OkOp s op) {fuel : Nat}
    (hf : s.D.length ≤ fuel) : ∃ h', exec fuel h op = .ok (some h') ∧ Rel (specStep s op) h' := by
  cases op with
  | mk x => exact ⟨_, rfl, mk_spec R ok⟩
  | mkTuple x es =>
    obtain ⟨h', e, R'⟩ := tuple_spec R ok.1 ok.2
    exact ⟨h', by rw [exec, e]; rfl, R'⟩
  | append y e =>
    obtain ⟨h', e', R'⟩ := append_spec R ok.1 ok.2
    exact ⟨h', by rw [exec, e']; rfl, R'⟩
  | remove y i =>
    obtain ⟨hy, e, hi, he⟩ := ok
    obtain ⟨h', e', R'⟩ := remove_spec R hy hi he
    exact ⟨h', by rw [exec, e']; rfl, R'⟩
  | incr p =>
    obtain ⟨b, rfl, hb, ho, hlt⟩ := ok
    obtain ⟨h', e', R'⟩ := incr_spec R hb ho hlt
    exact ⟨h', by rw [exec, e']; rfl, R'⟩
  | delRef p =>
    cases p with
    | none => exact ⟨h, rfl, R⟩
    | some a =>
      obtain ⟨ha, hok⟩ := ok
      obtain ⟨H1, H2⟩ := drop_spec R ha hf
      rcases hok with he | hfl
      · exact H1 he
      · obtain ⟨⟨h', e, R'⟩, e2⟩ := H2 hfl
        exact ⟨h', by rw [exec, e2, e], R'⟩
  | del p =>
    cases p with
    | none => exact ⟨h, rfl, R⟩
    | some a => exact ((drop_spec R ok.1 hf).2 ok.2).1

theorem addEdges_D (s : Spec) (y : Nat) (es : List Edge) : (addEdges s y es).D = s.D := by
  induction es generalizing s with
  | nil => rfl
  | cons e es ih => rw [addEdges, ih]; rfl

theorem step_length (s : Spec) (op : Op) : (specStep s op).D.length ≤ s.D.length + 1 := by
  classical
  cases op with
  | mk x => simp [specStep, mkBlock]
  | mkTuple x es => simp [specStep, addEdges_D, mkBlock]
  | append y e => simp [specStep, addEdge]
  | remove y i => simp [specStep]
  | incr p => cases p <;> simp [specStep]
  | delRef p =>
    cases p with
    | none => simp [specStep]
    | some a => simp only [specStep, Spec.drop]; exact Nat.le_succ_of_le (List.length_filter_le _ _)
  | del p =>
    cases p with
    | none => simp [specStep]
    | some a => simp only [specStep, Spec.drop]; exact Nat.le_succ_of_le (List.length_filter_le _ _)

theorem execAll_spec (ops : List Op) {s : Spec} {h : RHeap} (R : Rel s h) (hl : Legal s ops)
    {fuel : Nat} (hf : s.D.length + ops.length ≤ fuel) :
    ∃ h', execAll fuel h ops = .ok (some h') ∧ Rel (specRun s ops) h' := by
  induction ops generalizing s h with
  | nil => exact ⟨h, rfl, R⟩
  | cons op ops ih =>
    simp only [List.length_cons] at hf
    obtain ⟨h1, e1, R1⟩ := exec_spec R op hl.1 (fuel := fuel) (by omega)
    have := step_length s op
    obtain ⟨h2, e2, R2⟩ := ih R1 hl.2 (by omega)
    exact ⟨h2, by rw [execAll, e1]; exact e2, R2⟩

/-- the empty heap -/
def empty : RHeap := ⟨fun _ => false, fun _ => [], fun _ => 0, fun _ => false⟩
def specEmpty : Spec := ⟨[], fun _ => [], fun _ => 0⟩

theorem rel_empty : Rel specEmpty empty :=
  ⟨rfl, List.nodup_nil, by simp [empty, specEmpty], by simp [specEmpty], by simp [specEmpty],
    by simp [specEmpty], by simp [specEmpty], by simp [specEmpty]⟩

/-- **C21.**  Any program that makes containers and tuples, adds and removes elements under the three
deletion policies, takes references and drops references (`cee_del_ref`, `cee_del`), following the
rules of `OkOp` (owning pointers are exclusive; fewer than 65536 references; a reference is dropped
only if held, or if nothing refers to the block), runs without touching a freed block or freeing
twice, with recursion at most as deep as the number of operations, and at each point the memory is as
the specification says: each deletion has freed exactly the blocks that lost their last reference
(`Unref`), `in_degree` of every live block is the number of references to it, no live block holds a
dangling pointer.  (Acyclicity is not needed: cyclic garbage is merely not freed.) -/
theorem C21_refcounting (ops : List Op) (hl : Legal specEmpty ops) :
    ∃ h, execAll ops.length empty ops = .ok (some h) ∧ Rel (specRun specEmpty ops) h :=
  execAll_spec ops rel_empty hl (by simp [specEmpty])

/-- **C21**, one deletion: from any memory with correct counts, `cee_del_ref(a)` on a held reference
or on an unreferenced block frees exactly the blocks of `Unref`, and afterwards all counts are
correct again. -/
theorem C21_del_ref_exact {s : Spec} {h : RHeap} (R : Rel s h) {a : Nat} (ha : a ∈ s.D)
    (hok : 0 < s.ext a ∨ s.Floating a) : ∃ h', delRef s.D.length h (some a) = .ok (some h') ∧
      (∀ x, h'.live x = true ↔ h.live x = true ∧
        ¬ Unref s.kids s.D (upd s.ext a (s.ext a - 1)) a x) ∧
      ∃ D', (∀ x, x ∈ D' ↔ h'.live x = true) ∧ D'.Nodup ∧
        ∀ x ∈ D', h'.deg x = refs s.kids D' .rc x + upd s.ext a (s.ext a - 1) x := by
  classical
  obtain ⟨h', e, R'⟩ := exec_spec R (.delRef (some a)) ⟨ha, hok⟩ (Nat.le_refl _)
  refine ⟨h', e, ?_, (s.drop a).D, fun x => (R'.live x).symm, R'.nodup, R'.deg⟩
  intro x
  rw [R'.live, R.live]
  simp [specStep, Spec.drop]

/-- a string 1 shared by a tuple 2 and a list 3 (twice), the tuple owned by list 4; then list 4 is
deleted -/
def demoOps : List Op :=
  [.mk 1, .mkTuple 2 [(.rc, some 1), (.noop, none)], .mk 3, .append 3 (.rc, some 1),
   .append 3 (.rc, some 1), .mk 4, .append 4 (.del, some 2), .remove 3 0, .delRef (some 4)]

/-- the hypotheses of C21 are met; the tuple 2 went with its owner 4, the string 1 is still held by
list 3, once -/
example : Legal specEmpty demoOps ∧ ∃ h, execAll 9 empty demoOps = .ok (some h) ∧
    h.live 4 = false ∧ h.live 2 = false ∧ h.live 1 = true ∧ h.deg 1 = 1 := by
  refine ⟨?_, _, rfl, by decide, by decide, by decide, by decide⟩
  simp [demoOps, Legal, OkOp, OkEdges, OkEdge, specStep, mkBlock, addEdges, addEdge, Spec.rc,
    Spec.own, Spec.Floating, refs, upd, specEmpty]

example : Rel specEmpty empty := rel_empty

/-! ## C22 -/

/-- `n` containers, at addresses `2, 3, ...`, each holding one counted pointer to the object 1 -/
def mkHolders (h : RHeap) : Nat → Res RHeap
  | 0 => .ok h
  | n + 1 => (mkHolders h n).bind (fun h => tupleMk h (n + 2) [(.rc, some 1)])

/-- delete the containers `2, .., k + 1` in this order -/
def delHolders (h : RHeap) : Nat → Res (Option RHeap)
  | 0 => .ok (some h)
  | k + 1 =>
    match delHolders h k with
    | .ok (some h) => delRef 2 h (some (k + 2))
    | r => r

/-- the memory when `n` holders were made and the first `k` deleted -/
structure Held (h : RHeap) (n k : Nat) : Prop where
  kids1 : h.kids 1 = []
  ret : ∀ x, h.ret x = false
  kids : ∀ i, k ≤ i → i < n → h.kids (i + 2) = [(.rc, some 1)] ∧ h.deg (i + 2) = 0
  live : ∀ i, h.live (i + 2) = true ↔ k ≤ i ∧ i < n

theorem mkHolders_spec (n : Nat) : ∃ h, mkHolders (newBlock empty 1 []) n = .ok h ∧ Held h n 0 ∧
    h.live 1 = true ∧ h.deg 1 = n % 65536 := by
  induction n with
  | zero =>
    refine ⟨_, rfl, ⟨rfl, ?_, ?_, ?_⟩, rfl, rfl⟩
    · intro x; by_cases hx : x = 1 <;> simp [newBlock, upd, empty, hx]
    · intro i _ hi; omega
    · intro i; simp [newBlock, upd, empty]
  | succ n ih =>
    obtain ⟨h, e, H, hl, hd⟩ := ih
    refine ⟨⟨upd h.live (n + 2) true, upd h.kids (n + 2) [(.rc, some 1)],
      upd (upd h.deg (n + 2) 0) 1 ((h.deg 1 + 1) % 65536), upd h.ret (n + 2) false⟩, ?_,
      ⟨?_, ?_, ?_, ?_⟩, ?_, ?_⟩
    · rw [mkHolders, e]
      have h1 : (1 : Nat) ≠ n + 2 := by omega
      simp [Res.bind, tupleMk, incrAll, incrIndegree, incrRc, newBlock, upd, hl, H.ret]
    · simp [upd, H.kids1]
    · intro x; by_cases hx : x = n + 2 <;> simp [upd, hx, H.ret]
    · intro i h1 h2
      by_cases hx : i = n
      · subst hx; simp [upd]
      · have h3 : ¬ i + 2 = n + 2 := by omega
        have := H.kids i (by omega) (by omega)
        simp [upd, hx, this]
    · intro i
      by_cases hx : i = n
      · subst hx; simp [upd]
      · have h3 : ¬ i + 2 = n + 2 := by omega
        have := H.live i
        simp only [upd, if_neg h3, this]
        omega
    · simp [upd, hl]
    · simp only [upd, if_true, hd]
      omega

/-- deleting one holder while the count of the object is `d > 0` -/
theorem delHolder_spec {h : RHeap} {n k d : Nat} (H : Held h n k) (hk : k < n) (hl : h.live 1 = true)
    (hd : h.deg 1 = d + 1) : ∃ h', delRef 2 h (some (k + 2)) = .ok (some h') ∧ Held h' n (k + 1) ∧
      (h'.live 1 = true ↔ d ≠ 0) ∧ h'.deg 1 = d := by
  have hlk : h.live (k + 2) = true := (H.live k).2 ⟨Nat.le_refl _, hk⟩
  obtain ⟨hkk, hdk⟩ := H.kids k (Nat.le_refl _) hk
  have hne : (1 : Nat) ≠ k + 2 := by omega
  by_cases hd0 : d = 0
  · subst hd0
    refine ⟨⟨upd (upd h.live 1 false) (k + 2) false, h.kids, upd h.deg 1 0, h.ret⟩, ?_,
      ⟨H.kids1, H.ret, ?_, ?_⟩, by simp [upd], by simp [upd]⟩
    · simp [delRef, delRefWith, hlk, hdk, H.ret, traceDel, delLoop, hkk, delE, hl, hd, H.kids1,
        freeBlock, upd]
    · intro i h1 h2
      have := H.kids i (by omega) h2
      have h3 : i + 2 ≠ 1 := by omega
      simp [upd, this]
    · intro i
      by_cases hx : i = k
      · subst hx; simp [upd]; omega
      · have h3 : ¬ i + 2 = k + 2 := by omega
        have := H.live i
        have h4 : i + 2 ≠ 1 := by omega
        simp only [upd, if_neg h3, if_neg h4, this]
        omega
  · refine ⟨⟨upd h.live (k + 2) false, h.kids, upd h.deg 1 d, h.ret⟩, ?_,
      ⟨H.kids1, H.ret, ?_, ?_⟩, by simp [upd, hl, hd0], by simp [upd]⟩
    · simp [delRef, delRefWith, hlk, hdk, H.ret, traceDel, delLoop, hkk, delE, hl, hd, hd0,
        freeBlock, upd]
    · intro i h1 h2
      have := H.kids i (by omega) h2
      have h3 : i + 2 ≠ 1 := by omega
      simp [upd, this]
    · intro i
      by_cases hx : i = k
      · subst hx; simp [upd]; omega
      · have h3 : ¬ i + 2 = k + 2 := by omega
        have := H.live i
        simp only [upd, if_neg h3, this]
        omega

/-- **C22**, what holds: with fewer than 65536 holders the object stays alive until the last one is
deleted, and is then freed.  (For arbitrary programs that never have 65536 references to one object,
see `C21_refcounting`.)  Missing: 65536 or more holders, where the claim is false
(`C22_references_lost_false`). -/
theorem C22_references_lost_partial (n k : Nat) (hn : n < 65536) (hk : k ≤ n) (h0 : 0 < n) :
    ∃ h h', mkHolders (newBlock empty 1 []) n = .ok h ∧ delHolders h k = .ok (some h') ∧
      (h'.live 1 = true ↔ k < n) := by
  obtain ⟨h, e, H, hl, hd⟩ := mkHolders_spec n
  rw [Nat.mod_eq_of_lt hn] at hd
  suffices ∃ h', delHolders h k = .ok (some h') ∧ Held h' n k ∧ h'.deg 1 = n - k ∧
      (h'.live 1 = true ↔ k < n) by
    obtain ⟨h', e', -, -, hl'⟩ := this
    exact ⟨h, h', e, e', hl'⟩
  induction k with
  | zero => exact ⟨h, rfl, H, hd, by simp [hl, h0]⟩
  | succ k ih =>
    obtain ⟨h1, e1, H1, hd1, hl1⟩ := ih (by omega)
    obtain ⟨h2, e2, H2, hl2, hd2⟩ := delHolder_spec H1 (by omega) (hl1.2 (by omega))
      (d := n - k - 1) (by omega)
    refine ⟨h2, by rw [delHolders, e1]; exact e2, H2, by omega, ?_⟩
    rw [hl2]; omega

example : (1000 : Nat) < 65536 ∧ 999 ≤ 1000 ∧ 0 < 1000 := by decide

/-- **C22** is false: with `65536 * j + 1` holders (`j` at least 1), the object is freed when the first
holder is deleted, although all others still hold a counted pointer to it; deleting the second one
then accesses freed memory. -/
theorem C22_references_lost_false (j : Nat) (hj : 0 < j) :
    ∃ h h', mkHolders (newBlock empty 1 []) (65536 * j + 1) = .ok h ∧
      delHolders h 1 = .ok (some h') ∧ h'.live 1 = false ∧
      h'.live 3 = true ∧ (.rc, some 1) ∈ h'.kids 3 ∧ delHolders h 2 = .ub := by
  obtain ⟨h, e, H, hl, hd⟩ := mkHolders_spec (65536 * j + 1)
  obtain ⟨h1, e1, H1, hl1, hd1⟩ := delHolder_spec H (by omega) hl (d := 0) (by omega)
  have e1' : delHolders h 1 = .ok (some h1) := by rw [delHolders]; exact e1
  have h1l : h1.live 1 = false := by
    cases hx : h1.live 1 with
    | false => rfl
    | true => exact absurd (hl1.1 hx) (by simp)
  have hk3 := H1.kids 1 (Nat.le_refl _) (by omega)
  have hl3 : h1.live 3 = true := (H1.live 1).2 ⟨Nat.le_refl _, by omega⟩
  refine ⟨h, h1, e, e1', h1l, hl3, by rw [hk3.1]; simp, ?_⟩
  rw [delHolders, e1']
  simp [delRef, delRefWith, hl3, hk3.2, H1.ret, traceDel, delLoop, hk3.1, delE, h1l]

/-! ## C23 -/

/-- operations under `CEE_DP_DEL_RC` -/
inductive RcOp where
  | incr (p : Ptr)
  | decr (p : Ptr)
  | delRef (p : Ptr)

def execRc (fuel : Nat) (h : RHeap) : RcOp → Res (Option RHeap)
  | .incr p => (incrIndegree h (.rc, p)).map some
  | .decr p => (decrIndegree h (.rc, p)).map some
  | .delRef p => delRef fuel h p

def execRcAll (fuel : Nat) (h : RHeap) : List RcOp → Res (Option RHeap)
  | [] => .ok (some h)
  | op :: ops =>
    match execRc fuel h op with
    | .ok (some h') => execRcAll fuel h' ops
    | r => r

/-- nothing came to life; contents and `retained` bits are the same -/
structure Shrink (h h' : RHeap) : Prop where
  kids : h'.kids = h.kids
  ret : h'.ret = h.ret
  mono : ∀ x, h'.live x = true → h.live x = true

theorem Shrink.refl (h : RHeap) : Shrink h h := ⟨rfl, rfl, fun _ h => h⟩

theorem Shrink.trans {h1 h2 h3 : RHeap} (k1 : Shrink h1 h2) (k2 : Shrink h2 h3) : Shrink h1 h3 :=
  ⟨k2.kids.trans k1.kids, k2.ret.trans k1.ret, fun x hx => k1.mono x (k2.mono x hx)⟩

theorem Shrink.dead {h h' : RHeap} (k : Shrink h h') {y : Nat} (hy : h.live y = false) :
    h'.live y = false := by
  cases hx : h'.live y with
  | false => rfl
  | true => rw [k.mono y hx] at hy; simp at hy

/-- and the object `a`, if it has been freed, has been freed together with an owner -/
def Keeps (a : Nat) (h h' : RHeap) : Prop :=
  Shrink h h' ∧ (h.live a = true → h'.live a = true ∨
    ∃ y, h.live y = true ∧ h'.live y = false ∧ (.del, some a) ∈ h.kids y)

theorem Keeps.refl (a : Nat) (h : RHeap) : Keeps a h h := ⟨.refl h, .inl⟩

theorem Keeps.trans {a : Nat} {h1 h2 h3 : RHeap} (k1 : Keeps a h1 h2) (k2 : Keeps a h2 h3) :
    Keeps a h1 h3 := by
  refine ⟨k1.1.trans k2.1, fun ha => ?_⟩
  rcases k1.2 ha with h | ⟨y, h4, h5, h6⟩
  · rcases k2.2 h with h | ⟨y, h4, h5, h6⟩
    · exact .inl h
    · exact .inr ⟨y, k1.1.mono y h4, h5, by rw [← k1.1.kids]; exact h6⟩
  · exact .inr ⟨y, h4, k2.1.dead h5, h6⟩

/-- `cee_del_ref` either leaves everything but one count, or traces an object that is not retained -/
theorem delRefWith_cases {tr : RHeap → Nat → Res (Option RHeap)} {h h' : RHeap} {p : Ptr}
    (e : delRefWith tr h p = .ok (some h')) :
    ∃ d, h' = { h with deg := d } ∨
      ∃ b, h.ret b = false ∧ tr { h with deg := d } b = .ok (some h') := by
  cases p with
  | none =>
    simp only [delRefWith, Res.ok.injEq, Option.some.injEq] at e
    exact ⟨h.deg, .inl e.symm⟩
  | some b =>
    simp only [delRefWith] at e
    by_cases hl : h.live b = true
    · rw [if_pos hl] at e
      have key : ∃ d, (if h.deg b ≠ 0 then { h with deg := upd h.deg b (h.deg b - 1) } else h) =
          ({ h with deg := d } : RHeap) := by
        split
        · exact ⟨_, rfl⟩
        · exact ⟨h.deg, rfl⟩
      obtain ⟨d, hd⟩ := key
      rw [hd] at e
      refine ⟨d, ?_⟩
      by_cases hgb : h.ret b = true
      · rw [if_pos hgb] at e
        simp only [Res.ok.injEq, Option.some.injEq] at e
        exact .inl e.symm
      · rw [if_neg hgb] at e
        split at e
        · exact .inr ⟨b, by simpa using hgb, e⟩
        · simp only [Res.ok.injEq, Option.some.injEq] at e
          exact .inl e.symm
    · rw [if_neg hl] at e; simp at e

theorem delE_cases {tr : RHeap → Nat → Res (Option RHeap)} {h h' : RHeap} {ed : Edge}
    (e : delE tr h ed = .ok (some h')) :
    ∃ d, h' = { h with deg := d } ∨
      ∃ b, (h.ret b = false ∨ ed = (.del, some b)) ∧ tr { h with deg := d } b = .ok (some h') := by
  obtain ⟨pol, p⟩ := ed
  cases pol with
  | rc =>
    obtain ⟨d, h1 | ⟨b, h2, h3⟩⟩ := delRefWith_cases e
    · exact ⟨d, .inl h1⟩
    · exact ⟨d, .inr ⟨b, .inl h2, h3⟩⟩
  | noop =>
    simp only [delE, Res.ok.injEq, Option.some.injEq] at e
    exact ⟨h.deg, .inl e.symm⟩
  | del =>
    cases p with
    | none =>
      simp only [delE, delWith, Res.ok.injEq, Option.some.injEq] at e
      exact ⟨h.deg, .inl e.symm⟩
    | some z =>
      simp only [delE, delWith] at e
      split at e
      · exact ⟨h.deg, .inr ⟨z, .inr rfl, e⟩⟩
      · simp at e

theorem delLoop_cons {tr : RHeap → Nat → Res (Option RHeap)} {b : Nat} {h h' : RHeap} {ed : Edge}
    {es : List Edge} (e : delLoop tr b h (ed :: es) = .ok (some h')) :
    h.live b = true ∧ ∃ g, delE tr h ed = .ok (some g) ∧ delLoop tr b g es = .ok (some h') := by
  rw [delLoop] at e
  by_cases hl : h.live b = true
  · rw [if_pos hl] at e
    match hx : delE tr h ed, e with
    | .ok (some g), e => exact ⟨hl, g, rfl, by simpa [hx] using e⟩
    | .ok none, e => simp [hx] at e
    | .ub, e => simp [hx] at e
    | .segv, e => simp [hx] at e
  · rw [if_neg hl] at e; simp at e

theorem traceDel_succ {fuel b : Nat} {h h' : RHeap} (e : traceDel (fuel + 1) h b = .ok (some h')) :
    ∃ g, delLoop (traceDel fuel) b h (h.kids b) = .ok (some g) ∧ g.live b = true ∧
      h' = { g with live := upd g.live b false } := by
  rw [traceDel] at e
  match hx : delLoop (traceDel fuel) b h (h.kids b), e with
  | .ok (some g), e =>
    simp only [hx, freeBlock] at e
    by_cases hl : g.live b = true
    · rw [if_pos hl] at e
      simp only [Res.ok.injEq, Option.some.injEq] at e
      exact ⟨g, rfl, hl, e.symm⟩
    · rw [if_neg hl] at e; simp at e
  | .ok none, e => simp [hx] at e
  | .ub, e => simp [hx] at e
  | .segv, e => simp [hx] at e

theorem traceDel_shrink (fuel : Nat) : ∀ h h' b, traceDel fuel h b = .ok (some h') →
    Shrink h h' ∧ h'.live b = false := by
  induction fuel with
  | zero => intro h h' b e; simp [traceDel] at e
  | succ fuel ih =>
    intro h h' b e
    obtain ⟨g, e1, hl, rfl⟩ := traceDel_succ e
    have loop : ∀ (es : List Edge) (h h1 : RHeap),
        delLoop (traceDel fuel) b h es = .ok (some h1) → Shrink h h1 := by
      intro es
      induction es with
      | nil =>
        intro h h1 e
        simp only [delLoop, Res.ok.injEq, Option.some.injEq] at e
        subst e
        exact .refl h
      | cons ed es ihe =>
        intro h h1 e
        obtain ⟨-, g, e1, e2⟩ := delLoop_cons e
        refine Shrink.trans ?_ (ihe g h1 e2)
        obtain ⟨d, rfl | ⟨z, -, hz⟩⟩ := delE_cases e1
        · exact ⟨rfl, rfl, fun _ h => h⟩
        · have := (ih _ _ _ hz).1
          exact ⟨this.kids, this.ret, this.mono⟩
    have k := loop _ _ _ e1
    refine ⟨⟨k.kids, k.ret, fun x hx => ?_⟩, by simp [upd]⟩
    by_cases hxb : x = b
    · subst hxb; simp [upd] at hx
    · simp only [upd, if_neg hxb] at hx; exact k.mono x hx

theorem traceDel_keeps (a : Nat) (fuel : Nat) : ∀ h h' b, b ≠ a → h.ret a = true →
    traceDel fuel h b = .ok (some h') → Keeps a h h' := by
  induction fuel with
  | zero => intro h h' b _ _ e; simp [traceDel] at e
  | succ fuel ih =>
    intro h h' b hba hr e
    have hs := traceDel_shrink _ _ _ _ e
    refine ⟨hs.1, fun hla => ?_⟩
    obtain ⟨g, e1, hl, rfl⟩ := traceDel_succ e
    have loop : ∀ (es : List Edge) (h h1 : RHeap), h.ret a = true → (.del, some a) ∉ es →
        delLoop (traceDel fuel) b h es = .ok (some h1) → Keeps a h h1 := by
      intro es
      induction es with
      | nil =>
        intro h h1 _ _ e
        simp only [delLoop, Res.ok.injEq, Option.some.injEq] at e
        subst e
        exact .refl a h
      | cons ed es ihe =>
        intro h h1 hr hn e
        obtain ⟨-, g, e1, e2⟩ := delLoop_cons e
        have k1 : Keeps a h g := by
          obtain ⟨d, rfl | ⟨z, h2, hz⟩⟩ := delE_cases e1
          · exact ⟨⟨rfl, rfl, fun _ h => h⟩, .inl⟩
          · have hza : z ≠ a := by
              rintro rfl
              rcases h2 with h2 | h2
              · rw [hr] at h2; simp at h2
              · exact hn (by rw [h2]; simp)
            have := ih _ _ _ hza (show ({ h with deg := d } : RHeap).ret a = true from hr) hz
            exact ⟨⟨this.1.kids, this.1.ret, this.1.mono⟩, this.2⟩
        exact k1.trans (ihe g h1 (by rw [k1.1.ret]; exact hr) (fun hx => hn (by simp [hx])) e2)
    by_cases hm : (.del, some a) ∈ h.kids b
    · refine .inr ⟨b, ?_, hs.2, hm⟩
      cases hk : h.kids b with
      | nil => rw [hk] at hm; simp at hm
      | cons ed es => rw [hk] at e1; exact (delLoop_cons e1).1
    · have k := loop _ _ _ hr hm e1
      rcases k.2 hla with h2 | ⟨y, h4, h5, h6⟩
      · left; simp only [upd, if_neg (Ne.symm hba)]; exact h2
      · right
        refine ⟨y, h4, ?_, h6⟩
        by_cases hy : y = b
        · subst hy; simp [upd]
        · simp only [upd, if_neg hy]; exact h5

theorem execRc_keeps {a fuel : Nat} {h h' : RHeap} {op : RcOp} (hr : h.ret a = true)
    (e : execRc fuel h op = .ok (some h')) : Keeps a h h' := by
  cases op with
  | incr p =>
    cases p with
    | none => simp [execRc, incrIndegree, incrRc, Res.map] at e
    | some b =>
      simp only [execRc, incrIndegree, incrRc] at e
      repeat' split at e
      all_goals simp only [Res.map, Res.ok.injEq, Option.some.injEq, reduceCtorEq] at e
      all_goals subst e; exact ⟨⟨rfl, rfl, fun _ h => h⟩, .inl⟩
  | decr p =>
    cases p with
    | none => simp [execRc, decrIndegree, decrRc, Res.map] at e
    | some b =>
      simp only [execRc, decrIndegree, decrRc] at e
      repeat' split at e
      all_goals simp only [Res.map, Res.ok.injEq, Option.some.injEq, reduceCtorEq] at e
      all_goals subst e; exact ⟨⟨rfl, rfl, fun _ h => h⟩, .inl⟩
  | delRef p =>
    obtain ⟨d, rfl | ⟨b, hb, hz⟩⟩ := delRefWith_cases e
    · exact ⟨⟨rfl, rfl, fun _ h => h⟩, .inl⟩
    · have := traceDel_keeps a fuel { h with deg := d } h' b
        (by rintro rfl; rw [hr] at hb; simp at hb) hr hz
      exact ⟨⟨this.1.kids, this.1.ret, this.1.mono⟩, this.2⟩

/-- **C23**: whatever the state of the memory, no sequence of reference operations frees a retained
object, unless it also frees an object that owns it; and the object is still retained afterwards. -/
theorem C23_retained (fuel : Nat) (ops : List RcOp) : ∀ (h h' : RHeap) (a : Nat),
    h.live a = true → h.ret a = true → execRcAll fuel h ops = .ok (some h') →
    h'.ret a = true ∧ (h'.live a = true ∨
      ∃ y, h.live y = true ∧ h'.live y = false ∧ (.del, some a) ∈ h.kids y) := by
  suffices ∀ (h h' : RHeap) (a : Nat), h.ret a = true → execRcAll fuel h ops = .ok (some h') →
      Keeps a h h' by
    intro h h' a hl hr e
    have k := this h h' a hr e
    exact ⟨by rw [k.1.ret]; exact hr, k.2 hl⟩
  induction ops with
  | nil =>
    intro h h' a _ e
    simp only [execRcAll, Res.ok.injEq, Option.some.injEq] at e
    subst e
    exact .refl a h
  | cons op ops ih =>
    intro h h' a hr e
    rw [execRcAll] at e
    match hx : execRc fuel h op, e with
    | .ok (some g), e =>
      have k := execRc_keeps hr hx
      exact k.trans (ih g h' a (by rw [k.1.ret]; exact hr) (by simpa [hx] using e))
    | .ok none, e => simp [hx] at e
    | .ub, e => simp [hx] at e
    | .segv, e => simp [hx] at e

/-- in particular: an object retained by no block at all (`cee_incr_indegree(CEE_DP_DEL, p)` called
by the program) survives every sequence -/
theorem C23_retained_by_program (fuel : Nat) (ops : List RcOp) (h h' : RHeap) (a : Nat)
    (hl : h.live a = true) (hr : h.ret a = true) (hn : ∀ y, (.del, some a) ∉ h.kids y)
    (e : execRcAll fuel h ops = .ok (some h')) : h'.live a = true := by
  rcases (C23_retained fuel ops h h' a hl hr e).2 with h1 | ⟨y, -, -, h3⟩
  · exact h1
  · exact absurd h3 (hn y)

/-- string 1 retained in the list 2: five `cee_del_ref` of it change nothing; the deletion of the list
takes it along -/
def retHeap : RHeap :=
  { live := fun x => x == 1 || x == 2, kids := fun x => if x = 2 then [(.del, some 1)] else [],
    deg := fun _ => 0, ret := fun x => x == 1 }

example : retHeap.live 1 = true ∧ retHeap.ret 1 = true ∧
    (∃ h, execRcAll 3 retHeap [.delRef (some 1), .incr (some 1), .delRef (some 1), .decr (some 1),
      .delRef (some 1), .delRef (some 1)] = .ok (some h) ∧ h.live 1 = true ∧ h.live 2 = true) ∧
    (∃ h, execRcAll 3 retHeap [.delRef (some 1), .delRef (some 2)] = .ok (some h) ∧
      h.live 1 = false) := by
  refine ⟨by decide, by decide, ⟨_, rfl, by decide, by decide⟩, ⟨_, rfl, by decide⟩⟩

/-! ## C49 -/

/-- the argument positions that count for `b`: the counted ones before `b` becomes retained -/
def rcTo (es : List Edge) (b : Nat) : Nat :=
  (es.takeWhile (fun e => e ≠ (.del, some b))).count (.rc, some b)

theorem incrIndegree_spec (h : RHeap) (ed : Edge)
    (H : ed.1 ≠ .noop → ∃ b, ed.2 = some b ∧ h.live b = true) :
    ∃ g, incrIndegree h ed = .ok g ∧ g.live = h.live ∧ g.kids = h.kids ∧
      (∀ b, g.ret b = (h.ret b || decide (ed = (.del, some b)))) ∧
      (∀ b, g.deg b = if h.ret b = false ∧ ed = (.rc, some b) then (h.deg b + 1) % 65536
        else h.deg b) := by
  obtain ⟨pol, p⟩ := ed
  cases pol with
  | noop => exact ⟨h, rfl, rfl, rfl, by simp, by simp⟩
  | rc =>
    obtain ⟨c, rfl, hc⟩ := H (by simp)
    by_cases hr : h.ret c = true
    · refine ⟨h, by simp [incrIndegree, incrRc, hc, hr], rfl, rfl, by simp, ?_⟩
      intro b
      rw [if_neg]
      rintro ⟨h1, h2⟩
      simp only [Prod.mk.injEq, Option.some.injEq, true_and] at h2
      subst h2
      rw [hr] at h1; simp at h1
    · refine ⟨{ h with deg := upd h.deg c ((h.deg c + 1) % 65536) },
        by simp [incrIndegree, incrRc, hc, hr], rfl, rfl, by simp, ?_⟩
      intro b
      by_cases hb : b = c
      · subst hb; simp [upd, hr]
      · simp [upd, hb, Ne.symm hb]
  | del =>
    obtain ⟨c, rfl, hc⟩ := H (by simp)
    refine ⟨{ h with ret := upd h.ret c true }, by simp [incrIndegree, retain, hc], rfl, rfl, ?_,
      by simp⟩
    intro b
    by_cases hb : b = c
    · subst hb; simp [upd]
    · simp [upd, hb, Ne.symm hb]

theorem incrAll_exact (es : List Edge) : ∀ (h : RHeap),
    (∀ e ∈ es, e.1 ≠ .noop → ∃ b, e.2 = some b ∧ h.live b = true) → (∀ b, h.deg b < 65536) →
    ∃ h', incrAll h es = .ok h' ∧ h'.live = h.live ∧ h'.kids = h.kids ∧
      (∀ b, h'.ret b = (h.ret b || decide ((.del, some b) ∈ es))) ∧
      (∀ b, h'.deg b = if h.ret b then h.deg b else (h.deg b + rcTo es b) % 65536) := by
  induction es with
  | nil =>
    intro h _ hb
    exact ⟨h, rfl, rfl, rfl, by simp, fun b => by simp [rcTo, Nat.mod_eq_of_lt (hb b)]⟩
  | cons ed es ih =>
    intro h H hlt
    obtain ⟨g, e1, gl, gk, gr, gd⟩ := incrIndegree_spec h ed (H ed (by simp))
    have glt : ∀ b, g.deg b < 65536 := by
      intro b; rw [gd b]; split
      · omega
      · exact hlt b
    obtain ⟨h', e2, h1, h2, h3, h4⟩ := ih g (fun e he hn => by
      obtain ⟨b, hb, hb'⟩ := H e (by simp [he]) hn
      exact ⟨b, hb, by rw [gl]; exact hb'⟩) glt
    refine ⟨h', by rw [incrAll, e1]; exact e2, h1.trans gl, h2.trans gk, ?_, ?_⟩
    · intro b
      rw [h3 b, gr b, Bool.or_assoc]
      congr 1
      by_cases h5 : ed = (.del, some b)
      · simp [h5]
      · by_cases h6 : (Policy.del, some b) ∈ es
        · simp [h6]
        · have : ¬ (Policy.del, some b) = ed := fun h => h5 h.symm
          simp [h5, h6, this]
    · intro b
      rw [h4 b, gr b, gd b]
      by_cases hr : h.ret b = true
      · simp [hr]
      · have hr : h.ret b = false := by simpa using hr
        by_cases h5 : ed = (.del, some b)
        · simp [hr, h5, rcTo, Nat.mod_eq_of_lt (hlt b)]
        · by_cases h6 : ed = (.rc, some b)
          · simp only [hr, h6, rcTo, List.takeWhile_cons, List.count_cons]
            simp
            omega
          · have h7 : (ed == (Policy.rc, some b)) = false := by simpa using h6
            simp [hr, h5, h6, rcTo, List.takeWhile_cons, List.count_cons]

/-- **C49** (construction): if every argument that is counted or owned is a live block, then making a
tuple stores the arguments and policies in order, and leaves every other block's contents; each counted
argument position adds one to the (16 bit) count of its block, unless the block is retained, and the
owned arguments become retained. -/
theorem C49_tuple_mk (h : RHeap) (x : Nat) (es : List Edge) (hx : h.live x = false)
    (H : ∀ e ∈ es, e.1 ≠ .noop → ∃ b, e.2 = some b ∧ h.live b = true) (hd : ∀ b, h.deg b < 65536) :
    ∃ h', tupleMk h x es = .ok h' ∧ h'.kids x = es ∧ (∀ b, b ≠ x → h'.kids b = h.kids b) ∧
      (∀ b, h'.live b = true ↔ b = x ∨ h.live b = true) ∧
      h'.deg x = 0 ∧ h'.ret x = false ∧
      (∀ b, b ≠ x → (h'.ret b = true ↔ h.ret b = true ∨ (.del, some b) ∈ es)) ∧
      (∀ b, b ≠ x → h'.deg b = if h.ret b then h.deg b else (h.deg b + rcTo es b) % 65536) := by
  have hxe : ∀ pol, pol ≠ .noop → ((pol, some x) : Edge) ∉ es := by
    intro pol hp hm
    obtain ⟨b, hb, hb'⟩ := H _ hm hp
    simp only [Option.some.injEq] at hb
    subst hb
    rw [hx] at hb'; simp at hb'
  have hx0 : rcTo es x = 0 := by
    rw [rcTo, List.count_eq_zero]
    intro hm
    exact hxe .rc (by simp) ((List.takeWhile_prefix _).subset hm)
  obtain ⟨h', e, h1, h2, h3, h4⟩ := incrAll_exact es (newBlock h x es)
    (fun e he hn => by
      obtain ⟨b, hb, hb'⟩ := H e he hn
      refine ⟨b, hb, ?_⟩
      simp only [newBlock, upd]
      split
      · rfl
      · exact hb')
    (fun b => by
      simp only [newBlock, upd]
      split
      · omega
      · exact hd b)
  refine ⟨h', e, by rw [h2]; simp [newBlock, upd], ?_, ?_, ?_, ?_, ?_, ?_⟩
  · intro b hb; rw [h2]; simp [newBlock, upd, hb]
  · intro b; rw [h1]; by_cases hb : b = x <;> simp [newBlock, upd, hb]
  · rw [h4 x]; simp [newBlock, upd, hx0]
  · rw [h3 x]; simp [newBlock, upd, hxe]
  · intro b hb; rw [h3 b]; simp [newBlock, upd, hb]
  · intro b hb; rw [h4 b]; simp [newBlock, upd, hb]

/-- a pair of a shared string and a borrowed NULL, and a triple owning 1 twice over -/
example : (∀ e ∈ ([(.rc, some 1), (.rc, some 1), (.noop, none)] : List Edge), e.1 ≠ .noop →
    ∃ b, e.2 = some b ∧ (newBlock empty 1 []).live b = true) ∧
    (newBlock empty 1 []).live 2 = false ∧ (∀ b, (newBlock empty 1 []).deg b < 65536) ∧
    rcTo [(.rc, some 1), (.rc, some 1), (.noop, none)] 1 = 2 ∧
    rcTo [(.rc, some 1), (.del, some 1), (.rc, some 1)] 1 = 1 := by
  refine ⟨by simp [newBlock, upd], by decide, ?_, by decide, by decide⟩
  intro b; by_cases hb : b = 1 <;> simp [newBlock, upd, empty, hb]

/-- **C49**: `cee_n_tuple_mk` supports at most 16 components; up to 16 it behaves like the others -/
theorem C49_n_tuple (h : RHeap) (x : Nat) (es : List Edge) :
    (16 < es.length → nTupleMk h x es = .segv) ∧
    (es.length ≤ 16 → nTupleMk h x es = tupleMk h x es) := by
  constructor
  · intro hn; simp [nTupleMk, maxNTuple, hn]
  · intro hn; simp [nTupleMk, maxNTuple, Nat.not_lt.2 hn]

/-- **C49**: a NULL argument with policy `CEE_DP_DEL_RC` or `CEE_DP_DEL` is undefined behaviour
(provided the arguments before it are fine), for tuples; `cee_tagged_mk` accepts it. -/
theorem C49_null_argument (h : RHeap) (x : Nat) (pre post : List Edge) (pol : Policy)
    (hp : pol ≠ .noop) (H : ∀ e ∈ pre, e.1 ≠ .noop → ∃ b, e.2 = some b ∧ h.live b = true) :
    tupleMk h x (pre ++ (pol, none) :: post) = .ub ∧
    taggedMk h x (pol, none) = .ok (newBlock h x [(pol, none)]) := by
  refine ⟨?_, rfl⟩
  rw [tupleMk]
  generalize hg : newBlock h x (pre ++ (pol, none) :: post) = g
  have H' : ∀ e ∈ pre, e.1 ≠ .noop → ∃ b, e.2 = some b ∧ g.live b = true := by
    intro e he hn
    obtain ⟨b, hb, hb'⟩ := H e he hn
    refine ⟨b, hb, ?_⟩
    subst hg
    by_cases hbx : b = x <;> simp [newBlock, upd, hbx, hb']
  clear hg H
  induction pre generalizing g with
  | nil =>
    cases pol with
    | noop => exact absurd rfl hp
    | rc => rfl
    | del => rfl
  | cons e pre ih =>
    obtain ⟨g', e1, gl, -⟩ := incrIndegree_spec g e (H' e (by simp))
    show (incrIndegree g e).bind _ = _
    rw [e1]
    exact ih g' (fun e' he hn => by
      obtain ⟨b, hb, hb'⟩ := H' e' (by simp [he]) hn
      exact ⟨b, hb, by rw [gl]; exact hb'⟩)

example : ∀ e ∈ ([] : List Edge), e.1 ≠ .noop → ∃ b, e.2 = some b ∧ empty.live b = true := by simp

theorem takeWhile_all {α : Type} (p : α → Bool) (l : List α) (h : ∀ a ∈ l, p a = true) :
    l.takeWhile p = l := by
  induction l with
  | nil => rfl
  | cons a l ih =>
    rw [List.takeWhile_cons, h a (by simp)]
    simp [ih (fun b hb => h b (by simp [hb]))]

/-- dropping counted references when every count is larger than the number dropped frees nothing -/
theorem delLoop_rc (fuel x : Nat) (es : List Edge) : ∀ (h : RHeap), h.live x = true →
    (∀ e ∈ es, e.1 = .noop ∨ ∃ b, e = (.rc, some b) ∧ h.live b = true ∧ h.ret b = false) →
    (∀ b, (.rc, some b) ∈ es → es.count (.rc, some b) < h.deg b) →
    ∃ h', delLoop (traceDel fuel) x h es = .ok (some h') ∧ h'.live = h.live ∧ h'.kids = h.kids ∧
      h'.ret = h.ret ∧ ∀ b, h'.deg b = h.deg b - es.count (.rc, some b) := by
  induction es with
  | nil => intro h _ _ _; exact ⟨h, rfl, rfl, rfl, rfl, by simp⟩
  | cons ed es ih =>
    intro h hl H hc
    have step : ∃ g, delE (traceDel fuel) h ed = .ok (some g) ∧ g.live = h.live ∧ g.kids = h.kids ∧
        g.ret = h.ret ∧ ∀ b, g.deg b = h.deg b - if ed = (.rc, some b) then 1 else 0 := by
      rcases H ed (by simp) with h1 | ⟨b, rfl, hb, hr⟩
      · obtain ⟨pol, p⟩ := ed
        simp only at h1
        subst h1
        exact ⟨h, rfl, rfl, rfl, rfl, by simp⟩
      · have h3 := hc b (by simp)
        rw [List.count_cons_self] at h3
        refine ⟨{ h with deg := upd h.deg b (h.deg b - 1) }, ?_, rfl, rfl, rfl, ?_⟩
        · have h4 : h.deg b ≠ 0 := by omega
          have h5 : h.deg b - 1 ≠ 0 := by omega
          simp [delE, delRefWith, hb, h4, hr, upd, h5]
        · intro c
          by_cases hcb : c = b
          · subst hcb; simp [upd]
          · simp [upd, hcb, Ne.symm hcb]
    obtain ⟨g, e1, gl, gk, gr, gd⟩ := step
    obtain ⟨h', e2, h1, h2, h3, h4⟩ := ih g (by rw [gl]; exact hl)
      (fun e he => by rw [gl, gr]; exact H e (by simp [he]))
      (fun b hb => by
        have := hc b (by simp [hb])
        rw [List.count_cons] at this
        rw [gd b]
        by_cases h5 : ed = (.rc, some b)
        · subst h5; simp at this ⊢; omega
        · simp [h5] at this ⊢; omega)
    refine ⟨h', ?_, h1.trans gl, h2.trans gk, h3.trans gr, ?_⟩
    · rw [delLoop, if_pos hl, e1]; exact e2
    · intro b
      rw [h4 b, gd b, List.count_cons]
      by_cases h5 : ed = (.rc, some b)
      · subst h5; simp; omega
      · simp [h5]

/-- **C49** (deletion): a tuple of counted and borrowed arguments, made and then deleted, leaves the
memory as it was: no argument is freed and every count is what it was.  (The arguments are referenced
from elsewhere; when the tuple holds the last reference or owns the arguments, deletion frees them as
described by `C21_refcounting`, of which `mkTuple` is one operation.) -/
theorem C49_mk_delete (h : RHeap) (x : Nat) (es : List Edge) (fuel : Nat) (hx : h.live x = false)
    (H : ∀ e ∈ es, e.1 = .noop ∨ ∃ b, e = (.rc, some b) ∧ h.live b = true ∧ h.ret b = false ∧
      0 < h.deg b)
    (hd : ∀ b, h.deg b + es.count (.rc, some b) < 65536) :
    ∃ h1 h2, tupleMk h x es = .ok h1 ∧ delRef (fuel + 1) h1 (some x) = .ok (some h2) ∧
      h2.live = h.live ∧ ∀ b, b ≠ x → h2.deg b = h.deg b ∧ h2.kids b = h.kids b ∧
        h2.ret b = h.ret b := by
  obtain ⟨h1, e1, k1, k2, k3, k4, k5, k6, k7⟩ := C49_tuple_mk h x es hx
    (fun e he hn => by
      rcases H e he with h1 | ⟨b, rfl, hb, -⟩
      · exact absurd h1 hn
      · exact ⟨b, rfl, hb⟩)
    (fun b => by have := hd b; omega)
  have nodel : ∀ b, (.del, some b) ∉ es := by
    intro b hb
    rcases H _ hb with h1 | ⟨c, h1, -⟩ <;> simp at h1
  have rcEq : ∀ b, rcTo es b = es.count (.rc, some b) := by
    intro b
    rw [rcTo, takeWhile_all]
    intro e he
    simp only [ne_eq, decide_eq_true_eq]
    rintro rfl
    exact nodel b he
  have hne : ∀ b, h.live b = true → b ≠ x := by
    rintro b hb rfl
    rw [hx] at hb; simp at hb
  have deg1 : ∀ b, b ≠ x → h.ret b = false → h1.deg b = h.deg b + es.count (.rc, some b) := by
    intro b hb hr
    rw [k7 b hb, hr, rcEq]
    simpa using Nat.mod_eq_of_lt (hd b)
  obtain ⟨h2, e2, l1, l2, l3, l4⟩ := delLoop_rc fuel x es h1 ((k3 x).2 (.inl rfl))
    (fun e he => by
      rcases H e he with h1 | ⟨b, rfl, hb, hr, -⟩
      · exact .inl h1
      · refine .inr ⟨b, rfl, (k3 b).2 (.inr hb), ?_⟩
        cases hx : h1.ret b with
        | false => rfl
        | true =>
          rcases (k6 b (hne b hb)).1 hx with h | h
          · rw [hr] at h; simp at h
          · exact absurd h (nodel b))
    (fun b hb => by
      rcases H _ hb with h1 | ⟨c, hc, hl, hr, hp⟩
      · simp at h1
      · simp only [Prod.mk.injEq, Option.some.injEq, true_and] at hc
        subst hc
        rw [deg1 b (hne b hl) hr]
        omega)
  have hlx : h1.live x = true := (k3 x).2 (.inl rfl)
  refine ⟨h1, { h2 with live := upd h2.live x false }, e1, ?_, ?_, ?_⟩
  · simp only [delRef, delRefWith, hlx, k4, k5, if_true]
    simp only [ne_eq, not_true_eq_false, if_false, k5, k4, traceDel, k1, e2, freeBlock, l1, hlx]
    simp [k5, k4, k1, e2, l1, hlx]
  · funext b
    by_cases hb : b = x
    · subst hb; simp [upd, hx]
    · simp only [upd, if_neg hb, l1]
      have := k3 b
      simp only [hb, false_or] at this
      exact Bool.eq_iff_iff.2 this
  · intro b hb
    refine ⟨?_, by rw [l2]; exact k2 b hb, ?_⟩
    · show h2.deg b = _
      rw [l4 b]
      cases hr : h.ret b with
      | false => rw [deg1 b hb hr]; omega
      | true =>
        have : es.count (.rc, some b) = 0 := by
          rw [List.count_eq_zero]
          intro hm
          rcases H _ hm with h1 | ⟨c, hc, -, hr', -⟩
          · simp at h1
          · simp only [Prod.mk.injEq, Option.some.injEq, true_and] at hc
            subst hc
            rw [hr] at hr'; simp at hr'
        rw [this, k7 b hb, hr]; simp
    · show h2.ret b = _
      rw [l3]
      have := k6 b hb
      simp only [nodel b, or_false] at this
      exact Bool.eq_iff_iff.2 this

/-- a shared string 1 (one reference elsewhere), stored twice in a triple -/
example : ∀ e ∈ ([(.rc, some 1), (.noop, none), (.rc, some 1)] : List Edge), e.1 = .noop ∨
    ∃ b, e = (.rc, some b) ∧ (⟨fun x => x == 1, fun _ => [], fun _ => 1, fun _ => false⟩ : RHeap).live b
      = true ∧ (⟨fun x => x == 1, fun _ => [], fun _ => 1, fun _ => false⟩ : RHeap).ret b = false ∧
      0 < (⟨fun x => x == 1, fun _ => [], fun _ => 1, fun _ => false⟩ : RHeap).deg b := by simp

/-- **C49** fails for a retained argument: making the tuple takes no reference of it, but deleting the
tuple drops one (cee-common.c:43-45 decrements before looking at `retained`).  Here the string 1 is
held by tuple 2 (counted) and owned by list 3; a tuple 4 of it is made and deleted, after which the count
no longer includes the reference held by tuple 2. -/
theorem C49_retained_argument_false :
    ∃ (h h1 h2 : RHeap), h.live 2 = true ∧ h.kids 2 = [(.rc, some 1)] ∧ h.deg 1 = 1 ∧ h.ret 1 = true ∧
      tupleMk h 4 [(.rc, some 1)] = .ok h1 ∧ h1.deg 1 = 1 ∧
      delRef 2 h1 (some 4) = .ok (some h2) ∧ h2.deg 1 = 0 ∧ h2.live 2 = true := by
  refine ⟨⟨fun x => x == 1 || x == 2 || x == 3, fun x => if x = 2 then [(.rc, some 1)]
    else if x = 3 then [(.del, some 1)] else [], fun x => if x = 1 then 1 else 0, fun x => x == 1⟩,
    _, _, rfl, rfl, rfl, rfl, rfl, rfl, rfl, rfl, rfl⟩

end Verif.Rc.Props
