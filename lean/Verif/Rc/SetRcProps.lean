import Verif.Rc.SetRc
import Verif.Rc.MapRcProps

/-! # The reference counts of what sets, dictionaries and stacks hold (C103) -/

namespace Verif.Rc.SetProps
open Verif.Chain (upd)
open Verif.Rc.Props
open Verif.Rc.MapProps (W upd_self upd_upd incr_frame decr_frame decrIndegree_kids)

/-! ## deletion when no set that has members is deleted -/

theorem delE_mono {tr tr' : RHeap → Nat → Res (Option RHeap)} {h g : RHeap} {e : Edge}
    (he : delE tr h e = .ok (some g))
    (hh : ∀ d b, h.live b = true → tr { h with deg := d } b = .ok (some g) →
      tr' { h with deg := d } b = .ok (some g)) : delE tr' h e = .ok (some g) := by
  obtain ⟨pol, p⟩ := e
  cases pol with
  | noop => exact he
  | del =>
    cases p with
    | none => exact he
    | some b =>
      simp only [delE, delWith] at he ⊢
      split at he
      · next hl => rw [if_pos hl]; exact hh h.deg b hl he
      · cases he
  | rc =>
    cases p with
    | none => exact he
    | some b =>
      simp only [delE, delRefWith] at he ⊢
      split at he
      · next hl =>
        rw [if_pos hl]
        by_cases hd : h.deg b = 0
        · simp only [hd, ne_eq, not_true_eq_false, if_false] at he ⊢
          split at he
          · next hr => rw [if_pos hr]; exact he
          · next hr => rw [if_neg hr]; exact hh h.deg b hl he
        · simp only [ne_eq, hd, not_false_eq_true, if_true] at he ⊢
          split at he
          · next hr => rw [if_pos hr]; exact he
          · next hr =>
            rw [if_neg hr]
            split at he
            · next h0 => rw [if_pos h0]; exact hh _ b hl he
            · next h0 => rw [if_neg h0]; exact he
      · cases he

theorem delE_shrink {fuel : Nat} {h g : RHeap} {e : Edge} (he : delE (traceDel fuel) h e = .ok (some g)) :
    Shrink h g := by
  obtain ⟨d, rfl | ⟨z, -, hz⟩⟩ := delE_cases he
  · exact ⟨rfl, rfl, fun _ h => h⟩
  · have := (traceDel_shrink _ _ _ _ hz).1
    exact ⟨this.kids, this.ret, this.mono⟩

theorem delLoop_shrink {fuel a : Nat} (es : List Edge) : ∀ {h g : RHeap},
    delLoop (traceDel fuel) a h es = .ok (some g) → Shrink h g := by
  induction es with
  | nil => intro h g e; simp only [delLoop, Res.ok.injEq, Option.some.injEq] at e; subst e; exact .refl h
  | cons ed es ih =>
    intro h g e
    obtain ⟨-, g1, e1, e2⟩ := delLoop_cons e
    exact (delE_shrink e1).trans (ih e2)

/-- no set with members is freed on the way from `h` to `h'` -/
def Calm (kind : Nat → Kind) (h h' : RHeap) : Prop :=
  ∀ x, h.live x = true → h'.live x = false → (kind x).isSet = true → h.kids x = []

theorem Calm.first {kind : Nat → Kind} {h g h' : RHeap} (c : Calm kind h h') (k : Shrink g h') : Calm kind h g :=
  fun x hx hg hs => c x hx (k.dead hg) hs

theorem Calm.second {kind : Nat → Kind} {h g h' : RHeap} (c : Calm kind h h') (k : Shrink h g) : Calm kind g h' :=
  fun x hx hg hs => by rw [k.kids]; exact c x (k.mono x hx) hg hs

theorem trS_eq (kind : Nat → Kind) (fuel : Nat) : ∀ h h' a, h.live a = true → traceDel fuel h a = .ok (some h') →
    Calm kind h h' → trS kind fuel h a = .ok (some h') := by
  induction fuel with
  | zero => intro h h' a _ e; simp [traceDel] at e
  | succ fuel ih =>
    intro h h' a hla e c
    have hs := traceDel_shrink _ _ _ _ e
    obtain ⟨g, e1, hl, rfl⟩ := traceDel_succ e
    have loop : ∀ (es : List Edge) (h : RHeap), delLoop (traceDel fuel) a h es = .ok (some g) →
        Calm kind h g → delLoop (trS kind fuel) a h es = .ok (some g) := by
      intro es
      induction es with
      | nil => intro h e _; exact e
      | cons ed es ihe =>
        intro h e c
        obtain ⟨h1, g1, e1, e2⟩ := delLoop_cons e
        have k2 := delLoop_shrink _ e2
        have k1 := delE_shrink e1
        have : delE (trS kind fuel) h ed = .ok (some g1) := by
          refine delE_mono e1 ?_
          intro d b hb hz
          exact ih _ _ _ hb hz (fun x hx hg hs => c.first k2 x hx hg hs)
        rw [delLoop, if_pos h1, this]
        exact ihe g1 e2 (c.second k1)
    have c0 : Calm kind h g := by
      intro x hx hg hs'
      by_cases hxa : x = a
      · subst hxa; rw [hl] at hg; cases hg
      · exact c x hx (by simp only [upd, if_neg hxa]; exact hg) hs'
    have hn : ((kind a).isSet && !(h.kids a).isEmpty) = false := by
      cases hk : (kind a).isSet with
      | false => rfl
      | true => rw [c a hla (by simp [upd]) hk]; rfl
    rw [trS, if_neg (by rw [hn]; simp), loop _ _ e1 c0]
    simp [freeBlock, hl]

/-! ## deletion does not look at the `retained` bit of blocks that nothing counts -/

def setRet (r : Nat → Bool) (h : RHeap) : RHeap := { h with ret := r }

/-- `r` is right for all blocks with counted pointers to them -/
def RetOk (r : Nat → Bool) (h : RHeap) : Prop :=
  ∀ y, h.live y = true → ∀ b, (.rc, some b) ∈ h.kids y → r b = h.ret b

theorem RetOk.shrink {r : Nat → Bool} {h g : RHeap} (k : RetOk r h) (s : Shrink h g) : RetOk r g := by
  intro y hy b hb
  rw [s.kids] at hb
  rw [s.ret]
  exact k y (s.mono y hy) b hb

theorem delE_ret {fuel : Nat} (r : Nat → Bool)
    (ih : ∀ h h' a, h.live a = true → RetOk r h → traceDel fuel h a = .ok (some h') →
      traceDel fuel (setRet r h) a = .ok (some (setRet r h')))
    {h g : RHeap} {e : Edge} (he : delE (traceDel fuel) h e = .ok (some g)) (hk : RetOk r h)
    (hr : ∀ b, e = (.rc, some b) → r b = h.ret b) :
    delE (traceDel fuel) (setRet r h) e = .ok (some (setRet r g)) := by
  obtain ⟨pol, p⟩ := e
  cases pol with
  | noop => cases he; rfl
  | del =>
    cases p with
    | none => cases he; rfl
    | some b =>
      simp only [delE, delWith] at he ⊢
      split at he
      · next hl => rw [if_pos (by exact hl)]; exact ih h g b hl hk he
      · cases he
  | rc =>
    cases p with
    | none => cases he; rfl
    | some b =>
      simp only [delE, delRefWith] at he ⊢
      split at he
      · next hl =>
        rw [if_pos (by exact hl)]
        have hrb : r b = h.ret b := hr b rfl
        by_cases hd : h.deg b = 0
        · simp only [setRet, hd, ne_eq, not_true_eq_false, if_false, hrb] at he ⊢
          split at he
          · next hr => rw [if_pos hr]; cases he; rfl
          · next hr => rw [if_neg hr]; exact ih h g b hl hk he
        · simp only [setRet, ne_eq, hd, not_false_eq_true, if_true, hrb] at he ⊢
          split at he
          · next hr => rw [if_pos hr]; cases he; rfl
          · next hr =>
            rw [if_neg hr]
            split at he
            · next h0 =>
              rw [if_pos h0]
              exact ih ({ h with deg := upd h.deg b (h.deg b - 1) } : RHeap) g b hl hk he
            · next h0 => rw [if_neg h0]; cases he; rfl
      · cases he

theorem traceDel_ret (r : Nat → Bool) (fuel : Nat) : ∀ h h' a, h.live a = true → RetOk r h →
    traceDel fuel h a = .ok (some h') → traceDel fuel (setRet r h) a = .ok (some (setRet r h')) := by
  induction fuel with
  | zero => intro h h' a _ _ e; simp [traceDel] at e
  | succ fuel ih =>
    intro h h' a hla hk e
    obtain ⟨g, e1, hl, rfl⟩ := traceDel_succ e
    have loop : ∀ (es : List Edge) (h : RHeap), delLoop (traceDel fuel) a h es = .ok (some g) →
        RetOk r h → (∀ b, (.rc, some b) ∈ es → r b = h.ret b) →
        delLoop (traceDel fuel) a (setRet r h) es = .ok (some (setRet r g)) := by
      intro es
      induction es with
      | nil => intro h e _ _; cases e; rfl
      | cons ed es ihe =>
        intro h e k hr
        obtain ⟨h1, g1, e1, e2⟩ := delLoop_cons e
        have k1 := delE_shrink e1
        have := delE_ret r ih e1 k (fun b hb => hr b (by rw [hb]; simp))
        rw [delLoop, if_pos (by exact h1), this]
        refine ihe g1 e2 (k.shrink k1) ?_
        intro b hb
        rw [k1.ret]; exact hr b (by simp [hb])
    have := loop _ _ e1 hk (hk a hla)
    rw [traceDel, show (setRet r h).kids a = h.kids a from rfl, this]
    simp [freeBlock, setRet, hl]

/-! ## the specification -/

/-- blocks, what they hold, what the program holds; what the blocks are -/
structure SS where
  s : Spec
  kind : Nat → Kind

/-- the blocks that `m` holds -/
def _root_.Verif.Rc.Props.Spec.members (s : Spec) (m : Nat) : List Nat := (s.kids m).filterMap (·.2)

inductive SOp where
  /-- an operation on blocks as in C21 -/
  | plain (op : Op)
  /-- a new set, dictionary or stack -/
  | make (x : Nat) (k : Kind)
  | sadd (m v : Nat)
  | sremove (m k : Nat)
  | sclear (m : Nat)
  | dadd (d : Nat) (k v : Ptr)
  | push (y : Nat) (e : Ptr)
  | pop (y : Nat)

/-- the references of the set go, one after the other -/
noncomputable def clearSpec (s : Spec) (m : Nat) (dp : Policy) : Spec :=
  let s0 := { s with kids := upd s.kids m [] }
  match dp with
  | .noop => s0
  | .del => (s.members m).foldl Spec.drop s0
  | .rc => (s.members m).foldl Spec.drop { s0 with ext := fun x => s.ext x + (s.members m).count x }

noncomputable def sstep (eqv : Nat → Nat → Bool) (X : SS) : SOp → SS
  | .plain op =>
    { s := specStep X.s op
      kind := match op with
        | .mk x => upd X.kind x .plain
        | .mkTuple x _ => upd X.kind x .plain
        | _ => X.kind }
  | .make x k => ⟨mkBlock X.s x, upd X.kind x k⟩
  | .sadd m v =>
    match X.kind m with
    | .set dp => if (X.s.members m).any (eqv v) then X else { X with s := addEdge X.s m (dp, some v) }
    | _ => X
  | .sremove m k =>
    match X.kind m, (X.s.members m).find? (eqv k) with
    | .set dp, some q =>
      { X with s :=
        { X.s with
          kids := upd X.s.kids m (((X.s.members m).filter (fun z => !eqv k z)).map fun z => (dp, some z))
          ext := if dp = .rc then upd X.s.ext q (X.s.ext q + 1) else X.s.ext } }
    | _, _ => X
  | .sclear m =>
    match X.kind m with
    | .set dp => { X with s := clearSpec X.s m dp }
    | _ => X
  | .dadd d k v => { X with s := { X.s with kids := upd X.s.kids d (dictInsert (X.s.kids d) k v) } }
  | .push y e =>
    match X.kind y with
    | .stack dp cap => if (X.s.kids y).length = cap then X else { X with s := addEdge X.s y (dp, e) }
    | _ => X
  | .pop y => { X with s := { X.s with kids := upd X.s.kids y (X.s.kids y).dropLast } }

/-- no set with members goes -/
def CalmS (X : SS) (s' : Spec) : Prop :=
  ∀ x ∈ X.s.D, x ∉ s'.D → (X.kind x).isSet = true → X.s.kids x = []

/-- what a program may do -/
def SOk (eqv : Nat → Nat → Bool) (X : SS) : SOp → Prop
  | .plain op => OkOp X.s op ∧ CalmS X (specStep X.s op) ∧
    match op with
    | .append y _ => X.kind y = .plain
    | .remove y _ => X.kind y = .plain
    | _ => True
  | .make x _ => x ∉ X.s.D
  | .sadd m v => m ∈ X.s.D ∧ v ∈ X.s.D ∧ ∃ dp, X.kind m = .set dp ∧
    (dp = .noop → ∀ q ∈ X.s.members m, q ∈ X.s.D) ∧
    ((∀ q ∈ X.s.members m, eqv v q = false) → OkEdge X.s (dp, some v)) ∧
    (dp = .noop ∨ v ∉ X.s.members m)
  | .sremove m k => m ∈ X.s.D ∧ k ∈ X.s.D ∧ ∃ dp, X.kind m = .set dp ∧ dp ≠ .del ∧
    (dp = .noop → ∀ q ∈ X.s.members m, q ∈ X.s.D)
  | .sclear m => m ∈ X.s.D ∧ ∃ dp, X.kind m = .set dp ∧ m ∈ (clearSpec X.s m dp).D ∧
    ∀ x ∈ X.s.D, x ∉ (clearSpec X.s m dp).D → (X.kind x).isSet = true → X.s.kids x = []
  | .dadd d k v => d ∈ X.s.D ∧ ∃ o, X.kind d = .dict o ∧ o ≠ .noop ∧ OkEdges X.s d [(.rc, k), (.rc, v)]
  | .push y e => y ∈ X.s.D ∧ ∃ dp cap, X.kind y = .stack dp cap ∧
    ((X.s.kids y).length < cap → OkEdge X.s (dp, e))
  | .pop y => y ∈ X.s.D ∧ ∃ dp cap, X.kind y = .stack dp cap

def SLegal (eqv : Nat → Nat → Bool) (X : SS) : List SOp → Prop
  | [] => True
  | op :: ops => SOk eqv X op ∧ SLegal eqv (sstep eqv X op) ops

noncomputable def srun (eqv : Nat → Nat → Bool) (X : SS) : List SOp → SS
  | [] => X
  | op :: ops => srun eqv (sstep eqv X op) ops

/-- execution on the model -/
def sexec (eqv : Nat → Nat → Bool) (fuel : Nat) (H : SHeap) : SOp → Res (Option SHeap)
  | .plain (.delRef p) => (delRefWith (trS H.kind fuel) H.h p).map fun r => r.map fun h => { H with h := h }
  | .plain (.del p) => (delWith (trS H.kind fuel) H.h p).map fun r => r.map fun h => { H with h := h }
  | .plain (.mk x) => .ok (some (mkKind H x .plain))
  | .plain (.mkTuple x es) => (tupleMk H.h x es).map fun h => some ⟨h, upd H.kind x .plain⟩
  | .plain op => (exec fuel H.h op).map fun r => r.map fun h => { H with h := h }
  | .make x k => .ok (some (mkKind H x k))
  | .sadd m v =>
    match H.kind m with
    | .set dp => (setAdd eqv dp H.h m v).map fun h => some { H with h := h }
    | _ => .ub
  | .sremove m k =>
    match H.kind m with
    | .set dp => (setRemove eqv dp H.h m k).map fun r => some { H with h := r.1 }
    | _ => .ub
  | .sclear m =>
    match H.kind m with
    | .set _ => (setClear (trS H.kind fuel) H.h m).map fun r => r.map fun h => { H with h := h }
    | _ => .ub
  | .dadd d k v =>
    match H.kind d with
    | .dict o => (dictAdd o H.h d k v).map fun h => some { H with h := h }
    | _ => .ub
  | .push y e =>
    match H.kind y with
    | .stack dp cap => (stackPush dp cap H.h y e).map fun r => some { H with h := r.1 }
    | _ => .ub
  | .pop y =>
    match H.kind y with
    | .stack dp _ => (stackPop dp H.h y).map fun r => some { H with h := r.1 }
    | _ => .ub

def sexecAll (eqv : Nat → Nat → Bool) (fuel : Nat) (H : SHeap) : List SOp → Res (Option SHeap)
  | [] => .ok (some H)
  | op :: ops =>
    match sexec eqv fuel H op with
    | .ok (some H) => sexecAll eqv fuel H ops
    | .ok none => .ok none
    | .ub => .ub
    | .segv => .segv

/-- what the blocks hold -/
def WfK (eqv : Nat → Nat → Bool) (l : List Edge) : Kind → Prop
  | .plain => True
  | .set dp => (∀ e ∈ l, e.1 = dp ∧ e.2 ≠ none) ∧ (l.filterMap (·.2)).Pairwise (fun a b => eqv a b = false)
  | .dict _ => ∀ e ∈ l, e.1 = .rc ∧ e.2 ≠ none
  | .stack dp cap => (∀ e ∈ l, e.1 = dp ∧ (dp = .noop ∨ e.2 ≠ none)) ∧ l.length ≤ cap

structure GoodS (eqv : Nat → Nat → Bool) (X : SS) (H : SHeap) : Prop where
  rel : Rel X.s H.h
  kind : H.kind = X.kind
  wf : ∀ m ∈ X.s.D, WfK eqv (X.s.kids m) (X.kind m)

/-! ## proofs: clearing a set -/

theorem set_edges {l : List Edge} {dp : Policy} (h : ∀ e ∈ l, e.1 = dp ∧ e.2 ≠ none) :
    l = (l.filterMap (·.2)).map fun q => (dp, some q) := by
  induction l with
  | nil => rfl
  | cons e l ih =>
    obtain ⟨h1, h2⟩ := h e (by simp)
    obtain ⟨p, q⟩ := e
    cases q with
    | none => exact absurd rfl h2
    | some q =>
      simp only at h1
      subst h1
      rw [List.filterMap_cons]
      simp only [List.map_cons]
      rw [← ih fun e he => h e (by simp [he])]

theorem count_edges (l : List Nat) (dp pol : Policy) (x : Nat) :
    (l.map fun q => ((dp, some q) : Edge)).count (pol, some x) = if dp = pol then l.count x else 0 := by
  induction l with
  | nil => simp
  | cons a l ih =>
    rw [List.map_cons, List.count_cons, ih, List.count_cons]
    by_cases hd : dp = pol <;> by_cases ha : a = x <;> simp [hd, ha]

theorem clearLoop_shrink {fuel : Nat} (es : List Edge) : ∀ {h g : RHeap},
    clearLoop (traceDel fuel) h es = .ok (some g) → Shrink h g := by
  induction es with
  | nil => intro h g e; cases e; exact .refl h
  | cons ed es ih =>
    intro h g e
    rw [clearLoop] at e
    match hx : delE (traceDel fuel) h ed, e with
    | .ok (some g1), e => exact (delE_shrink hx).trans (ih e)
    | .ok none, e => cases e
    | .ub, e => cases e
    | .segv, e => cases e

theorem clearLoop_S {fuel : Nat} (kind : Nat → Kind) (es : List Edge) : ∀ {h g : RHeap},
    clearLoop (traceDel fuel) h es = .ok (some g) → Calm kind h g →
    clearLoop (trS kind fuel) h es = .ok (some g) := by
  induction es with
  | nil => intro h g e _; exact e
  | cons ed es ih =>
    intro h g e c
    rw [clearLoop] at e
    match hx : delE (traceDel fuel) h ed, e with
    | .ok (some g1), e =>
      have k1 := delE_shrink hx
      have k2 := clearLoop_shrink _ e
      rw [clearLoop, delE_mono hx (tr' := trS kind fuel)]
      · exact ih e (c.second k1)
      · intro d b hb hz
        exact trS_eq kind fuel _ _ _ hb hz (fun x hx hg hs => c.first k2 x hx hg hs)
    | .ok none, e => cases e
    | .ub, e => cases e
    | .segv, e => cases e

theorem drop_D_sub (s : Spec) (a x : Nat) (h : x ∈ (s.drop a).D) : x ∈ s.D := by
  classical
  simp only [Spec.drop, List.mem_filter] at h
  exact h.1

theorem drop_len (s : Spec) (a : Nat) : (s.drop a).D.length ≤ s.D.length := by
  classical
  simp only [Spec.drop]
  exact List.length_filter_le _ _

theorem foldl_drop_sub (l : List Nat) : ∀ (s : Spec) (x : Nat), x ∈ (l.foldl Spec.drop s).D → x ∈ s.D := by
  induction l with
  | nil => intro s x h; exact h
  | cons a l ih => intro s x h; exact drop_D_sub s a x (ih _ x h)

theorem foldl_drop_kids (l : List Nat) : ∀ (s : Spec), (l.foldl Spec.drop s).kids = s.kids := by
  induction l with
  | nil => intro s; rfl
  | cons a l ih => intro s; rw [List.foldl_cons, ih]; rfl

theorem clear_rc {fuel : Nat} (l : List Nat) : ∀ {s : Spec} {h : RHeap}, Rel s h → s.D.length ≤ fuel →
    (∀ x, l.count x ≤ s.ext x) →
    ∃ h', clearLoop (traceDel fuel) h (l.map fun q => (.rc, some q)) = .ok (some h') ∧
      Rel (l.foldl Spec.drop s) h' := by
  induction l with
  | nil => intro s h R _ _; exact ⟨h, rfl, R⟩
  | cons a l ih =>
    intro s h R hf hc
    have ha : 0 < s.ext a := by have := hc a; rw [List.count_cons_self] at this; omega
    obtain ⟨h1, e1, R1⟩ := (drop_spec R (R.ext a ha) hf).1 ha
    obtain ⟨h2, e2, R2⟩ := ih R1 (Nat.le_trans (drop_len s a) hf) (by
      intro x
      have := hc x
      simp only [Spec.drop, upd]
      rw [List.count_cons] at this
      split
      · next hx => subst hx; simp at this; omega
      · next hx => omega)
    refine ⟨h2, ?_, R2⟩
    rw [List.map_cons, clearLoop, show delE (traceDel fuel) h (.rc, some a) = .ok (some h1) from e1]
    exact e2

theorem no_pts {s : Spec} {b : Nat} (hf : s.Floating b) {y : Nat} (hy : y ∈ s.D) : ¬ Pts s.kids y b := by
  rintro ⟨pol, hn, hm⟩
  have := refs_pos hy hm
  obtain ⟨h1, h2⟩ := hf
  simp only [Spec.rc, Spec.own] at h1 h2
  cases pol with
  | rc => omega
  | del => omega
  | noop => exact hn rfl

theorem refs_sub (kids : Nat → List Edge) (pol : Policy) (x : Nat) (f : Nat → Bool) (D : List Nat)
    (h : refs kids D pol x = 0) : refs kids (D.filter f) pol x = 0 := by
  induction D with
  | nil => rfl
  | cons y D ih =>
    simp only [refs, List.map_cons, List.sum_cons] at h
    have h2 := ih (by simp only [refs]; omega)
    rw [List.filter_cons]
    split
    · simp only [refs, List.map_cons, List.sum_cons] at h2 ⊢; omega
    · exact h2

theorem drop_floating {s : Spec} {a b : Nat} (hb : s.Floating b) : (s.drop a).Floating b := by
  classical
  obtain ⟨h1, h2⟩ := hb
  simp only [Spec.rc, Spec.own] at h1 h2
  refine ⟨?_, ?_⟩
  · simp only [Spec.rc, Spec.drop]
    rw [refs_sub _ _ _ _ _ (by omega)]
    simp only [upd]
    split
    · next h => subst h; omega
    · omega
  · simp only [Spec.own, Spec.drop]
    exact refs_sub _ _ _ _ _ h2

theorem drop_keeps {s : Spec} {a b : Nat} (hb : b ∈ s.D) (hf : s.Floating b) (hab : b ≠ a) : b ∈ (s.drop a).D := by
  classical
  simp only [Spec.drop, List.mem_filter, hb, true_and, decide_not, Bool.not_eq_true', decide_eq_false_iff_not]
  rintro ⟨_, -, -, h | ⟨y, hy, hp⟩, -⟩
  · exact hab h
  · exact no_pts hf hy hp

theorem drop_gone {s : Spec} {a : Nat} (ha : a ∈ s.D) (hf : s.Floating a) : a ∉ (s.drop a).D := by
  classical
  simp only [Spec.drop, List.mem_filter, ha, true_and, decide_not, Bool.not_eq_true', decide_eq_false_iff_not,
    Classical.not_not]
  refine .intro a ha ?_ (.inl rfl) ?_
  · have := hf.1; simp only [Spec.rc] at this; simp only [upd, if_true]; omega
  · intro y hy hp; exact absurd hp (no_pts hf hy)

theorem clear_del {fuel : Nat} (r : Nat → Bool) (l0 : List Nat) (l : List Nat) : ∀ {s : Spec} {h : RHeap},
    Rel s (setRet r h) → s.D.length ≤ fuel → l.Nodup → (∀ a ∈ l, a ∈ s.D) → (∀ a ∈ l0, a ∈ s.D → s.Floating a) →
    l ⊆ l0 → (∀ b, r b ≠ h.ret b → b ∈ l0) →
    ∃ h', clearLoop (traceDel fuel) h (l.map fun q => (.del, some q)) = .ok (some h') ∧
      Rel (l.foldl Spec.drop s) (setRet r h') ∧ (∀ a ∈ l, a ∉ (l.foldl Spec.drop s).D) := by
  induction l with
  | nil => intro s h R _ _ _ _ _ _; exact ⟨h, rfl, R, by simp⟩
  | cons a l ih =>
    intro s h R hf hnd hin hfl hsub hr
    have haD := hin a (by simp)
    have haF := hfl a (hsub (by simp)) haD
    obtain ⟨⟨h1, e1, R1⟩, -⟩ := (drop_spec R haD hf).2 haF
    have hla : h.live a = true := (R.live a).2 haD
    have e1' : traceDel fuel (setRet r h) a = .ok (some h1) := by
      rw [del, delWith, if_pos (by exact hla)] at e1; exact e1
    have k1 := (traceDel_shrink _ _ _ _ e1').1
    have e2 := traceDel_ret h.ret fuel (setRet r h) h1 a hla (by
      intro y hy b hb
      show h.ret b = r b
      apply Classical.byContradiction
      intro hne
      have hyD := (R.live y).1 hy
      have hp : Pts s.kids y b := ⟨.rc, by simp, by rw [← R.kids]; exact hb⟩
      exact no_pts (hfl b (hr b (fun h => hne h.symm)) (R.tgt y hyD b hp)) hyD hp) e1'
    have e3 : traceDel fuel h a = .ok (some (setRet h.ret h1)) := e2
    have hh1 : setRet r (setRet h.ret h1) = h1 := by
      show ({ h1 with ret := r } : RHeap) = h1
      rw [show r = h1.ret from k1.ret.symm]
    obtain ⟨hna, hnd'⟩ := List.nodup_cons.1 hnd
    obtain ⟨h2, e4, R2, hg⟩ := ih (s := s.drop a) (h := setRet h.ret h1) (by rw [hh1]; exact R1)
      (Nat.le_trans (drop_len s a) hf) hnd'
      (fun b hb => drop_keeps (hin b (by simp [hb])) (hfl b (hsub (by simp [hb])) (hin b (by simp [hb])))
        (by rintro rfl; exact hna hb))
      (fun b hb hbD => drop_floating (hfl b hb (drop_D_sub s a b hbD)))
      (fun b hb => hsub (by simp [hb])) (fun b hb => hr b hb)
    refine ⟨h2, ?_, R2, ?_⟩
    · rw [List.map_cons, clearLoop]
      have : delE (traceDel fuel) h (.del, some a) = .ok (some (setRet h.ret h1)) := by
        simp only [delE, delWith, if_pos hla]; exact e3
      rw [this]; exact e4
    · intro b hb
      rcases List.mem_cons.1 hb with rfl | hb
      · intro hx
        exact drop_gone haD haF (foldl_drop_sub _ _ _ hx)
      · exact hg b hb

/-- other pointers in one block, other references of the program; the counts are the same -/
theorem rel_kids {s : Spec} {h : RHeap} (R : Rel s h) {m : Nat} (l : List Edge) (ext : Nat → Nat)
    (hsub : ∀ e ∈ l, e.1 ≠ .noop → e ∈ s.kids m) (hrc : ∀ x, refs (upd s.kids m l) s.D .rc x + ext x = s.rc x)
    (hdel : ∀ x, refs (upd s.kids m l) s.D .del x = s.own x) (hext : ∀ x, 0 < ext x → x ∈ s.D) :
    Rel ⟨s.D, upd s.kids m l, ext⟩ { h with kids := upd h.kids m l } := by
  refine ⟨by show upd h.kids m l = _; rw [R.kids], R.nodup, R.live, ?_, hext, ?_, ?_, ?_⟩
  · rintro y hy x ⟨pol, hn, hm⟩
    refine R.tgt y hy x ⟨pol, hn, ?_⟩
    simp only [upd] at hm
    split at hm
    · next hy => rw [hy]; exact hsub _ hm hn
    · exact hm
  · intro x hx; rw [Spec.rc]; simp only [hrc x]; exact R.deg x hx
  · intro x hx; rw [Spec.own]; simp only [hdel x]; exact R.own x hx
  · intro x hx hr; rw [Spec.rc]; simp only [hrc x]; exact R.excl x hx hr

theorem clear_spec {eqv : Nat → Nat → Bool} {X : SS} {H : SHeap} (G : GoodS eqv X H) {m fuel : Nat}
    (hf : X.s.D.length ≤ fuel) (ok : SOk eqv X (.sclear m)) :
    ∃ H', sexec eqv fuel H (.sclear m) = .ok (some H') ∧ GoodS eqv (sstep eqv X (.sclear m)) H' := by
  obtain ⟨hm, dp, hk, hlast, hcalm⟩ := ok
  have R := G.rel
  have wf := G.wf m hm
  rw [hk] at wf
  obtain ⟨wf1, wf2⟩ := wf
  have hedges := set_edges wf1
  generalize hl : X.s.members m = l at *
  have hkm : X.s.kids m = l.map fun q => (dp, some q) := by rw [hedges, ← hl]; rfl
  have hru := refs_upd (kids := X.s.kids) R.nodup hm []
  have hcl : (clearSpec X.s m dp).kids = upd X.s.kids m [] := by
    cases dp <;> simp only [clearSpec, foldl_drop_kids]
  have hsubD : ∀ x, x ∈ (clearSpec X.s m dp).D → x ∈ X.s.D := by
    intro x hx
    cases dp with
    | noop => exact hx
    | rc =>
      simp only [clearSpec] at hx
      have := foldl_drop_sub _ _ _ hx
      exact this
    | del =>
      simp only [clearSpec] at hx
      have := foldl_drop_sub _ _ _ hx
      exact this
  have main : ∃ h', clearLoop (traceDel fuel) { H.h with kids := upd H.h.kids m [] } (H.h.kids m) = .ok (some h') ∧
      Rel (clearSpec X.s m dp) h' := by
    rw [show H.h.kids m = l.map fun q => (dp, some q) by rw [R.kids, hkm]]
    cases dp with
    | noop =>
      refine ⟨{ H.h with kids := upd H.h.kids m [] }, ?_, ?_⟩
      · generalize ({ H.h with kids := upd H.h.kids m [] } : RHeap) = g
        clear hlast hcalm hk hkm hedges hl wf1 wf2 hcl hsubD
        induction l with
        | nil => rfl
        | cons a l ih => rw [List.map_cons, clearLoop]; exact ih
      · refine rel_kids R [] X.s.ext (by simp) ?_ ?_ R.ext
        · intro x
          have := hru .rc x
          rw [hkm, count_edges] at this
          simp only [Spec.rc]
          simp at this; omega
        · intro x
          have := hru .del x
          rw [hkm, count_edges] at this
          simp only [Spec.own]
          simpa using this
    | rc =>
      have R0 := rel_kids R (m := m) [] (fun x => X.s.ext x + l.count x) (by simp) (by
          intro x
          have := hru .rc x
          rw [hkm, count_edges] at this
          simp only [Spec.rc]
          simp at this; omega) (by
          intro x
          have := hru .del x
          rw [hkm, count_edges] at this
          simp only [Spec.own]
          simpa using this) (by
          intro x hx
          by_cases h0 : 0 < X.s.ext x
          · exact R.ext x h0
          · have : 0 < l.count x := by omega
            refine R.tgt m hm x ⟨.rc, by simp, ?_⟩
            rw [hkm]
            exact List.mem_map.2 ⟨x, List.count_pos_iff.1 this, rfl⟩)
      obtain ⟨h', e, R'⟩ := clear_rc l R0 hf (by intro x; simp)
      refine ⟨h', e, ?_⟩
      simp only [clearSpec, hl]
      exact R'
    | del =>
      have hown : ∀ x ∈ X.s.D, x ∈ l → l.count x = 1 ∧ H.h.ret x = true := by
        intro x hx hxl
        have h1 := R.own x hx
        have h2 := hru .del x
        rw [hkm, count_edges] at h2
        simp only [Spec.own] at h1
        have := List.count_pos_iff.2 hxl
        simp at h2
        cases hr : H.h.ret x <;> rw [hr] at h1 <;> simp at h1 <;> simp <;> omega
      have hlD : ∀ a ∈ l, a ∈ X.s.D := by
        intro a ha
        refine R.tgt m hm a ⟨.del, by simp, ?_⟩
        rw [hkm]; exact List.mem_map.2 ⟨a, ha, rfl⟩
      let r : Nat → Bool := fun b => H.h.ret b && !(l.contains b)
      let g : RHeap := { H.h with kids := upd H.h.kids m [] }
      have hrc : ∀ x, refs (upd X.s.kids m []) X.s.D .rc x = refs X.s.kids X.s.D .rc x := by
        intro x
        have := hru .rc x
        rw [hkm, count_edges] at this
        simpa using this
      have hdl : ∀ x, refs (upd X.s.kids m []) X.s.D .del x + l.count x = refs X.s.kids X.s.D .del x := by
        intro x
        have := hru .del x
        rw [hkm, count_edges] at this
        simpa using this
      have R0 : Rel { X.s with kids := upd X.s.kids m [] } (setRet r g) := by
        refine ⟨by show upd H.h.kids m [] = _; rw [R.kids], R.nodup, R.live, ?_, R.ext, ?_, ?_, ?_⟩
        · rintro y hy x ⟨pol, hn, hp⟩
          refine R.tgt y hy x ⟨pol, hn, ?_⟩
          simp only [upd] at hp
          split at hp
          · simp at hp
          · exact hp
        · intro x hx
          have := R.deg x hx
          simp only [Spec.rc] at this ⊢
          rw [hrc]; exact this
        · intro x hx
          have h1 := R.own x hx
          have h2 := hdl x
          simp only [Spec.own, setRet, r] at h1 ⊢
          by_cases hxl : x ∈ l
          · obtain ⟨h3, h4⟩ := hown x hx hxl
            rw [h4] at h1
            simp only [h4, Bool.true_and, List.contains_eq_mem, hxl, decide_true, Bool.not_true,
              Bool.false_eq_true, if_false]
            simp at h1; omega
          · have h3 : l.count x = 0 := List.count_eq_zero.2 hxl
            simp only [List.contains_eq_mem, hxl, decide_false, Bool.not_false, Bool.and_true]
            omega
        · intro x hx hr
          simp only [setRet, r, Bool.and_eq_true] at hr
          have := R.excl x hx hr.1
          simp only [Spec.rc] at this ⊢
          rw [hrc]; exact this
      have hF : ∀ a ∈ l, ({ X.s with kids := upd X.s.kids m [] } : Spec).Floating a := by
        intro a ha
        obtain ⟨h3, h4⟩ := hown a (hlD a ha) ha
        refine ⟨?_, ?_⟩
        · have := R.excl a (hlD a ha) h4
          simp only [Spec.rc] at this ⊢
          rw [hrc]; exact this
        · have h1 := R.own a (hlD a ha)
          have h2 := hdl a
          rw [h4] at h1
          simp only [Spec.own, if_true] at h1 ⊢
          omega
      have hnd : l.Nodup := by
        rw [List.nodup_iff_count]
        intro a
        by_cases ha : a ∈ l
        · exact Nat.le_of_eq (hown a (hlD a ha) ha).1
        · rw [List.count_eq_zero.2 ha]; omega
      obtain ⟨h', e, R', hgone⟩ := clear_del r l l (h := g) R0 hf hnd hlD (fun a ha _ => hF a ha) (fun _ h => h)
        (by
          intro b hb
          apply Classical.byContradiction
          intro hn
          apply hb
          simp [r, g, hn])
      refine ⟨h', e, ?_⟩
      have k := clearLoop_shrink _ e
      simp only [clearSpec, hl]
      have hret : ∀ x ∈ (l.foldl Spec.drop { X.s with kids := upd X.s.kids m [] }).D, h'.ret x = r x := by
        intro x hx
        have : x ∉ l := fun hxl => hgone x hxl hx
        rw [k.ret]
        simp [r, g, this]
      refine ⟨R'.kids, R'.nodup, R'.live, R'.tgt, R'.ext, R'.deg, ?_, ?_⟩
      · intro x hx; rw [hret x hx]; exact R'.own x hx
      · intro x hx hr; rw [hret x hx] at hr; exact R'.excl x hx hr
  obtain ⟨h', e, R'⟩ := main
  have e2 := clearLoop_S H.kind _ e (by
    intro x hx hx' hs
    have h1 : x ∈ X.s.D := (R.live x).1 hx
    have h2 : x ∉ (clearSpec X.s m dp).D := by
      intro h; rw [(R'.live x).2 h] at hx'; cases hx'
    rw [G.kind] at hs
    have := hcalm x h1 h2 hs
    show upd H.h.kids m [] x = []
    simp only [upd]
    split
    · rfl
    · rw [R.kids]; exact this)
  refine ⟨{ H with h := h' }, ?_, ?_⟩
  · simp only [sexec, G.kind, hk, setClear, if_pos ((R.live m).2 hm)]
    rw [← G.kind, e2]
    simp only [if_pos ((R'.live m).2 hlast)]
    rfl
  · have hst : sstep eqv X (.sclear m) = { X with s := clearSpec X.s m dp } := by simp only [sstep, hk]
    rw [hst]
    refine ⟨R', G.kind, ?_⟩
    intro z hz
    show WfK eqv ((clearSpec X.s m dp).kids z) (X.kind z)
    rw [hcl]
    by_cases hzm : z = m
    · subst hzm; rw [hk]; simp [upd, WfK]
    · simp only [upd, if_neg hzm]; exact G.wf z (hsubD z hz)

/-! ## proofs: the other operations -/

theorem setFind_eq (eqv : Nat → Nat → Bool) (v : Nat) (l : List Edge) :
    setFind eqv v l = (l.filterMap (·.2)).find? (eqv v) := by
  induction l with
  | nil => rfl
  | cons e l ih =>
    obtain ⟨p, q⟩ := e
    cases q with
    | none => rw [setFind, List.filterMap_cons]; exact ih
    | some q =>
      rw [setFind, List.filterMap_cons]
      simp only [List.find?_cons]
      cases h : eqv v q
      · simpa using ih
      · simp

theorem set_readable {eqv : Nat → Nat → Bool} {X : SS} {H : SHeap} (G : GoodS eqv X H) {m v : Nat} {dp : Policy}
    (hm : m ∈ X.s.D) (hv : v ∈ X.s.D) (hk : X.kind m = .set dp)
    (hn : dp = .noop → ∀ q ∈ X.s.members m, q ∈ X.s.D) : setReadable H.h m v = true := by
  have wf := G.wf m hm
  rw [hk] at wf
  have R := G.rel
  simp only [setReadable, Bool.and_eq_true, (R.live m).2 hm, (R.live v).2 hv, List.all_eq_true, true_and]
  intro e he
  rw [R.kids] at he
  obtain ⟨h1, h2⟩ := wf.1 e he
  obtain ⟨pol, q⟩ := e
  cases q with
  | none => exact absurd rfl h2
  | some q =>
    simp only at h1
    subst h1
    show H.h.live q = true
    rw [R.live]
    by_cases hp : pol = .noop
    · exact hn hp q (List.mem_filterMap.2 ⟨_, he, rfl⟩)
    · exact R.tgt m hm q ⟨pol, hp, he⟩

theorem addEdge_kids (s : Spec) (y : Nat) (e : Edge) (z : Nat) :
    (addEdge s y e).kids z = if z = y then s.kids y ++ [e] else s.kids z := rfl

theorem add_spec {eqv : Nat → Nat → Bool} (E : MapProps.Eqv eqv) {X : SS} {H : SHeap} (G : GoodS eqv X H) {m v : Nat}
    (ok : SOk eqv X (.sadd m v)) (fuel : Nat) :
    ∃ H', sexec eqv fuel H (.sadd m v) = .ok (some H') ∧ GoodS eqv (sstep eqv X (.sadd m v)) H' := by
  obtain ⟨hm, hv, dp, hk, hn, hnew, hsame⟩ := ok
  obtain ⟨hh, kk⟩ := H
  obtain rfl : kk = X.kind := G.kind
  have R := G.rel
  have hrd := set_readable G hm hv hk hn
  simp only [sexec, sstep, hk, setAdd, hrd, if_true]
  rw [setFind_eq, R.kids]
  rw [show (X.s.kids m).filterMap (·.2) = X.s.members m from rfl]
  cases hf : (X.s.members m).find? (eqv v) with
  | some old =>
    have hany : (X.s.members m).any (eqv v) = true := by
      rw [List.any_eq_true]; exact ⟨old, List.mem_of_find?_eq_some hf, List.find?_some hf⟩
    rw [if_pos hany]
    refine ⟨⟨hh, X.kind⟩, ?_, G⟩
    have : (if old ≠ v then Res.ok hh else incrIndegree hh (dp, some v)) = .ok hh := by
      split
      · rfl
      · next h =>
        have : old = v := Classical.not_not.1 h
        rcases hsame with rfl | hs
        · rfl
        · exact absurd (this ▸ List.mem_of_find?_eq_some hf) hs
    simp only [this]; rfl
  | none =>
    rw [List.find?_eq_none] at hf
    have hany : ¬ (X.s.members m).any (eqv v) = true := by
      rw [List.any_eq_true]; rintro ⟨q, h1, h2⟩; exact hf q h1 h2
    rw [if_neg hany]
    obtain ⟨h', e, R'⟩ := append_spec R hm (hnew fun q hq => by simpa using hf q hq)
    rw [listAppend, if_pos ((R.live m).2 hm), R.kids] at e
    refine ⟨⟨h', X.kind⟩, by simp only [e]; rfl, R', G.kind, ?_⟩
    intro z hz
    show WfK eqv ((addEdge X.s m (dp, some v)).kids z) (X.kind z)
    rw [addEdge_kids]
    split
    · next hzm =>
      subst hzm
      have wf := G.wf z hz
      rw [hk] at wf ⊢
      refine ⟨?_, ?_⟩
      · intro e he
        rcases List.mem_append.1 he with he | he
        · exact wf.1 e he
        · rw [List.mem_singleton.1 he]; simp
      · rw [List.filterMap_append, List.pairwise_append]
        refine ⟨wf.2, by simp, ?_⟩
        intro a ha b hb
        have hb' : b = v := by simpa using hb
        subst hb'
        cases hab : eqv a b
        · rfl
        · exact absurd (E.symm _ _ hab) (hf a ha)
    · exact G.wf z hz

theorem erase_filter {eqv : Nat → Nat → Bool} (E : MapProps.Eqv eqv) {k q : Nat} (l : List Nat)
    (hd : l.Pairwise (fun a b => eqv a b = false)) (hf : l.find? (eqv k) = some q) :
    l.erase q = l.filter (fun z => !eqv k z) := by
  induction l with
  | nil => simp at hf
  | cons z l ih =>
    rw [List.find?_cons] at hf
    obtain ⟨h1, h2⟩ := List.pairwise_cons.1 hd
    cases hz : eqv k z with
    | true =>
      rw [hz] at hf
      simp only [Option.some.injEq] at hf
      subst hf
      rw [List.erase_cons_head, List.filter_cons, hz]
      simp only [Bool.not_true, Bool.false_eq_true, if_false]
      rw [MapProps.filter_off l (eqv k)]
      intro y hy
      cases hy' : eqv k y
      · rfl
      · have := h1 y hy
        rw [E.trans _ _ _ (E.symm _ _ hz) hy'] at this; cases this
    | false =>
      rw [hz] at hf
      simp only at hf
      have hzq : z ≠ q := by
        rintro rfl
        rw [List.find?_some hf] at hz; cases hz
      rw [List.erase_cons_tail (by simpa using hzq), List.filter_cons, hz, ih h2 hf]
      simp

theorem remove_spec' {eqv : Nat → Nat → Bool} (E : MapProps.Eqv eqv) {X : SS} {H : SHeap} (G : GoodS eqv X H)
    {m k : Nat} (ok : SOk eqv X (.sremove m k)) (fuel : Nat) :
    ∃ H', sexec eqv fuel H (.sremove m k) = .ok (some H') ∧ GoodS eqv (sstep eqv X (.sremove m k)) H' := by
  obtain ⟨hm, hv, dp, hk, hdp, hn⟩ := ok
  obtain ⟨hh, kk⟩ := H
  obtain rfl : kk = X.kind := G.kind
  have R := G.rel
  have hrd := set_readable G hm hv hk hn
  have wf := G.wf m hm
  rw [hk] at wf
  obtain ⟨wf1, wf2⟩ := wf
  have hkm : X.s.kids m = (X.s.members m).map fun q => (dp, some q) := set_edges wf1
  simp only [sexec, sstep, hk, setRemove, hrd, if_true]
  rw [setFind_eq, R.kids]
  rw [show (X.s.kids m).filterMap (·.2) = X.s.members m from rfl]
  cases hf : (X.s.members m).find? (eqv k) with
  | none => exact ⟨⟨hh, X.kind⟩, rfl, G⟩
  | some q =>
    have hqm := List.mem_of_find?_eq_some hf
    have hqD : q ∈ X.s.D := by
      by_cases hp : dp = .noop
      · exact hn hp q hqm
      · refine R.tgt m hm q ⟨dp, hp, ?_⟩
        rw [hkm]; exact List.mem_map.2 ⟨q, hqm, rfl⟩
    show ∃ H', Res.map _ (Res.ok (({ hh with kids := upd X.s.kids m ((X.s.kids m).erase (dp, some q)) } : RHeap), some q)) =
      _ ∧ GoodS eqv ({ X with s :=
        { X.s with
          kids := upd X.s.kids m (((X.s.members m).filter (fun z => !eqv k z)).map fun z => (dp, some z))
          ext := if dp = .rc then upd X.s.ext q (X.s.ext q + 1) else X.s.ext } }) H'
    have hkk : hh.kids = X.s.kids := R.kids
    have her : (X.s.kids m).erase (dp, some q) =
        ((X.s.members m).filter (fun z => !eqv k z)).map fun z => (dp, some z) := by
      rw [← erase_filter E (X.s.members m) wf2 hf]
      conv => lhs; rw [hkm]
      have hinj : ∀ l : List Nat, (l.map fun z => ((dp, some z) : Edge)).erase (dp, some q) =
          (l.erase q).map fun z => (dp, some z) := by
        intro l
        induction l with
        | nil => rfl
        | cons a l ih =>
          rw [List.map_cons, List.erase_cons, List.erase_cons, ih]
          by_cases haq : a = q <;> simp [haq]
      exact hinj _
    generalize hl' : ((X.s.members m).filter (fun z => !eqv k z)).map (fun z => ((dp, some z) : Edge)) = l' at *
    have hcnt : ∀ pol x, (X.s.kids m).count (pol, some x) =
        l'.count (pol, some x) + if dp = pol ∧ q = x then 1 else 0 := by
      intro pol x
      have hmem : ((dp, some q) : Edge) ∈ X.s.kids m := by rw [hkm]; exact List.mem_map.2 ⟨q, hqm, rfl⟩
      rw [(List.perm_cons_erase hmem).count_eq, her, List.count_cons]
      simp [Prod.ext_iff]
    have hru := refs_upd (kids := X.s.kids) R.nodup hm l'
    have R' := rel_kids R (m := m) l' (if dp = .rc then upd X.s.ext q (X.s.ext q + 1) else X.s.ext) (by
        intro e he _
        rw [← her] at he
        exact List.mem_of_mem_erase he) (by
        intro x
        have h1 := hru .rc x
        have h2 := hcnt .rc x
        simp only [Spec.rc]
        by_cases hp : dp = .rc
        · simp only [hp, if_true, upd, true_and] at h2 ⊢
          by_cases hx : x = q
          · subst hx; simp at h2 ⊢; omega
          · rw [if_neg hx]; rw [if_neg (fun h => hx h.symm)] at h2; omega
        · rw [if_neg hp]
          rw [if_neg (fun h => hp h.1)] at h2; omega) (by
        intro x
        have h1 := hru .del x
        have h2 := hcnt .del x
        rw [if_neg (fun h => hdp h.1)] at h2
        simp only [Spec.own]; omega) (by
        intro x hx
        by_cases hp : dp = .rc
        · simp only [hp, if_true, upd] at hx
          by_cases hxq : x = q
          · subst hxq; exact hqD
          · rw [if_neg hxq] at hx; exact R.ext x hx
        · rw [if_neg hp] at hx; exact R.ext x hx)
    refine ⟨⟨{ hh with kids := upd hh.kids m l' }, X.kind⟩, ?_, R', G.kind, ?_⟩
    · rw [her, hkk]; rfl
    · intro z hz
      show WfK eqv (upd X.s.kids m l' z) (X.kind z)
      by_cases hzm : z = m
      · subst hzm
        rw [hk]
        simp only [upd, if_true]
        rw [← hl']
        refine ⟨?_, ?_⟩
        · intro e he
          obtain ⟨a, -, rfl⟩ := List.mem_map.1 he
          simp
        · rw [List.filterMap_map]
          have : (fun z => some z) = ((fun x : Edge => x.2) ∘ fun z => (dp, some z)) := rfl
          rw [← this, List.filterMap_some]
          exact wf2.sublist List.filter_sublist
      · simp only [upd, if_neg hzm]; exact G.wf z hz

theorem dict_spec {eqv : Nat → Nat → Bool} {X : SS} {H : SHeap} (G : GoodS eqv X H) {d : Nat} {k v : Ptr}
    (ok : SOk eqv X (.dadd d k v)) (fuel : Nat) :
    ∃ H', sexec eqv fuel H (.dadd d k v) = .ok (some H') ∧ GoodS eqv (sstep eqv X (.dadd d k v)) H' := by
  obtain ⟨hd, o, hk, ho, hok1, hok2, -⟩ := ok
  obtain ⟨hh, kk⟩ := H
  obtain rfl : kk = X.kind := G.kind
  have R := G.rel
  have w0 : W X.s { hh with kids := upd hh.kids d (dictInsert (hh.kids d) k v) } := by
    have : ({ hh with kids := X.s.kids } : RHeap) = hh := by rw [← R.kids]
    show Rel X.s ({ hh with kids := X.s.kids } : RHeap)
    rw [this]; exact R
  obtain ⟨h1, e1, w1⟩ := w0.incr hd hok1
  obtain ⟨h2, e2, w2⟩ := w1.incr hd hok2
  have hp : ((addEdge (addEdge X.s d (.rc, k)) d (.rc, v)).kids d).Perm (dictInsert (X.s.kids d) k v) := by
    simp only [addEdge_kids, if_true, dictInsert]
    refine List.Perm.append_right _ ?_
    generalize X.s.kids d = l
    have h0 : l = l.take (l.length / 2) ++ l.drop (l.length / 2) := (List.take_append_drop _ _).symm
    generalize l.length / 2 = n at *
    refine (List.perm_append_singleton _ _).trans ?_
    conv => lhs; rw [h0]
    exact List.perm_middle.symm
  have w3 := w2.perm hp
  have hs : ({ addEdge (addEdge X.s d (.rc, k)) d (.rc, v) with
      kids := upd (addEdge (addEdge X.s d (.rc, k)) d (.rc, v)).kids d (dictInsert (X.s.kids d) k v) } : Spec) =
      { X.s with kids := upd X.s.kids d (dictInsert (X.s.kids d) k v) } := by
    simp only [addEdge, upd_upd]
  rw [hs] at w3
  have hkids : h2.kids = upd X.s.kids d (dictInsert (X.s.kids d) k v) := by
    rw [(incr_frame e2).1, (incr_frame e1).1]
    show upd hh.kids d (dictInsert (hh.kids d) k v) = _
    rw [R.kids]
  refine ⟨⟨h2, X.kind⟩, ?_, w3.to hkids, G.kind, ?_⟩
  · simp only [sexec, hk, dictAdd, if_pos ((R.live d).2 hd), if_neg ho, e1, Res.bind_ok, e2]
    rfl
  · intro z hz
    show WfK eqv (upd X.s.kids d (dictInsert (X.s.kids d) k v) z) (X.kind z)
    by_cases hzd : z = d
    · subst hzd
      have wf := G.wf z hz
      rw [hk] at wf ⊢
      simp only [upd, if_true]
      intro e he
      have hkn : k ≠ none := by rintro rfl; exact hok1
      have hvn : v ≠ none := by rintro rfl; exact hok2
      simp only [dictInsert, List.append_assoc, List.mem_append, List.mem_cons, List.not_mem_nil, or_false] at he
      rcases he with he | (rfl | he) | rfl
      · exact wf e (List.mem_of_mem_take he)
      · exact ⟨rfl, hkn⟩
      · exact wf e (List.mem_of_mem_drop he)
      · exact ⟨rfl, hvn⟩
    · simp only [upd, if_neg hzd]; exact G.wf z hz

theorem push_spec {eqv : Nat → Nat → Bool} {X : SS} {H : SHeap} (G : GoodS eqv X H) {y : Nat} {e : Ptr}
    (ok : SOk eqv X (.push y e)) (fuel : Nat) :
    ∃ H', sexec eqv fuel H (.push y e) = .ok (some H') ∧ GoodS eqv (sstep eqv X (.push y e)) H' := by
  obtain ⟨hy, dp, cap, hk, hok⟩ := ok
  obtain ⟨hh, kk⟩ := H
  obtain rfl : kk = X.kind := G.kind
  have R : Rel X.s hh := G.rel
  have wf := G.wf y hy
  rw [hk] at wf
  simp only [sexec, sstep, hk, stackPush, if_pos ((R.live y).2 hy), R.kids]
  by_cases hc : (X.s.kids y).length = cap
  · rw [if_pos hc, if_pos hc]
    exact ⟨⟨hh, X.kind⟩, rfl, G⟩
  · rw [if_neg hc, if_neg hc]
    have hlt : (X.s.kids y).length < cap := by have := wf.2; omega
    obtain ⟨h', e', R'⟩ := append_spec R hy (hok hlt)
    rw [listAppend, if_pos ((R.live y).2 hy), R.kids] at e'
    refine ⟨⟨h', X.kind⟩, by rw [e']; rfl, R', G.kind, ?_⟩
    intro z hz
    show WfK eqv ((addEdge X.s y (dp, e)).kids z) (X.kind z)
    rw [addEdge_kids]
    split
    · next hzy =>
      subst hzy
      rw [hk]
      refine ⟨?_, by simp only [List.length_append, List.length_singleton]; omega⟩
      intro e1 he
      rcases List.mem_append.1 he with he | he
      · exact wf.1 e1 he
      · rw [List.mem_singleton.1 he]
        refine ⟨rfl, ?_⟩
        have := hok hlt
        cases dp with
        | noop => exact .inl rfl
        | rc => right; rintro rfl; exact this
        | del => right; rintro rfl; exact this
    · exact G.wf z hz

theorem pop_spec {eqv : Nat → Nat → Bool} {X : SS} {H : SHeap} (G : GoodS eqv X H) {y : Nat}
    (ok : SOk eqv X (.pop y)) (fuel : Nat) :
    ∃ H', sexec eqv fuel H (.pop y) = .ok (some H') ∧ GoodS eqv (sstep eqv X (.pop y)) H' := by
  obtain ⟨hy, dp, cap, hk⟩ := ok
  obtain ⟨hh, kk⟩ := H
  obtain rfl : kk = X.kind := G.kind
  have R : Rel X.s hh := G.rel
  have wf := G.wf y hy
  rw [hk] at wf
  simp only [sexec, sstep, hk, stackPop, if_pos ((R.live y).2 hy), R.kids]
  cases hg : (X.s.kids y).getLast? with
  | none =>
    have h0 : X.s.kids y = [] := List.getLast?_eq_none_iff.1 hg
    have : upd X.s.kids y (X.s.kids y).dropLast = X.s.kids := by
      rw [h0]
      conv => rhs; rw [← upd_self X.s.kids y, h0]
      rfl
    rw [this]
    exact ⟨⟨hh, X.kind⟩, rfl, G⟩
  | some e =>
    have hmem : e ∈ X.s.kids y := List.mem_of_getLast? hg
    obtain ⟨he1, he2⟩ := wf.1 e hmem
    have hee : e = (dp, e.2) := by rw [← he1]
    have hi : (X.s.kids y)[(X.s.kids y).length - 1]? = some e := by rw [← List.getLast?_eq_getElem?]; exact hg
    obtain ⟨h', e', R'⟩ := remove_spec R hy hi (by rw [he1]; exact he2)
    rw [listRemove, if_pos ((R.live y).2 hy), R.kids] at e'
    simp only [hi] at e'
    have hdl : (X.s.kids y).eraseIdx ((X.s.kids y).length - 1) = (X.s.kids y).dropLast := by
      rw [List.eraseIdx_eq_take_drop_succ, List.dropLast_eq_take]
      have : (X.s.kids y).drop ((X.s.kids y).length - 1 + 1) = [] := List.drop_eq_nil_of_le (by omega)
      rw [this, List.append_nil]
    rw [hdl] at e' R'
    refine ⟨⟨h', X.kind⟩, ?_, R', G.kind, ?_⟩
    · simp only
      rw [← hee, e']; rfl
    · intro z hz
      show WfK eqv (upd X.s.kids y (X.s.kids y).dropLast z) (X.kind z)
      by_cases hzy : z = y
      · subst hzy
        rw [hk]
        simp only [upd, if_true]
        refine ⟨fun e he => wf.1 e ((List.dropLast_sublist _).subset he), ?_⟩
        have := wf.2
        rw [List.length_dropLast]; omega
      · simp only [upd, if_neg hzy]; exact G.wf z hz

theorem calm_of {eqv : Nat → Nat → Bool} {X : SS} {H : SHeap} (G : GoodS eqv X H) {s' : Spec} {h' : RHeap}
    (R' : Rel s' h') (c : CalmS X s') : Calm H.kind H.h h' := by
  intro x hx hx' hs
  rw [G.kind] at hs
  rw [G.rel.kids]
  refine c x ((G.rel.live x).1 hx) ?_ hs
  intro h; rw [(R'.live x).2 h] at hx'; cases hx'

theorem addEdges_kids (s : Spec) (y : Nat) (es : List Edge) (z : Nat) (hz : z ≠ y) :
    (addEdges s y es).kids z = s.kids z := by
  induction es generalizing s with
  | nil => rfl
  | cons e es ih => rw [addEdges, ih, addEdge_kids, if_neg hz]

theorem plain_spec {eqv : Nat → Nat → Bool} {X : SS} {H : SHeap} (G : GoodS eqv X H) {op : Op} {fuel : Nat}
    (hf : X.s.D.length ≤ fuel) (ok : SOk eqv X (.plain op)) :
    ∃ H', sexec eqv fuel H (.plain op) = .ok (some H') ∧ GoodS eqv (sstep eqv X (.plain op)) H' := by
  obtain ⟨ok, hcalm, hx⟩ := ok
  obtain ⟨hh, kk⟩ := H
  obtain rfl : kk = X.kind := G.kind
  have R : Rel X.s hh := G.rel
  obtain ⟨h', e, R'⟩ := exec_spec R op ok hf
  have wfD : (∀ z ∈ (specStep X.s op).D, z ∈ X.s.D) → (specStep X.s op).kids = X.s.kids →
      ∀ z ∈ (specStep X.s op).D, WfK eqv ((specStep X.s op).kids z) (X.kind z) := by
    intro h1 h2 z hz; rw [h2]; exact G.wf z (h1 z hz)
  cases op with
  | mk x =>
    refine ⟨mkKind ⟨hh, X.kind⟩ x .plain, rfl, ?_, rfl, ?_⟩
    · simp only [exec, Res.ok.injEq, Option.some.injEq] at e
      show Rel _ (newBlock hh x [])
      rw [e]; exact R'
    · intro z hz
      show WfK eqv ((mkBlock X.s x).kids z) (upd X.kind x .plain z)
      have hz' : z ∈ X.s.D ++ [x] := hz
      by_cases hzx : z = x
      · simp [upd, hzx, WfK]
      · simp only [mkBlock, upd, if_neg hzx]
        exact G.wf z (by simpa [hzx] using hz')
  | mkTuple x es =>
    simp only [exec] at e
    obtain ⟨h1, e1, e2⟩ : ∃ h1, tupleMk hh x es = .ok h1 ∧ h1 = h' := by
      cases ht : tupleMk hh x es <;> rw [ht] at e <;> cases e
      exact ⟨_, rfl, rfl⟩
    refine ⟨⟨h', upd X.kind x .plain⟩, by simp only [sexec, e1, e2]; rfl, R', rfl, ?_⟩
    intro z hz
    show WfK eqv ((addEdges (mkBlock X.s x) x es).kids z) (upd X.kind x .plain z)
    have hz' : z ∈ X.s.D ++ [x] := by
      have : z ∈ (addEdges (mkBlock X.s x) x es).D := hz
      rw [addEdges_D] at this; exact this
    by_cases hzx : z = x
    · simp [upd, hzx, WfK]
    · rw [addEdges_kids _ _ _ _ hzx]
      simp only [mkBlock, upd, if_neg hzx]
      exact G.wf z (by simpa [hzx] using hz')
  | append y e0 =>
    refine ⟨⟨h', X.kind⟩, by simp only [sexec, e]; rfl, R', rfl, ?_⟩
    intro z hz
    show WfK eqv ((addEdge X.s y e0).kids z) (X.kind z)
    rw [addEdge_kids]
    split
    · next hzy => subst hzy; rw [show X.kind z = .plain from hx]; trivial
    · exact G.wf z hz
  | remove y i =>
    refine ⟨⟨h', X.kind⟩, by simp only [sexec, e]; rfl, R', rfl, ?_⟩
    intro z hz
    show WfK eqv (upd X.s.kids y _ z) (X.kind z)
    simp only [upd]
    split
    · next hzy => subst hzy; rw [show X.kind z = .plain from hx]; trivial
    · exact G.wf z hz
  | incr p =>
    refine ⟨⟨h', X.kind⟩, by simp only [sexec, e]; rfl, R', rfl, ?_⟩
    refine wfD ?_ ?_ <;> cases p <;> simp [specStep]
  | delRef p =>
    have hc := calm_of G R' hcalm
    have : delRefWith (trS X.kind fuel) hh p = .ok (some h') := by
      refine delE_mono (e := (.rc, p)) (tr := traceDel fuel) e ?_
      intro d b hb hz
      exact trS_eq X.kind fuel _ _ _ hb hz hc
    refine ⟨⟨h', X.kind⟩, by simp only [sexec, this]; rfl, R', rfl, ?_⟩
    refine wfD ?_ ?_
    · cases p with
      | none => exact fun z hz => hz
      | some a => exact fun z hz => drop_D_sub _ a z hz
    · cases p <;> rfl
  | del p =>
    have hc := calm_of G R' hcalm
    have : delWith (trS X.kind fuel) hh p = .ok (some h') := by
      refine delE_mono (e := (.del, p)) (tr := traceDel fuel) e ?_
      intro d b hb hz
      exact trS_eq X.kind fuel _ _ _ hb hz hc
    refine ⟨⟨h', X.kind⟩, by simp only [sexec, this]; rfl, R', rfl, ?_⟩
    refine wfD ?_ ?_
    · cases p with
      | none => exact fun z hz => hz
      | some a => exact fun z hz => drop_D_sub _ a z hz
    · cases p <;> rfl

theorem make_spec {eqv : Nat → Nat → Bool} {X : SS} {H : SHeap} (G : GoodS eqv X H) {x : Nat} {k : Kind}
    (ok : SOk eqv X (.make x k)) (fuel : Nat) :
    ∃ H', sexec eqv fuel H (.make x k) = .ok (some H') ∧ GoodS eqv (sstep eqv X (.make x k)) H' := by
  refine ⟨_, rfl, mk_spec G.rel ok, by simp only [mkKind, sstep, G.kind], ?_⟩
  intro z hz
  show WfK eqv ((mkBlock X.s x).kids z) (upd X.kind x k z)
  have hz' : z ∈ X.s.D ++ [x] := hz
  by_cases hzx : z = x
  · cases k <;> simp [upd, hzx, WfK, mkBlock]
  · simp only [mkBlock, upd, if_neg hzx]
    exact G.wf z (by simpa [hzx] using hz')

theorem sexec_spec {eqv : Nat → Nat → Bool} (E : MapProps.Eqv eqv) {X : SS} {H : SHeap} (G : GoodS eqv X H) (op : SOp)
    (ok : SOk eqv X op) {fuel : Nat} (hf : X.s.D.length ≤ fuel) :
    ∃ H', sexec eqv fuel H op = .ok (some H') ∧ GoodS eqv (sstep eqv X op) H' := by
  cases op with
  | plain op => exact plain_spec G hf ok
  | make x k => exact make_spec G ok fuel
  | sadd m v => exact add_spec E G ok fuel
  | sremove m k => exact remove_spec' E G ok fuel
  | sclear m => exact clear_spec G hf ok
  | dadd d k v => exact dict_spec G ok fuel
  | push y e => exact push_spec G ok fuel
  | pop y => exact pop_spec G ok fuel

theorem sstep_length (eqv : Nat → Nat → Bool) (X : SS) (op : SOp) :
    (sstep eqv X op).s.D.length ≤ X.s.D.length + 1 := by
  cases op with
  | plain op => exact step_length X.s op
  | make x k => simp [sstep, mkBlock]
  | sadd m v =>
    simp only [sstep]
    split
    · split <;> simp [addEdge]
    · simp
  | sremove m k => simp only [sstep]; split <;> simp
  | sclear m =>
    have hd : ∀ (l : List Nat) (s : Spec), (l.foldl Spec.drop s).D.length ≤ s.D.length := by
      intro l
      induction l with
      | nil => intro s; exact Nat.le_refl _
      | cons a l ih => intro s; exact Nat.le_trans (ih _) (drop_len s a)
    simp only [sstep]
    split
    · next dp _ =>
      refine Nat.le_trans ?_ (Nat.le_succ _)
      cases dp with
      | noop => exact Nat.le_refl _
      | rc =>
        simp only [clearSpec]
        exact hd _ _
      | del =>
        simp only [clearSpec]
        exact hd _ _
    · simp
  | dadd d k v => simp [sstep]
  | push y e =>
    simp only [sstep]
    split
    · split <;> simp [addEdge]
    · simp
  | pop y => simp [sstep]

theorem sexecAll_spec {eqv : Nat → Nat → Bool} (E : MapProps.Eqv eqv) (ops : List SOp) {X : SS} {H : SHeap}
    (G : GoodS eqv X H) (hl : SLegal eqv X ops) {fuel : Nat} (hf : X.s.D.length + ops.length ≤ fuel) :
    ∃ H', sexecAll eqv fuel H ops = .ok (some H') ∧ GoodS eqv (srun eqv X ops) H' := by
  induction ops generalizing X H with
  | nil => exact ⟨H, rfl, G⟩
  | cons op ops ih =>
    simp only [List.length_cons] at hf
    obtain ⟨H1, e1, G1⟩ := sexec_spec E G op hl.1 (fuel := fuel) (by omega)
    have := sstep_length eqv X op
    obtain ⟨H2, e2, G2⟩ := ih G1 hl.2 (by omega)
    refine ⟨H2, ?_, G2⟩
    rw [sexecAll, e1]; exact e2

def emptyS : SHeap := ⟨empty, fun _ => .plain⟩
def specEmptyS : SS := ⟨specEmpty, fun _ => .plain⟩

theorem good_emptyS (eqv : Nat → Nat → Bool) : GoodS eqv specEmptyS emptyS :=
  ⟨rel_empty, rfl, by simp [specEmptyS, specEmpty]⟩

/-! ## Property theorems -/

/-- **C103**, for programs that keep to the rules (`SOk`): live blocks are given; the same pointer is not added twice
to a set; nothing is removed from a set that owns its members; a set is empty when it is deleted; dictionaries are
not made with `CEE_DP_NOOP`.  Every such program, whatever it does with sets, dictionaries, stacks, lists and tuples,
runs without undefined behaviour; the blocks in memory are then exactly those of the specification, which frees a
block with its last reference; and the count of every block is the number of references to it, where a dictionary
counts the key and the value of every addition, and a removed member of a set has a reference that belongs to the
caller.  Missing: see the theorems `C103_…_false`. -/
theorem C103_partial {eqv : Nat → Nat → Bool} (E : MapProps.Eqv eqv) (ops : List SOp)
    (hl : SLegal eqv specEmptyS ops) :
    ∃ H, sexecAll eqv ops.length emptyS ops = .ok (some H) ∧ H.kind = (srun eqv specEmptyS ops).kind ∧
      (∀ x, H.h.live x = true ↔ x ∈ (srun eqv specEmptyS ops).s.D) ∧
      H.h.kids = (srun eqv specEmptyS ops).s.kids ∧
      (∀ x, H.h.live x = true → H.h.deg x =
        refs H.h.kids (srun eqv specEmptyS ops).s.D .rc x + (srun eqv specEmptyS ops).s.ext x) ∧
      ∀ x, H.h.live x = true →
        refs H.h.kids (srun eqv specEmptyS ops).s.D .del x = if H.h.ret x then 1 else 0 := by
  obtain ⟨H, e, G⟩ := sexecAll_spec E ops (good_emptyS eqv) hl (fuel := ops.length)
    (by simp [specEmptyS, specEmpty])
  refine ⟨H, e, G.kind, G.rel.live, G.rel.kids, ?_, ?_⟩
  · intro x hx
    rw [G.rel.kids]; exact G.rel.deg x ((G.rel.live x).1 hx)
  · intro x hx
    rw [G.rel.kids]; exact G.rel.own x ((G.rel.live x).1 hx)

/-- **C103**: what a set, dictionary or stack holds is in memory, as long as the policy is not `CEE_DP_NOOP`, and has
a count or an owner. -/
theorem C103_contents_live {eqv : Nat → Nat → Bool} {X : SS} {H : SHeap} (G : GoodS eqv X H) (m : Nat)
    (hm : H.h.live m = true) (pol : Policy) (p : Ptr) (hn : pol ≠ .noop) (he : (pol, p) ∈ H.h.kids m)
    (hp : H.kind m ≠ .plain) : ∃ v, p = some v ∧ H.h.live v = true ∧ (1 ≤ H.h.deg v ∨ H.h.ret v = true) := by
  have R := G.rel
  have hmD := (R.live m).1 hm
  have wf := G.wf m hmD
  rw [R.kids] at he
  rw [G.kind] at hp
  have hnn : p ≠ none := by
    cases hk : X.kind m with
    | plain => exact absurd hk hp
    | set dp => rw [hk] at wf; exact (wf.1 _ he).2
    | dict o => rw [hk] at wf; exact (wf _ he).2
    | stack dp cap =>
      rw [hk] at wf
      obtain ⟨h1, h2⟩ := wf.1 _ he
      rcases h2 with h2 | h2
      · exact absurd (h1.trans h2) hn
      · exact h2
  cases p with
  | none => exact absurd rfl hnn
  | some v =>
    have hv := R.tgt m hmD v ⟨pol, hn, he⟩
    have hr := refs_pos hmD he
    refine ⟨v, rfl, (R.live v).2 hv, ?_⟩
    cases pol with
    | noop => exact absurd rfl hn
    | rc => left; rw [R.deg v hv, Spec.rc]; omega
    | del =>
      right
      have := R.own v hv
      rw [Spec.own] at this
      cases hrt : H.h.ret v
      · rw [hrt] at this; simp at this; omega
      · rfl

theorem foldl_held (l : List Nat) : ∀ (s : Spec) (x : Nat), x ∈ s.D → l.count x < s.ext x →
    x ∈ (l.foldl Spec.drop s).D := by
  induction l with
  | nil => intro s x hx _; exact hx
  | cons a l ih =>
    classical
    intro s x hx hc
    rw [List.count_cons] at hc
    apply ih
    · simp only [Spec.drop, List.mem_filter, hx, true_and, decide_not, Bool.not_eq_true', decide_eq_false_iff_not]
      rintro ⟨_, -, h0, -, -⟩
      simp only [upd] at h0
      split at h0
      · next h => subst h; simp at hc; omega
      · omega
    · simp only [Spec.drop, upd]
      split
      · next h => subst h; simp at hc; omega
      · next h => rw [if_neg (by simpa using fun h' => h h'.symm)] at hc; exact hc

theorem foldl_gone (l : List Nat) : ∀ (s : Spec) (x : Nat), x ∈ l → l.count x = s.ext x →
    refs s.kids s.D .rc x = 0 → refs s.kids s.D .del x = 0 → x ∉ (l.foldl Spec.drop s).D := by
  induction l with
  | nil => intro s x hx; cases hx
  | cons a l ih =>
    classical
    intro s x hx hc h1 h2
    by_cases hxl : x ∈ l
    · refine ih _ x hxl ?_ (refs_sub _ _ _ _ _ h1) (refs_sub _ _ _ _ _ h2)
      rw [List.count_cons] at hc
      simp only [Spec.drop, upd]
      split
      · next h => subst h; simp at hc; omega
      · next h => rw [if_neg (by simpa using fun h' => h h'.symm)] at hc; exact hc
    · have hxa : x = a := by
        rcases List.mem_cons.1 hx with h | h
        · exact h
        · exact absurd h hxl
      subst hxa
      rw [List.count_cons_self, List.count_eq_zero.2 hxl] at hc
      intro hmem
      have hm2 := foldl_drop_sub l (s.drop x) x hmem
      have hxD := drop_D_sub _ _ _ hm2
      simp only [Spec.drop, List.mem_filter, hxD, true_and, decide_not, Bool.not_eq_true',
        decide_eq_false_iff_not] at hm2
      apply hm2
      refine .intro x hxD (by simp only [upd, if_true]; omega) (.inl rfl) ?_
      rintro y hy ⟨pol, hn, hp⟩
      have := refs_pos hy hp
      cases pol with
      | rc => omega
      | del => omega
      | noop => exact absurd rfl hn

/-- **C103**: `cee_set_clear` on a set of counted members, from any memory with correct counts: the set is empty
afterwards; the members whose only reference is that of the set are freed; what the program holds stays; and nothing
else than the set has changed in the blocks that stay. -/
theorem C103_clear {eqv : Nat → Nat → Bool} {X : SS} {H : SHeap} (G : GoodS eqv X H) (m : Nat)
    (hk : X.kind m = .set .rc) (ok : SOk eqv X (.sclear m)) :
    ∃ H', sexec eqv X.s.D.length H (.sclear m) = .ok (some H') ∧ GoodS eqv (sstep eqv X (.sclear m)) H' ∧
      H'.h.kids = upd H.h.kids m [] ∧
      (∀ v, (.rc, some v) ∈ H.h.kids m → H.h.deg v = 1 → H'.h.live v = false) ∧
      (∀ v, 0 < X.s.ext v → H'.h.live v = true) ∧ ∀ v, H'.h.live v = true → H.h.live v = true := by
  obtain ⟨H', e, G'⟩ := clear_spec G (Nat.le_refl _) ok
  obtain ⟨hm, -⟩ := ok
  have R := G.rel
  have hst : (sstep eqv X (.sclear m)).s = clearSpec X.s m .rc := by simp only [sstep, hk]
  have R' := G'.rel
  rw [hst] at R'
  have wf := G.wf m hm
  rw [hk] at wf
  have hkm : X.s.kids m = (X.s.members m).map fun q => (.rc, some q) := set_edges wf.1
  have hru := refs_upd (kids := X.s.kids) R.nodup hm []
  refine ⟨H', e, G', ?_, ?_, ?_, ?_⟩
  · rw [R'.kids, R.kids]; simp only [clearSpec, foldl_drop_kids]
  · intro v hv hd
    rw [R.kids] at hv
    have hvD := R.tgt m hm v ⟨.rc, by simp, hv⟩
    have hvm : v ∈ X.s.members m := List.mem_filterMap.2 ⟨_, hv, rfl⟩
    have h1 := R.deg v hvD
    rw [hd, Spec.rc] at h1
    have h2 := hru .rc v
    rw [hkm, count_edges] at h2
    have h3 := List.count_pos_iff.2 hvm
    simp at h2
    have h4 : refs X.s.kids X.s.D .del v = 0 := by
      have := R.own v hvD
      rw [Spec.own] at this
      cases hr : H.h.ret v
      · rw [hr] at this; simpa using this
      · have := R.excl v hvD hr; rw [Spec.rc] at this; omega
    have h5 := hru .del v
    rw [hkm, count_edges] at h5
    simp at h5
    have hng : v ∉ (clearSpec X.s m .rc).D := by
      simp only [clearSpec]
      apply foldl_gone _ _ v hvm
      · show (X.s.members m).count v = X.s.ext v + (X.s.members m).count v; omega
      · show refs (upd X.s.kids m []) X.s.D .rc v = 0; omega
      · show refs (upd X.s.kids m []) X.s.D .del v = 0; omega
    cases hl : H'.h.live v
    · rfl
    · exact absurd ((R'.live v).1 hl) hng
  · intro v hv
    rw [R'.live]
    simp only [clearSpec]
    apply foldl_held
    · exact R.ext v hv
    · show _ < X.s.ext v + (X.s.members m).count v; omega
  · intro v hv
    rw [R.live]
    have := (R'.live v).1 hv
    simp only [clearSpec] at this
    have := foldl_drop_sub _ _ _ this
    exact this

/-- **C103**: results of `cee_set_remove`, from any memory with correct counts: it returns the member, frees nothing
and changes no count; the reference of the set belongs to the caller from then on. -/
theorem C103_remove {eqv : Nat → Nat → Bool} (E : MapProps.Eqv eqv) {X : SS} {H : SHeap} (G : GoodS eqv X H) (m k : Nat)
    (dp : Policy) (hk : X.kind m = .set dp) (ok : SOk eqv X (.sremove m k)) :
    ∃ h', setRemove eqv dp H.h m k = .ok (h', (X.s.members m).find? (eqv k)) ∧
      GoodS eqv (sstep eqv X (.sremove m k)) ⟨h', H.kind⟩ ∧ h'.deg = H.h.deg ∧ h'.live = H.h.live ∧
      ∀ v, (∃ pol, (pol, some v) ∈ h'.kids m) ↔ (∃ pol, (pol, some v) ∈ H.h.kids m) ∧ eqv k v = false := by
  obtain ⟨H', e, G'⟩ := remove_spec' E G ok 0
  obtain ⟨hm, hv, dp', hk', hdp, hn⟩ := ok
  have : dp' = dp := by rw [hk] at hk'; cases hk'; rfl
  subst this
  have R := G.rel
  have hrd := set_readable G hm hv hk hn
  have wf := G.wf m hm
  rw [hk] at wf
  have hkm : X.s.kids m = (X.s.members m).map fun q => (dp', some q) := set_edges wf.1
  have hmem : ∀ v, (∃ pol, (pol, some v) ∈ X.s.kids m) ↔ v ∈ X.s.members m := by
    intro v
    constructor
    · rintro ⟨pol, h⟩; exact List.mem_filterMap.2 ⟨_, h, rfl⟩
    · intro h; rw [hkm]; exact ⟨dp', List.mem_map.2 ⟨v, h, rfl⟩⟩
  simp only [sexec, G.kind, hk, setRemove, hrd, if_true] at e
  rw [setFind_eq, show (H.h.kids m).filterMap (·.2) = X.s.members m by rw [R.kids]; rfl] at e
  cases hf : (X.s.members m).find? (eqv k) with
  | none =>
    rw [hf] at e
    have e' : (⟨H.h, H.kind⟩ : SHeap) = H' := by
      rw [G.kind]; cases e; rfl
    refine ⟨H.h, ?_, by rw [e']; exact G', rfl, rfl, ?_⟩
    · simp only [setRemove, hrd, if_true]
      rw [setFind_eq, show (H.h.kids m).filterMap (·.2) = X.s.members m by rw [R.kids]; rfl, hf]
    · intro v
      rw [R.kids, hmem]
      rw [List.find?_eq_none] at hf
      constructor
      · intro h; exact ⟨h, by simpa using hf v h⟩
      · exact fun h => h.1
  | some q =>
    rw [hf] at e
    have e' : (⟨{ H.h with kids := upd H.h.kids m ((H.h.kids m).erase (dp', some q)) }, H.kind⟩ : SHeap) = H' := by
      rw [G.kind]; cases e; rfl
    refine ⟨{ H.h with kids := upd H.h.kids m ((H.h.kids m).erase (dp', some q)) }, ?_, by rw [e']; exact G', rfl,
      rfl, ?_⟩
    · simp only [setRemove, hrd, if_true]
      rw [setFind_eq, show (H.h.kids m).filterMap (·.2) = X.s.members m by rw [R.kids]; rfl, hf]
    · intro v
      have hst : (sstep eqv X (.sremove m k)).s.kids m =
          ((X.s.members m).filter (fun z => !eqv k z)).map fun z => (dp', some z) := by
        simp only [sstep, hk, hf, upd, if_true]
      have := (congrFun G'.rel.kids m).trans hst
      rw [← e'] at this
      show (∃ pol, (pol, some v) ∈ upd H.h.kids m ((H.h.kids m).erase (dp', some q)) m) ↔ _
      rw [show upd H.h.kids m ((H.h.kids m).erase (dp', some q)) m = _ from this, R.kids, hmem]
      constructor
      · rintro ⟨pol, h⟩
        obtain ⟨a, h1, h2⟩ := List.mem_map.1 h
        cases h2
        obtain ⟨h3, h4⟩ := List.mem_filter.1 h1
        exact ⟨h3, by simpa using h4⟩
      · rintro ⟨h3, h4⟩
        exact ⟨dp', List.mem_map.2 ⟨v, List.mem_filter.2 ⟨h3, by simp [h4]⟩, rfl⟩⟩

/-! ### union and clone -/

def withKids (X : SS) (y : Nat) (l : List Edge) : SS := { X with s := { X.s with kids := upd X.s.kids y l } }

theorem withKids_self (X : SS) (y : Nat) : withKids X y (X.s.kids y) = X := by
  simp only [withKids, upd_self]

theorem withKids_twice (X : SS) (y : Nat) (l l' : List Edge) : withKids (withKids X y l) y l' = withKids X y l' := by
  simp only [withKids, upd_upd]

/-- counted pointers to these blocks -/
def rcEdges (l : List Nat) : List Edge := l.map fun q => (.rc, some q)

theorem rcEdges_members (l : List Nat) : (rcEdges l).filterMap (·.2) = l := by
  rw [rcEdges, List.filterMap_map]
  have : (fun z => some z) = ((fun x : Edge => x.2) ∘ fun z => (.rc, some z)) := rfl
  rw [← this, List.filterMap_some]

theorem addEdge_rc {s : Spec} (hnd : s.D.Nodup) {y : Nat} (hy : y ∈ s.D) (a z : Nat) :
    (addEdge s y (.rc, some a)).rc z ≤ s.rc z + 1 ∧ (addEdge s y (.rc, some a)).own z = s.own z := by
  have h1 := addEdge_refs hnd hy (.rc, some a) .rc z
  have h2 := addEdge_refs hnd hy (.rc, some a) .del z
  have hD : (addEdge s y (.rc, some a)).D = s.D := rfl
  have hE : (addEdge s y (.rc, some a)).ext = s.ext := rfl
  simp only [Spec.rc, Spec.own, hD, hE, h1, h2]
  constructor
  · split <;> omega
  · simp

theorem appendAll_spec {eqv : Nat → Nat → Bool} (v : Nat) (es : List Edge) : ∀ {X : SS} {H : SHeap}, GoodS eqv X H →
    v ∈ X.s.D → X.kind v = .plain → (∀ e ∈ es, ∃ a, e.2 = some a ∧ a ∈ X.s.D ∧ X.s.own a = 0) →
    (∀ z, X.s.rc z + es.length < 65536) →
    ∃ h', appendAll H.h v es = .ok h' ∧
      GoodS eqv (withKids X v (X.s.kids v ++ rcEdges (es.filterMap (·.2)))) ⟨h', H.kind⟩ := by
  induction es with
  | nil =>
    intro X H G _ _ _ _
    refine ⟨H.h, rfl, ?_⟩
    rw [show X.s.kids v ++ rcEdges (([] : List Edge).filterMap (·.2)) = X.s.kids v by simp [rcEdges], withKids_self]
    exact G
  | cons e es ih =>
    intro X H G hv hk he hr
    obtain ⟨a, ha, haD, hao⟩ := he e (by simp)
    have R := G.rel
    simp only [List.length_cons] at hr
    obtain ⟨h1, e1, R1⟩ := append_spec R hv (e := (.rc, some a)) ⟨haD, hao, by have := hr a; omega⟩
    have hX : ({ X with s := addEdge X.s v (.rc, some a) } : SS) = withKids X v (X.s.kids v ++ [(.rc, some a)]) := rfl
    have G1 : GoodS eqv (withKids X v (X.s.kids v ++ [(.rc, some a)])) ⟨h1, H.kind⟩ := by
      refine ⟨R1, G.kind, ?_⟩
      intro z hz
      show WfK eqv ((addEdge X.s v (.rc, some a)).kids z) (X.kind z)
      rw [addEdge_kids]
      split
      · next h => subst h; rw [hk]; trivial
      · exact G.wf z hz
    have hrc := addEdge_rc R.nodup hv a
    obtain ⟨h2, e2, G2⟩ := ih G1 hv hk (by
        intro e' he'
        obtain ⟨b, h1, h2, h3⟩ := he e' (by simp [he'])
        exact ⟨b, h1, h2, by have := (hrc b).2; rw [h3] at this; exact this⟩) (by
        intro z
        have h1 := (hrc z).1
        have h2 := hr z
        show (addEdge X.s v (.rc, some a)).rc z + es.length < 65536
        omega)
    refine ⟨h2, ?_, ?_⟩
    · rw [appendAll, ha, e1]; exact e2
    · rw [withKids_twice] at G2
      have : (withKids X v (X.s.kids v ++ [(.rc, some a)])).s.kids v ++ rcEdges (es.filterMap (·.2)) =
          X.s.kids v ++ rcEdges ((e :: es).filterMap (·.2)) := by
        obtain ⟨p, q⟩ := e
        simp only at ha
        subst ha
        simp [withKids, upd, rcEdges]
      rw [this] at G2
      exact G2

theorem refs_zero {kids : Nat → List Edge} {D : List Nat} {pol : Policy} {x : Nat}
    (h : ∀ y ∈ D, (pol, some x) ∉ kids y) : refs kids D pol x = 0 := by
  induction D with
  | nil => rfl
  | cons y D ih =>
    have := ih fun z hz => h z (by simp [hz])
    simp only [refs, List.map_cons, List.sum_cons] at this ⊢
    rw [this, List.count_eq_zero.2 (h y (by simp))]

/-- the members of a set with more members added -/
def unite (eqv : Nat → Nat → Bool) : List Nat → List Nat → List Nat
  | acc, [] => acc
  | acc, v :: l => unite eqv (if acc.any (eqv v) then acc else acc ++ [v]) l

theorem unite_eq {eqv : Nat → Nat → Bool} (E : MapProps.Eqv eqv) (l : List Nat) : ∀ (acc : List Nat),
    l.Pairwise (fun a b => eqv a b = false) → unite eqv acc l = acc ++ l.filter (fun v => !acc.any (eqv v)) := by
  induction l with
  | nil => intro acc _; simp [unite]
  | cons v l ih =>
    intro acc hd
    obtain ⟨h1, h2⟩ := List.pairwise_cons.1 hd
    rw [unite]
    cases ha : acc.any (eqv v) with
    | true => rw [List.filter_cons, ha]; simpa using ih acc h2
    | false =>
      rw [List.filter_cons, ha]
      simp only [Bool.false_eq_true, if_false, Bool.not_false, if_true]
      rw [ih _ h2]
      simp only [List.append_assoc, List.singleton_append]
      congr 2
      apply List.filter_congr
      intro z hz
      have hv : eqv z v = false := by
        cases h : eqv z v
        · rfl
        · have := h1 z hz; rw [E.symm _ _ h] at this; cases this
      simp [hv]

theorem addAll_spec {eqv : Nat → Nat → Bool} (E : MapProps.Eqv eqv) (m : Nat) (es : List Edge) :
    ∀ {X : SS} {H : SHeap} {acc : List Nat}, GoodS eqv X H → m ∈ X.s.D → X.kind m = .set .rc →
    X.s.kids m = rcEdges acc → (∀ e ∈ es, ∃ a, e.2 = some a ∧ a ∈ X.s.D ∧ X.s.own a = 0 ∧ a ∉ acc) →
    (es.filterMap (·.2)).Nodup → (∀ z, X.s.rc z + es.length < 65536) →
    ∃ h', setAddAll eqv .rc H.h m es = .ok h' ∧
      GoodS eqv (withKids X m (rcEdges (unite eqv acc (es.filterMap (·.2))))) ⟨h', H.kind⟩ := by
  induction es with
  | nil =>
    intro X H acc G _ _ hk _ _ _
    refine ⟨H.h, rfl, ?_⟩
    rw [show unite eqv acc (([] : List Edge).filterMap (·.2)) = acc from rfl, ← hk, withKids_self]
    exact G
  | cons e es ih =>
    intro X H acc G hm hkd hk he hnd hr
    obtain ⟨a, ha, haD, hao, haa⟩ := he e (by simp)
    obtain ⟨p, q⟩ := e
    simp only at ha
    subst ha
    simp only [List.length_cons] at hr
    rw [List.filterMap_cons] at hnd ⊢
    simp only at hnd ⊢
    obtain ⟨hna, hnd'⟩ := List.nodup_cons.1 hnd
    have hmem : X.s.members m = acc := by rw [Spec.members, hk, rcEdges_members]
    obtain ⟨H1, e1, G1⟩ := add_spec E G (m := m) (v := a) ⟨hm, haD, .rc, hkd, by simp, by
      intro _; exact ⟨haD, hao, by have := hr a; omega⟩, by rw [hmem]; exact .inr haa⟩ 0
    have e1' : setAdd eqv .rc H.h m a = .ok H1.h ∧ H1.kind = H.kind := by
      simp only [sexec, G.kind, hkd] at e1
      cases hs : setAdd eqv .rc H.h m a with
      | ok h1 => rw [hs] at e1; cases e1; exact ⟨rfl, G.kind.symm⟩
      | ub => rw [hs] at e1; cases e1
      | segv => rw [hs] at e1; cases e1
    have hX : sstep eqv X (.sadd m a) = withKids X m (rcEdges (if acc.any (eqv a) then acc else acc ++ [a])) := by
      simp only [sstep, hkd, hmem]
      split
      · rw [← hk, withKids_self]
      · simp [addEdge, withKids, hk, rcEdges]
    rw [hX] at G1
    have hle : ∀ z, (withKids X m (rcEdges (if acc.any (eqv a) then acc else acc ++ [a]))).s.rc z ≤ X.s.rc z + 1 ∧
        (withKids X m (rcEdges (if acc.any (eqv a) then acc else acc ++ [a]))).s.own z = X.s.own z := by
      intro z
      split
      · rw [← hk, withKids_self]; exact ⟨by omega, rfl⟩
      · have : withKids X m (rcEdges (acc ++ [a])) = { X with s := addEdge X.s m (.rc, some a) } := by
          simp [addEdge, withKids, hk, rcEdges]
        rw [this]
        exact addEdge_rc G.rel.nodup hm a z
    obtain ⟨h2, e2, G2⟩ := ih (acc := if acc.any (eqv a) then acc else acc ++ [a]) G1 hm hkd
      (by simp [withKids, upd]) (by
        intro e' he'
        obtain ⟨b, h1, h2, h3, h4⟩ := he e' (by simp [he'])
        refine ⟨b, h1, h2, by rw [(hle b).2]; exact h3, ?_⟩
        have hb : b ∈ es.filterMap (·.2) := List.mem_filterMap.2 ⟨e', he', h1⟩
        split
        · exact h4
        · rw [List.mem_append, List.mem_singleton]
          rintro (h | rfl)
          · exact h4 h
          · exact hna hb) hnd' (by
        intro z
        have h1 := (hle z).1
        have h2 := hr z
        omega)
    refine ⟨h2, ?_, ?_⟩
    · rw [setAddAll]
      simp only [e1'.1, Res.bind_ok]
      exact e2
    · rw [withKids_twice] at G2
      rw [← e1'.2]; exact G2

/-- deleting a list whose elements other blocks refer to as well frees the list only -/
theorem drop_leaf {s : Spec} {v : Nat} (hv : v ∈ s.D) (hf : s.Floating v)
    (ho : ∀ z, Pts s.kids v z → ∃ y ∈ s.D, y ≠ v ∧ Pts s.kids y z) :
    s.drop v = { s with D := s.D.filter (fun z => z ≠ v) } := by
  classical
  have hu : ∀ z, Unref s.kids s.D (upd s.ext v (s.ext v - 1)) v z → z = v := by
    intro z h
    induction h with
    | intro x hx h0 h1 h2 ih =>
      rcases h1 with h1 | ⟨y, hy, hp⟩
      · exact h1
      · have hyv := ih y hy hp
        subst hyv
        obtain ⟨y', hy', hne, hp'⟩ := ho x hp
        exact absurd (ih y' hy' hp') hne
  have he : s.ext v = 0 := by have := hf.1; simp only [Spec.rc] at this; omega
  have hext : upd s.ext v (s.ext v - 1) = s.ext := by
    rw [he]; conv => rhs; rw [← upd_self s.ext v, he]
  have hg := drop_gone hv hf
  have key : ∀ D', D' = s.D.filter (fun x => decide ¬ Unref s.kids s.D (upd s.ext v (s.ext v - 1)) v x) →
      D' = s.D.filter (fun z => z ≠ v) := by
    rintro _ rfl
    apply List.filter_congr
    intro z hz
    rw [decide_eq_decide]
    constructor
    · rintro h rfl
      apply h
      refine .intro z hv ?_ (.inl rfl) ?_
      · rw [hext]; exact he
      · intro y hy hp; exact absurd hp (no_pts hf hy)
    · intro h hz; exact h (hu z hz)
  rw [Spec.drop]
  rw [key _ rfl, hext]

theorem fresh_float {s : Spec} {h : RHeap} (R : Rel s h) {x : Nat} (hx : x ∉ s.D) : s.Floating x := by
  have hno : ∀ pol, pol ≠ Policy.noop → refs s.kids s.D pol x = 0 := fun pol hn =>
    refs_zero fun y hy hm => hx (R.tgt y hy x ⟨pol, hn, hm⟩)
  have he : s.ext x = 0 := by
    cases hz : s.ext x with
    | zero => rfl
    | succ n => exact absurd (R.ext x (by omega)) hx
  exact ⟨by rw [Spec.rc, hno _ (by simp), he], by rw [Spec.own, hno _ (by simp)]⟩

theorem mkBlock_rc {s : Spec} {x : Nat} (hx : x ∉ s.D) (z : Nat) :
    (mkBlock s x).rc z = s.rc z ∧ (mkBlock s x).own z = s.own z := by
  have hr : ∀ pol z, refs (upd s.kids x []) (s.D ++ [x]) pol z = refs s.kids s.D pol z := by
    intro pol z
    unfold refs
    rw [List.map_append, List.sum_append]
    simp only [List.map_cons, List.map_nil, List.sum_cons, List.sum_nil, upd, if_true,
      List.count_nil, Nat.add_zero]
    congr 1
    apply List.map_congr_left
    intro w hw
    have : w ≠ x := by rintro rfl; exact hx hw
    simp [this]
  simp only [Spec.rc, Spec.own, mkBlock, hr, and_self]

theorem count_rcEdges (l : List Nat) (z : Nat) :
    (rcEdges l).count (.rc, some z) = l.count z ∧ (rcEdges l).count (.del, some z) = 0 := by
  constructor
  · induction l with
    | nil => rfl
    | cons a l ih =>
      simp only [rcEdges, List.map_cons, List.count_cons] at ih ⊢
      rw [ih]; simp
  · rw [List.count_eq_zero, rcEdges, List.mem_map]
    rintro ⟨a, _, h⟩
    simp at h

theorem with_rc {X : SS} (hnd : X.s.D.Nodup) {y : Nat} (hy : y ∈ X.s.D) {l0 : List Nat} (h0 : X.s.kids y = rcEdges l0)
    (l : List Nat) (z : Nat) :
    (withKids X y (rcEdges l)).s.rc z + l0.count z = X.s.rc z + l.count z ∧
    (withKids X y (rcEdges l)).s.own z = X.s.own z := by
  have h1 := refs_upd (kids := X.s.kids) hnd hy (rcEdges l) .rc z
  have h2 := refs_upd (kids := X.s.kids) hnd hy (rcEdges l) .del z
  rw [h0, (count_rcEdges l z).1, (count_rcEdges l0 z).1] at h1
  rw [h0, (count_rcEdges l z).2, (count_rcEdges l0 z).2] at h2
  simp only [Spec.rc, Spec.own, withKids]
  omega

/-- the memory after `cee_set_values` -/
def valuesSpec (X : SS) (v : Nat) (M : List Nat) : SS :=
  withKids ⟨mkBlock X.s v, upd X.kind v .plain⟩ v (rcEdges M)

theorem values_spec {eqv : Nat → Nat → Bool} {X : SS} {H : SHeap} (G : GoodS eqv X H) {v m : Nat} {M : List Nat}
    (hv : v ∉ X.s.D) (hm : m ∈ X.s.D) (hk : X.s.kids m = rcEdges M) (hM : ∀ a ∈ M, a ∈ X.s.D ∧ X.s.own a = 0)
    (hr : ∀ z, X.s.rc z + M.length < 65536) :
    ∃ h', setValues H.h v m = .ok h' ∧ GoodS eqv (valuesSpec X v M) ⟨h', upd H.kind v .plain⟩ ∧
      ∀ z, (valuesSpec X v M).s.rc z = X.s.rc z + M.count z ∧ (valuesSpec X v M).s.own z = X.s.own z := by
  obtain ⟨H1, e1, G1⟩ := make_spec G (x := v) (k := .plain) hv 0
  simp only [sexec, Res.ok.injEq, Option.some.injEq] at e1
  subst e1
  have hkm : H.h.kids m = rcEdges M := by rw [G.rel.kids, hk]
  have hvD : v ∈ X.s.D ++ [v] := by simp
  obtain ⟨h2, e2, G2⟩ := appendAll_spec v (rcEdges M) G1 hvD (by simp [sstep, upd]) (by
      intro e he
      obtain ⟨a, ha, rfl⟩ := List.mem_map.1 he
      exact ⟨a, rfl, List.mem_append.2 (.inl (hM a ha).1), by
        rw [show (sstep eqv X (.make v .plain)).s.own a = X.s.own a from (mkBlock_rc hv a).2]; exact (hM a ha).2⟩) (by
      intro z
      rw [show (sstep eqv X (.make v .plain)).s.rc z = X.s.rc z from (mkBlock_rc hv z).1]
      simpa [rcEdges] using hr z)
  refine ⟨h2, ?_, ?_, ?_⟩
  · rw [setValues, if_pos ((G.rel.live m).2 hm), hkm]; exact e2
  · rw [rcEdges_members] at G2
    have : (sstep eqv X (.make v .plain)).s.kids v = [] := by simp [sstep, mkBlock, upd]
    rw [this, List.nil_append] at G2
    exact G2
  · intro z
    have hnd := G1.rel.nodup
    have h1 := with_rc (X := ⟨mkBlock X.s v, upd X.kind v .plain⟩) hnd (y := v) hvD (l0 := [])
      (by simp [mkBlock, upd, rcEdges]) M z
    have h2 := mkBlock_rc hv z
    simp only at h1
    refine ⟨?_, ?_⟩
    · rw [valuesSpec]; rw [← h2.1]; simpa using h1.1
    · rw [valuesSpec, h1.2]; exact h2.2

/-- deleting such a list -/
theorem del_leaf {eqv : Nat → Nat → Bool} {X : SS} {H : SHeap} (G : GoodS eqv X H) {v fuel : Nat} (hv : v ∈ X.s.D)
    (hf : X.s.Floating v) (hk : X.kind v = .plain)
    (ho : ∀ z, Pts X.s.kids v z → ∃ y ∈ X.s.D, y ≠ v ∧ Pts X.s.kids y z) (hfu : X.s.D.length ≤ fuel) :
    ∃ h', delWith (trS H.kind fuel) H.h (some v) = .ok (some h') ∧
      GoodS eqv { X with s := { X.s with D := X.s.D.filter (fun z => z ≠ v) } } ⟨h', H.kind⟩ := by
  have hd := drop_leaf hv hf ho
  obtain ⟨H', e, G'⟩ := plain_spec G (op := .del (some v)) hfu ⟨⟨hv, hf⟩, (by
    intro z hz hz' hs
    simp only [specStep, hd, List.mem_filter, hz, true_and, decide_eq_true_eq, ne_eq, Classical.not_not] at hz'
    subst hz'
    rw [hk] at hs; cases hs), trivial⟩
  have hX : sstep eqv X (.plain (.del (some v))) = { X with s := { X.s with D := X.s.D.filter (fun z => z ≠ v) } } := by
    simp only [sstep, specStep, hd]
  rw [hX] at G'
  simp only [sexec] at e
  cases hh : delWith (trS H.kind fuel) H.h (some v) with
  | ub => rw [hh] at e; cases e
  | segv => rw [hh] at e; cases e
  | ok r =>
    cases r with
    | none => rw [hh] at e; cases e
    | some h' => rw [hh] at e; cases e; exact ⟨h', rfl, G'⟩

/-- **C103**: `cee_set_union_set` of two sets of counted members that have no member in common (equal members are
allowed), from any memory with correct counts and no more than about 65000 references to any block: the new set holds
the members of the first set and those of the second that are equal to none of these; everything else is as it was,
and the counts are correct again. -/
theorem C103_union {eqv : Nat → Nat → Bool} (E : MapProps.Eqv eqv) {X : SS} {H : SHeap} (G : GoodS eqv X H)
    (x v1 v2 s1 s2 fuel : Nat) (h1 : s1 ∈ X.s.D) (h2 : s2 ∈ X.s.D) (k1 : X.kind s1 = .set .rc)
    (k2 : X.kind s2 = .set .rc) (hx : x ∉ X.s.D) (hv1 : v1 ∉ X.s.D) (hv2 : v2 ∉ X.s.D) (hxv1 : x ≠ v1)
    (hxv2 : x ≠ v2) (hvv : v1 ≠ v2) (hdis : ∀ a ∈ X.s.members s1, a ∉ X.s.members s2)
    (hr : ∀ z, X.s.rc z + 2 * ((X.s.members s1).length + (X.s.members s2).length) < 65536)
    (hf : X.s.D.length + 3 ≤ fuel) :
    ∃ h' X', setUnion eqv (trS (upd (upd (upd H.kind x (.set .rc)) v1 .plain) v2 .plain) fuel) H.h x v1 v2 s1 s2 =
        .ok (some h') ∧ GoodS eqv X' ⟨h', X'.kind⟩ ∧ X'.s.D = X.s.D ++ [x] ∧ X'.s.ext = X.s.ext ∧
      (∀ y ∈ X.s.D, X'.s.kids y = X.s.kids y ∧ X'.kind y = X.kind y) ∧ X'.kind x = .set .rc ∧
      X'.s.kids x = rcEdges (X.s.members s1 ++ (X.s.members s2).filter fun b => !(X.s.members s1).any (eqv b)) := by
  have R := G.rel
  have wf1 := G.wf s1 h1
  rw [k1] at wf1
  have wf2 := G.wf s2 h2
  rw [k2] at wf2
  have hkm1 : X.s.kids s1 = rcEdges (X.s.members s1) := set_edges wf1.1
  have hkm2 : X.s.kids s2 = rcEdges (X.s.members s2) := set_edges wf2.1
  have hM1 : ∀ a ∈ X.s.members s1, Pts X.s.kids s1 a := fun a ha =>
    ⟨.rc, by simp, by rw [hkm1]; exact List.mem_map.2 ⟨a, ha, rfl⟩⟩
  have hM2 : ∀ a ∈ X.s.members s2, Pts X.s.kids s2 a := fun a ha =>
    ⟨.rc, by simp, by rw [hkm2]; exact List.mem_map.2 ⟨a, ha, rfl⟩⟩
  have hown : ∀ y ∈ X.s.D, ∀ a, (.rc, some a) ∈ X.s.kids y → X.s.own a = 0 := by
    intro y hy a ha
    have haD := R.tgt y hy a ⟨.rc, by simp, ha⟩
    have := refs_pos hy ha
    cases hrt : H.h.ret a
    · have := R.own a haD; rw [hrt] at this; simpa using this
    · have h := R.excl a haD hrt; rw [Spec.rc] at h; omega
  have hs1x : s1 ≠ x := by rintro rfl; exact hx h1
  have hs2x : s2 ≠ x := by rintro rfl; exact hx h2
  have hs1v1 : s1 ≠ v1 := by rintro rfl; exact hv1 h1
  have hs2v1 : s2 ≠ v1 := by rintro rfl; exact hv1 h2
  have hs1v2 : s1 ≠ v2 := by rintro rfl; exact hv2 h1
  have hs2v2 : s2 ≠ v2 := by rintro rfl; exact hv2 h2
  generalize hm1 : X.s.members s1 = M1 at *
  generalize hm2 : X.s.members s2 = M2 at *
  have hd1 : M1.Pairwise (fun a b => eqv a b = false) := by rw [← hm1]; exact wf1.2
  have hd2 : M2.Pairwise (fun a b => eqv a b = false) := by rw [← hm2]; exact wf2.2
  have nod : ∀ {l : List Nat}, l.Pairwise (fun a b => eqv a b = false) → l.Nodup := by
    intro l h
    refine List.Pairwise.imp ?_ h
    rintro a b hab rfl
    rw [E.refl] at hab; cases hab
  have hM1D : ∀ a ∈ M1, a ∈ X.s.D := fun a ha => R.tgt s1 h1 a (hM1 a ha)
  have hM2D : ∀ a ∈ M2, a ∈ X.s.D := fun a ha => R.tgt s2 h2 a (hM2 a ha)
  have hM1o : ∀ a ∈ M1, X.s.own a = 0 := fun a ha =>
    hown s1 h1 a (by rw [hkm1]; exact List.mem_map.2 ⟨a, ha, rfl⟩)
  have hM2o : ∀ a ∈ M2, X.s.own a = 0 := fun a ha =>
    hown s2 h2 a (by rw [hkm2]; exact List.mem_map.2 ⟨a, ha, rfl⟩)
  have hc : ∀ (l : List Nat) (z : Nat), l.count z ≤ l.length := fun l z => List.count_le_length
  have nv1 : v1 ∉ M1 ∧ v1 ∉ M2 := ⟨fun h => hv1 (hM1D _ h), fun h => hv1 (hM2D _ h)⟩
  have nv2 : v2 ∉ M1 ∧ v2 ∉ M2 := ⟨fun h => hv2 (hM1D _ h), fun h => hv2 (hM2D _ h)⟩
  -- the set
  obtain ⟨H1, e1, G1⟩ := make_spec G (x := x) (k := .set .rc) hx 0
  simp only [sexec, Res.ok.injEq, Option.some.injEq] at e1
  subst e1
  generalize hX1 : sstep eqv X (.make x (.set .rc)) = X1 at G1
  have d1 : X1.s.D = X.s.D ++ [x] := by rw [← hX1]; rfl
  have r1 : ∀ z, X1.s.rc z = X.s.rc z ∧ X1.s.own z = X.s.own z := by rw [← hX1]; exact mkBlock_rc hx
  have q1 : X1.s.kids = upd X.s.kids x [] ∧ X1.kind = upd X.kind x (.set .rc) ∧ X1.s.ext = X.s.ext := by
    rw [← hX1]; exact ⟨rfl, rfl, rfl⟩
  -- the first list
  obtain ⟨h2', e2, G2, r2⟩ := values_spec G1 (v := v1) (m := s1) (M := M1) (by simp [d1, hv1, Ne.symm hxv1])
    (by simp [d1, h1]) (by rw [q1.1]; simp [upd, hs1x, hkm1])
    (fun a ha => ⟨by simp [d1, hM1D a ha], by rw [(r1 a).2]; exact hM1o a ha⟩)
    (fun z => by rw [(r1 z).1]; have := hr z; omega)
  generalize hX2 : valuesSpec X1 v1 M1 = X2 at G2 r2
  have d2 : X2.s.D = X.s.D ++ [x] ++ [v1] := by rw [← hX2, ← d1]; rfl
  have q2 : X2.s.kids = upd (upd X.s.kids x []) v1 (rcEdges M1) ∧
      X2.kind = upd (upd X.kind x (.set .rc)) v1 .plain ∧ X2.s.ext = X.s.ext := by
    rw [← hX2, ← q1.1, ← q1.2.1, ← q1.2.2]
    exact ⟨by simp [valuesSpec, withKids, mkBlock, upd_upd], rfl, rfl⟩
  -- the second
  obtain ⟨h3, e3, G3, r3⟩ := values_spec G2 (v := v2) (m := s2) (M := M2)
    (by simp [d2, hv2, Ne.symm hxv2, Ne.symm hvv])
    (by simp [d2, h2]) (by rw [q2.1]; simp [upd, hs2x, hs2v1, hkm2])
    (fun a ha => ⟨by simp [d2, hM2D a ha], by rw [(r2 a).2, (r1 a).2]; exact hM2o a ha⟩)
    (fun z => by rw [(r2 z).1, (r1 z).1]; have := hr z; have := hc M1 z; omega)
  generalize hX3 : valuesSpec X2 v2 M2 = X3 at G3 r3
  have d3 : X3.s.D = X.s.D ++ [x] ++ [v1] ++ [v2] := by rw [← hX3, ← d2]; rfl
  have q3 : X3.s.kids = upd (upd (upd X.s.kids x []) v1 (rcEdges M1)) v2 (rcEdges M2) ∧
      X3.kind = upd (upd (upd X.kind x (.set .rc)) v1 .plain) v2 .plain ∧ X3.s.ext = X.s.ext := by
    rw [← hX3, ← q2.1, ← q2.2.1, ← q2.2.2]
    exact ⟨by simp [valuesSpec, withKids, mkBlock, upd_upd], rfl, rfl⟩
  have hxD : x ∈ X3.s.D := by simp [d3]
  have hkx : X3.kind x = .set .rc := by rw [q3.2.1]; simp [upd, hxv1, hxv2]
  -- the first loop
  obtain ⟨h4, e4, G4⟩ := addAll_spec E x (rcEdges M1) (acc := []) G3 hxD hkx
    (by rw [q3.1]; simp [upd, hxv1, hxv2, rcEdges]) (by
      intro e he
      obtain ⟨a, ha, rfl⟩ := List.mem_map.1 he
      exact ⟨a, rfl, by simp [d3, hM1D a ha], by rw [(r3 a).2, (r2 a).2, (r1 a).2]; exact hM1o a ha, by simp⟩)
    (by rw [rcEdges_members]; exact nod hd1) (by
      intro z
      rw [(r3 z).1, (r2 z).1, (r1 z).1]
      have := hr z; have := hc M1 z; have := hc M2 z
      simp only [rcEdges, List.length_map]
      omega)
  rw [rcEdges_members, unite_eq E M1 [] hd1] at G4
  simp only [List.any_nil, Bool.not_false, List.filter_true, List.nil_append] at G4
  have r4 := with_rc (X := X3) G3.rel.nodup hxD (l0 := []) (by rw [q3.1]; simp [upd, hxv1, hxv2, rcEdges]) M1
  generalize hX4 : withKids X3 x (rcEdges M1) = X4 at G4 r4
  have d4 : X4.s.D = X.s.D ++ [x] ++ [v1] ++ [v2] := by rw [← hX4, ← d3]; rfl
  have q4 : X4.s.kids = upd X3.s.kids x (rcEdges M1) ∧ X4.kind = X3.kind ∧ X4.s.ext = X.s.ext := by
    rw [← hX4, ← q3.2.2]; exact ⟨rfl, rfl, rfl⟩
  -- the second loop
  obtain ⟨h5, e5, G5⟩ := addAll_spec E x (rcEdges M2) (acc := M1) G4 (by simp [d4]) (by rw [q4.2.1]; exact hkx)
    (by rw [q4.1]; simp [upd]) (by
      intro e he
      obtain ⟨a, ha, rfl⟩ := List.mem_map.1 he
      exact ⟨a, rfl, by simp [d4, hM2D a ha], by rw [(r4 a).2, (r3 a).2, (r2 a).2, (r1 a).2]; exact hM2o a ha,
        fun h => hdis a h ha⟩)
    (by rw [rcEdges_members]; exact nod hd2) (by
      intro z
      have h4 := (r4 z).1
      rw [(r3 z).1, (r2 z).1, (r1 z).1] at h4
      have := hr z; have := hc M1 z; have := hc M2 z
      simp only [rcEdges, List.length_map, List.count_nil] at h4 ⊢
      omega)
  rw [rcEdges_members, unite_eq E M2 M1 hd2] at G5
  generalize hU : M1 ++ M2.filter (fun v => !M1.any (eqv v)) = U at G5
  have hUm : ∀ a ∈ U, a ∈ M1 ∨ a ∈ M2 := by
    intro a ha
    rw [← hU, List.mem_append, List.mem_filter] at ha
    exact ha.imp id (·.1)
  have r5 := with_rc (X := X4) G4.rel.nodup (by simp [d4] : x ∈ X4.s.D) (l0 := M1) (by rw [q4.1]; simp [upd]) U
  generalize hX5 : withKids X4 x (rcEdges U) = X5 at G5 r5
  have d5 : X5.s.D = X.s.D ++ [x] ++ [v1] ++ [v2] := by rw [← hX5, ← d4]; rfl
  have q5 : X5.s.kids = upd (upd (upd (upd X.s.kids x []) v1 (rcEdges M1)) v2 (rcEdges M2)) x (rcEdges U) ∧
      X5.kind = X3.kind ∧ X5.s.ext = X.s.ext := by
    rw [← hX5, ← q3.1, ← q4.2.1, ← q4.2.2]
    exact ⟨by simp [withKids, q4.1, upd_upd], rfl, rfl⟩
  have r5' : ∀ z, z ∉ X.s.D → X5.s.rc z = 0 ∧ X5.s.own z = 0 := by
    intro z hz
    have z1 : z ∉ M1 := fun h => hz (hM1D z h)
    have z2 : z ∉ M2 := fun h => hz (hM2D z h)
    have z3 : z ∉ U := fun h => (hUm z h).elim z1 z2
    obtain ⟨f1, f2⟩ := fresh_float R hz
    have a5 := r5 z
    have a4 := r4 z
    have a3 := r3 z
    have a2 := r2 z
    have a1 := r1 z
    simp only [List.count_eq_zero.2 z1, List.count_eq_zero.2 z2, List.count_eq_zero.2 z3, List.count_nil] at a5 a4 a3 a2
    omega
  have kk : ∀ y ∈ X.s.D, X5.s.kids y = X.s.kids y := by
    intro y hy
    have y1 : y ≠ x := by rintro rfl; exact hx hy
    have y2 : y ≠ v1 := by rintro rfl; exact hv1 hy
    have y3 : y ≠ v2 := by rintro rfl; exact hv2 hy
    rw [q5.1]; simp [upd, y1, y2, y3]
  -- deleting the first list
  obtain ⟨h6, e6, G6⟩ := del_leaf G5 (v := v1) (fuel := fuel) (by simp [d5]) (r5' v1 hv1)
    (by rw [q5.2.1, q3.2.1]; simp [upd, hvv]) (by
      rintro z ⟨pol, hn, hp⟩
      have : X5.s.kids v1 = rcEdges M1 := by rw [q5.1]; simp [upd, Ne.symm hxv1, hvv]
      rw [this] at hp
      obtain ⟨a, ha, hh⟩ := List.mem_map.1 hp
      cases hh
      refine ⟨s1, by simp [d5, h1], hs1v1, .rc, by simp, ?_⟩
      rw [kk s1 h1, hkm1]; exact hp) (by rw [d5]; simp; omega)
  have nx : ∀ z ∈ X.s.D, z ≠ x ∧ z ≠ v1 ∧ z ≠ v2 := by
    intro z hz
    exact ⟨by rintro rfl; exact hx hz, by rintro rfl; exact hv1 hz, by rintro rfl; exact hv2 hz⟩
  have fD : ∀ w, w ∉ X.s.D → X.s.D.filter (fun z => z ≠ w) = X.s.D := by
    intro w hw
    rw [List.filter_eq_self]
    intro a ha
    simp only [ne_eq, decide_eq_true_eq]
    rintro rfl; exact hw ha
  have d6 : X5.s.D.filter (fun z => z ≠ v1) = X.s.D ++ [x] ++ [v2] := by
    rw [d5]
    simp only [List.filter_append, fD v1 hv1]
    simp [hxv1, Ne.symm hvv]
  generalize hX6 : ({ X5 with s := { X5.s with D := X5.s.D.filter (fun z => z ≠ v1) } } : SS) = X6 at G6
  have q6 : X6.s.kids = X5.s.kids ∧ X6.kind = X5.kind ∧ X6.s.ext = X5.s.ext ∧ X6.s.D = X.s.D ++ [x] ++ [v2] := by
    rw [← hX6, ← d6]; exact ⟨rfl, rfl, rfl, rfl⟩
  have r6 : X6.s.Floating v2 := by
    have hp : ∀ y ∈ X5.s.D, ¬ Pts X5.s.kids y v2 := fun y hy => no_pts (r5' v2 hv2) hy
    have he : X5.s.ext v2 = 0 := by have := (r5' v2 hv2).1; simp only [Spec.rc] at this; omega
    have hm : ∀ y ∈ X6.s.D, y ∈ X5.s.D := by
      intro y hy; rw [q6.2.2.2] at hy; rw [d5]; simp at hy ⊢; rcases hy with h | h | h <;> simp [h]
    refine ⟨?_, ?_⟩
    · rw [Spec.rc, q6.1, q6.2.2.1, he, refs_zero fun y hy h => hp y (hm y hy) ⟨.rc, by simp, h⟩]
    · rw [Spec.own, q6.1, refs_zero fun y hy h => hp y (hm y hy) ⟨.del, by simp, h⟩]
  obtain ⟨h7, e7, G7⟩ := del_leaf G6 (v := v2) (fuel := fuel) (by simp [q6.2.2.2]) r6
    (by rw [q6.2.1, q5.2.1, q3.2.1]; simp [upd]) (by
      rintro z ⟨pol, hn, hp⟩
      have : X6.s.kids v2 = rcEdges M2 := by rw [q6.1, q5.1]; simp [upd, Ne.symm hxv2]
      rw [this] at hp
      obtain ⟨a, ha, hh⟩ := List.mem_map.1 hp
      cases hh
      refine ⟨s2, by simp [q6.2.2.2, h2], hs2v2, .rc, by simp, ?_⟩
      rw [q6.1, kk s2 h2, hkm2]; exact hp) (by rw [q6.2.2.2]; simp; omega)
  have d7 : X6.s.D.filter (fun z => z ≠ v2) = X.s.D ++ [x] := by
    rw [q6.2.2.2]
    simp only [List.filter_append, fD v2 hv2]
    simp [hxv2]
  refine ⟨h7, { X6 with s := { X6.s with D := X6.s.D.filter (fun z => z ≠ v2) } }, ?_, ?_, d7, ?_, ?_, ?_, ?_⟩
  · have b2 : h2'.kids = X2.s.kids := G2.rel.kids
    have b3 : h3.kids v1 = rcEdges M1 := by
      rw [show h3.kids = X3.s.kids from G3.rel.kids, q3.1]; simp [upd, hvv]
    have b4 : h4.kids v2 = rcEdges M2 := by
      rw [show h4.kids = X4.s.kids from G4.rel.kids, q4.1, q3.1]; simp [upd, Ne.symm hxv2]
    rw [setUnion]
    have e2' : setValues (newBlock H.h x []) v1 s1 = .ok h2' := e2
    have e3' : setValues h2' v2 s2 = .ok h3 := e3
    have e4' : setAddAll eqv .rc h3 x (h3.kids v1) = .ok h4 := by rw [b3]; exact e4
    have e5' : setAddAll eqv .rc h4 x (h4.kids v2) = .ok h5 := by rw [b4]; exact e5
    simp only [e2', e3', e4', e5', Res.bind_ok]
    have e6' : delWith (trS (upd (upd (upd H.kind x (.set .rc)) v1 .plain) v2 .plain) fuel) h5 (some v1) =
      .ok (some h6) := e6
    rw [e6']
    exact e7
  · refine ⟨G7.rel, rfl, G7.wf⟩
  · show X6.s.ext = X.s.ext
    rw [q6.2.2.1, q5.2.2]
  · intro y hy
    obtain ⟨y1, y2, y3⟩ := nx y hy
    refine ⟨by show X6.s.kids y = _; rw [q6.1, kk y hy], ?_⟩
    show X6.kind y = _
    rw [q6.2.1, q5.2.1, q3.2.1]
    simp [upd, y1, y2, y3]
  · show X6.kind x = _
    rw [q6.2.1, q5.2.1, hkx]
  · show X6.s.kids x = _
    rw [q6.1, q5.1]; simp [upd]


/-! ### the hypotheses can be met -/

/-- equal remainders modulo 100: the blocks 1 and 101 are equal, but not the same -/
def eq100 (a b : Nat) : Bool := a % 100 == b % 100

theorem eq100_eqv : MapProps.Eqv eq100 :=
  ⟨by simp [eq100], by intro a b; simp only [eq100, beq_iff_eq]; exact Eq.symm,
    by intro a b c; simp only [eq100, beq_iff_eq]; exact Eq.trans⟩

/-- a set of counted members, with an equal member added and one removed, then cleared and deleted; a dictionary; a
stack with one place -/
def demoS : List SOp :=
  [.make 10 (.set .rc), .plain (.mk 1), .plain (.mk 2), .plain (.mk 101), .sadd 10 1, .sadd 10 2, .sadd 10 101,
   .sremove 10 101, .make 20 (.dict .rc), .dadd 20 (some 2) (some 101), .dadd 20 (some 2) (some 1),
   .make 30 (.stack .rc 1), .push 30 (some 2), .push 30 (some 1), .pop 30, .pop 30]

example : SLegal eq100 specEmptyS demoS := by
  simp [SLegal, SOk, demoS, sstep, specEmptyS, specEmpty, mkBlock, upd, OkOp, CalmS, specStep, Spec.members,
    OkEdge, OkEdges, Spec.own, Spec.rc, refs, addEdge, eq100, dictInsert]

example : ∃ H, sexecAll eq100 demoS.length emptyS demoS = .ok (some H) ∧ H.h.kids 10 = [(.rc, some 2)] ∧
    H.h.deg 1 = 2 ∧ H.h.deg 2 = 3 ∧ H.h.deg 101 = 1 ∧
    H.h.kids 20 = [(.rc, some 2), (.rc, some 2), (.rc, some 101), (.rc, some 1)] ∧
    ∃ H', sexecAll eq100 demoS.length H [.sclear 10, .plain (.delRef (some 10)), .plain (.delRef (some 20))] =
      .ok (some H') ∧ H'.h.live 2 = false ∧ H'.h.live 101 = false ∧ H'.h.live 1 = true ∧ H'.h.deg 1 = 1 :=
  ⟨_, rfl, by decide, by decide, by decide, by decide, by decide, _, rfl, by decide, by decide, by decide, by decide⟩

theorem foldl_free (l : List Nat) : ∀ (s : Spec) (m : Nat), m ∈ s.D → m ∉ l → (∀ y ∈ s.D, ¬ Pts s.kids y m) →
    m ∈ (l.foldl Spec.drop s).D := by
  induction l with
  | nil => intro s m hm _ _; exact hm
  | cons a l ih =>
    classical
    intro s m hm hl hp
    simp only [List.mem_cons, not_or] at hl
    refine ih _ m ?_ hl.2 (fun y hy => hp y (drop_D_sub s a y hy))
    simp only [Spec.drop, List.mem_filter, hm, true_and, decide_not, Bool.not_eq_true', decide_eq_false_iff_not]
    rintro ⟨_, -, -, h | ⟨y, hy, h⟩, -⟩
    · exact hl.1 h
    · exact hp y hy h

/-- a set to which nothing points may be cleared, if no other set has members -/
theorem ok_clear {eqv : Nat → Nat → Bool} {X : SS} {H : SHeap} (G : GoodS eqv X H) (m : Nat) (hm : m ∈ X.s.D)
    (hk : X.kind m = .set .rc) (hp : ∀ y ∈ X.s.D, ¬ Pts X.s.kids y m)
    (ho : ∀ x ∈ X.s.D, x ≠ m → (X.kind x).isSet = true → X.s.kids x = []) : SOk eqv X (.sclear m) := by
  have hmD : m ∈ (clearSpec X.s m .rc).D := by
    simp only [clearSpec]
    refine foldl_free _ _ m hm ?_ ?_
    · intro h
      have wf := G.wf m hm
      rw [hk] at wf
      refine hp m hm ⟨.rc, by simp, ?_⟩
      rw [show X.s.kids m = (X.s.members m).map fun q => (.rc, some q) from set_edges wf.1]
      exact List.mem_map.2 ⟨m, h, rfl⟩
    · rintro y hy ⟨pol, hn, h⟩
      simp only [upd] at h
      split at h
      · simp at h
      · exact hp y hy ⟨pol, hn, h⟩
  refine ⟨hm, .rc, hk, hmD, ?_⟩
  intro x hx hg hs
  by_cases hxm : x = m
  · subst hxm; exact absurd hmD hg
  · exact ho x hx hxm hs

/-- the set 10 of the example above can be cleared -/
example : SOk eq100 (srun eq100 specEmptyS demoS) (.sclear 10) := by
  have hl : SLegal eq100 specEmptyS demoS := by
    simp [SLegal, SOk, demoS, sstep, specEmptyS, specEmpty, mkBlock, upd, OkOp, CalmS, specStep, Spec.members,
      OkEdge, OkEdges, Spec.own, Spec.rc, refs, addEdge, eq100, dictInsert]
  obtain ⟨H, -, G⟩ := sexecAll_spec eq100_eqv demoS (good_emptyS eq100) hl (fuel := 40)
    (by simp [specEmptyS, specEmpty, demoS])
  refine ok_clear G 10 ?_ ?_ ?_ ?_ <;>
    simp [srun, demoS, sstep, specEmptyS, specEmpty, mkBlock, upd, specStep, Spec.members, addEdge, eq100,
      dictInsert, Pts, Kind.isSet]

/-- **C103**: pushing tells whether the element was taken, that is whether there was room; popping returns the element
that was pushed last, NULL from the empty stack; the counts stay correct. -/
theorem C103_stack {eqv : Nat → Nat → Bool} {X : SS} {H : SHeap} (G : GoodS eqv X H) (y cap : Nat) (dp : Policy)
    (hy : y ∈ X.s.D) (hk : X.kind y = .stack dp cap) :
    (∀ e, ((X.s.kids y).length < cap → OkEdge X.s (dp, e)) →
      ∃ h', stackPush dp cap H.h y e = .ok (h', decide ((X.s.kids y).length < cap)) ∧
        GoodS eqv (sstep eqv X (.push y e)) ⟨h', H.kind⟩ ∧
        h'.kids y = if (X.s.kids y).length < cap then X.s.kids y ++ [(dp, e)] else X.s.kids y) ∧
    ∃ h', stackPop dp H.h y = .ok (h', (X.s.kids y).getLast?.bind (·.2)) ∧
      GoodS eqv (sstep eqv X (.pop y)) ⟨h', H.kind⟩ ∧ h'.kids y = (X.s.kids y).dropLast := by
  have wf := G.wf y hy
  rw [hk] at wf
  have hly := (G.rel.live y).2 hy
  constructor
  · intro e ok
    obtain ⟨H', e1, G'⟩ := push_spec G (y := y) (e := e) ⟨hy, dp, cap, hk, ok⟩ 0
    simp only [sexec, G.kind, hk] at e1
    cases hs : stackPush dp cap H.h y e with
    | ub => rw [hs] at e1; cases e1
    | segv => rw [hs] at e1; cases e1
    | ok r =>
      rw [hs] at e1
      cases e1
      obtain ⟨h', b⟩ := r
      have hb : b = decide ((X.s.kids y).length < cap) := by
        rw [stackPush, if_pos hly, G.rel.kids] at hs
        by_cases hc : (X.s.kids y).length = cap
        · rw [if_pos hc] at hs
          cases hs
          simp [hc]
        · rw [if_neg hc] at hs
          have : (X.s.kids y).length < cap := by have := wf.2; omega
          simp only [this, decide_true]
          generalize incrIndegree _ (dp, e) = r at hs
          cases r with
          | ok g => simp only [Res.map, Res.ok.injEq, Prod.mk.injEq] at hs; exact hs.2.symm
          | ub => cases hs
          | segv => cases hs
      refine ⟨h', by rw [hb], ⟨G'.rel, by rw [G'.kind.symm, G.kind], G'.wf⟩, ?_⟩
      have hkk : h'.kids = (sstep eqv X (.push y e)).s.kids := G'.rel.kids
      rw [hkk]
      simp only [sstep, hk]
      have := wf.2
      by_cases hc : (X.s.kids y).length = cap
      · rw [if_pos hc, if_neg (by omega)]
      · rw [if_neg hc, if_pos (by omega)]; simp [addEdge, upd]
  · obtain ⟨H', e1, G'⟩ := pop_spec G (y := y) ⟨hy, dp, cap, hk⟩ 0
    simp only [sexec, G.kind, hk] at e1
    cases hs : stackPop dp H.h y with
    | ub => rw [hs] at e1; cases e1
    | segv => rw [hs] at e1; cases e1
    | ok r =>
      rw [hs] at e1
      cases e1
      obtain ⟨h', b⟩ := r
      have hb : b = (X.s.kids y).getLast?.bind (·.2) := by
        rw [stackPop, if_pos hly, G.rel.kids] at hs
        cases hc : (X.s.kids y).getLast? with
        | none => rw [hc] at hs; cases hs; rfl
        | some e =>
          rw [hc] at hs
          simp only at hs
          generalize decrIndegree _ (dp, e.2) = r at hs
          cases r with
          | ok g => simp only [Res.map, Res.ok.injEq, Prod.mk.injEq] at hs; exact hs.2.symm
          | ub => cases hs
          | segv => cases hs
      refine ⟨h', by rw [hb], ⟨G'.rel, by rw [G'.kind.symm, G.kind], G'.wf⟩, ?_⟩
      have hkk : h'.kids = (sstep eqv X (.pop y)).s.kids := G'.rel.kids
      rw [hkk]
      simp [sstep, upd]

example : ∃ H, sexecAll eq100 9 emptyS [.make 30 (.stack .rc 1), .plain (.mk 1), .plain (.mk 2), .push 30 (some 1)] =
      .ok (some H) ∧ (stackPop .rc H.h 30).map (·.2) = .ok (some 1) ∧
    (stackPush .rc 1 H.h 30 (some 2)).map (·.2) = .ok false :=
  ⟨_, rfl, rfl, rfl⟩

/-- two sets with an equal pair of members, and a third member -/
def demoU : List SOp :=
  [.make 10 (.set .rc), .make 11 (.set .rc), .plain (.mk 1), .plain (.mk 2), .plain (.mk 101), .sadd 10 1, .sadd 10 2,
   .sadd 11 101]

example : ∃ H, GoodS eq100 (srun eq100 specEmptyS demoU) H ∧ 10 ∈ (srun eq100 specEmptyS demoU).s.D ∧
    11 ∈ (srun eq100 specEmptyS demoU).s.D ∧ (srun eq100 specEmptyS demoU).kind 10 = .set .rc ∧
    (srun eq100 specEmptyS demoU).kind 11 = .set .rc ∧ 12 ∉ (srun eq100 specEmptyS demoU).s.D ∧
    (srun eq100 specEmptyS demoU).s.members 10 = [1, 2] ∧ (srun eq100 specEmptyS demoU).s.members 11 = [101] ∧
    eq100 101 1 = true ∧ ∀ z, (srun eq100 specEmptyS demoU).s.rc z + 2 * (2 + 1) < 65536 := by
  have hl : SLegal eq100 specEmptyS demoU := by
    simp [SLegal, SOk, demoU, sstep, specEmptyS, specEmpty, mkBlock, upd, OkOp, CalmS, specStep, Spec.members,
      OkEdge, Spec.own, Spec.rc, refs, addEdge, eq100]
  obtain ⟨H, -, G⟩ := sexecAll_spec eq100_eqv demoU (good_emptyS eq100) hl (fuel := 40)
    (by simp [specEmptyS, specEmpty, demoU])
  refine ⟨H, G, ?_, ?_, ?_, ?_, ?_, ?_, ?_, by decide, ?_⟩
  case refine_8 =>
    intro z
    simp [srun, demoU, sstep, specEmptyS, specEmpty, mkBlock, upd, specStep, Spec.members, addEdge, eq100, Spec.rc,
      refs, List.count_cons]
    split <;> split <;> split <;> omega
  all_goals
    simp [srun, demoU, sstep, specEmptyS, specEmpty, mkBlock, upd, specStep, Spec.members, addEdge, eq100]

/-! ### where the claim fails -/

/-- **C103 is false** when a pointer is added to a set that has it: it is counted again, but held once.  It is not
freed when the set is cleared, although nothing refers to it. -/
theorem C103_same_pointer_false : ∃ H H', sexecAll eq100 9 emptyS
      [.make 10 (.set .rc), .plain (.mk 1), .sadd 10 1, .sadd 10 1] = .ok (some H) ∧
    H.h.kids 10 = [(.rc, some 1)] ∧ H.h.deg 1 = 2 ∧
    sexec eq100 9 H (.sclear 10) = .ok (some H') ∧ H'.h.kids 10 = [] ∧ H'.h.live 1 = true ∧ H'.h.deg 1 = 1 :=
  ⟨_, _, rfl, by decide, by decide, rfl, by decide, by decide, by decide⟩

/-- **C103 is false** for removed members: from any memory with correct counts, a member that only the set held has
the count 1 when nothing holds it any more. -/
theorem C103_removed_false {eqv : Nat → Nat → Bool} (E : MapProps.Eqv eqv) {X : SS} {H : SHeap} (G : GoodS eqv X H)
    (m k q : Nat) (hk : X.kind m = .set .rc) (ok : SOk eqv X (.sremove m k))
    (hq : (X.s.members m).find? (eqv k) = some q) (hd : H.h.deg q = 1) :
    ∃ h', setRemove eqv .rc H.h m k = .ok (h', some q) ∧ h'.live q = true ∧ h'.deg q = 1 ∧
      ∀ y, h'.live y = true → ∀ pol, pol ≠ .noop → (pol, some q) ∉ h'.kids y := by
  obtain ⟨h', e, G', hdeg, hlive, hkids⟩ := C103_remove E G m k .rc hk ok
  have hqm := List.mem_of_find?_eq_some hq
  have hkq : eqv k q = true := List.find?_some hq
  have hm := ok.1
  have wf := G.wf m hm
  rw [hk] at wf
  have hkm : X.s.kids m = (X.s.members m).map fun q => (.rc, some q) := set_edges wf.1
  have hqD : q ∈ X.s.D := G.rel.tgt m hm q ⟨.rc, by simp, by rw [hkm]; exact List.mem_map.2 ⟨q, hqm, rfl⟩⟩
  have hst : (sstep eqv X (.sremove m k)).s = { X.s with
      kids := upd X.s.kids m (((X.s.members m).filter (fun z => !eqv k z)).map fun z => (.rc, some z))
      ext := upd X.s.ext q (X.s.ext q + 1) } := by
    simp only [sstep, hk, hq, if_true]
  have R' := G'.rel
  rw [hst] at R'
  generalize upd X.s.kids m (((X.s.members m).filter (fun z => !eqv k z)).map fun z => (.rc, some z)) = K at R'
  refine ⟨h', by rw [e, hq], by rw [hlive]; exact (G.rel.live q).2 hqD, by rw [hdeg]; exact hd, ?_⟩
  intro y hy pol hn hmem
  have hyD : y ∈ X.s.D := (R'.live y).1 hy
  have h1 : h'.deg q = refs K X.s.D .rc q + upd X.s.ext q (X.s.ext q + 1) q := R'.deg q hqD
  have h2 : refs K X.s.D .del q = if h'.ret q then 1 else 0 := R'.own q hqD
  have h4 : h'.ret q = true → refs K X.s.D .rc q + upd X.s.ext q (X.s.ext q + 1) q = 0 := R'.excl q hqD
  have hkk : h'.kids = K := R'.kids
  rw [hdeg, hd] at h1
  simp only [upd, if_true] at h1 h4
  rw [hkk] at hmem
  have h3 := refs_pos hyD hmem
  cases pol with
  | noop => exact hn rfl
  | rc => omega
  | del =>
    cases hr : h'.ret q with
    | false => rw [hr] at h2; simp only [Bool.false_eq_true, if_false] at h2; omega
    | true => have := h4 hr; omega

/-- a set whose member 1 only the set holds, and the equal block 101 -/
example : ∃ H, sexecAll eq100 9 emptyS [.make 10 (.set .rc), .plain (.mk 1), .plain (.mk 101), .sadd 10 1] =
      .ok (some H) ∧ H.h.deg 1 = 1 ∧ H.kind 10 = .set .rc ∧
    ((H.h.kids 10).filterMap (·.2)).find? (eq100 101) = some 1 :=
  ⟨_, rfl, by decide, by decide, by decide⟩

/-- **C103 is false** for a member removed from a set that owns its members: it stays marked as owned, so that
`cee_del_ref` never frees it. -/
theorem C103_removed_owned_false : ∃ H, sexecAll eq100 9 emptyS
      [.make 10 (.set .del), .plain (.mk 1), .sadd 10 1, .sremove 10 1] = .ok (some H) ∧ H.h.kids 10 = [] ∧
    H.h.ret 1 = true ∧ ∀ n, ∃ H', sexecAll eq100 9 H (List.replicate n (.plain (.delRef (some 1)))) = .ok (some H') ∧
      H'.h.live 1 = true := by
  refine ⟨_, rfl, by decide, by decide, ?_⟩
  have key : ∀ (n : Nat) (H : SHeap), H.h.live 1 = true → H.h.ret 1 = true → H.h.deg 1 = 0 →
      ∃ H', sexecAll eq100 9 H (List.replicate n (.plain (.delRef (some 1)))) = .ok (some H') ∧ H'.h.live 1 = true := by
    intro n
    induction n with
    | zero => intro H h1 _ _; exact ⟨H, rfl, h1⟩
    | succ n ih =>
      intro H h1 h2 h3
      rw [List.replicate_succ, sexecAll]
      have : sexec eq100 9 H (.plain (.delRef (some 1))) = .ok (some H) := by
        simp [sexec, delRefWith, h1, h2, h3, Res.map]
      rw [this]
      exact ih H h1 h2 h3
  exact fun n => key n _ (by decide) (by decide) (by decide)

/-- **C103 is false** for the deletion of a set: with members it is undefined behaviour, whatever the policy. -/
theorem C103_delete_false (eqv : Nat → Nat → Bool) (H : SHeap) (m fuel : Nat) (dp : Policy) (hm : H.h.live m = true)
    (hk : H.kind m = .set dp) (he : H.h.kids m ≠ []) (hr : H.h.ret m = false) (hd : H.h.deg m ≤ 1) :
    sexec eqv (fuel + 1) H (.plain (.delRef (some m))) = .ub ∧
    sexec eqv (fuel + 1) H (.plain (.del (some m))) = .ub := by
  have key : ∀ h : RHeap, h.kids = H.h.kids → trS H.kind (fuel + 1) h m = .ub := by
    intro h hh
    rw [trS, if_pos]
    rw [hh, hk]
    simp [Kind.isSet, he]
  constructor
  · simp only [sexec, delRefWith, if_pos hm]
    by_cases h0 : H.h.deg m = 0
    · simp only [h0, ne_eq, not_true_eq_false, if_false, hr, Bool.false_eq_true, if_true, key H.h rfl]; rfl
    · have h1 : H.h.deg m - 1 = 0 := by omega
      simp only [ne_eq, h0, not_false_eq_true, if_true, hr, Bool.false_eq_true, if_false, upd, h1]
      rw [key ⟨H.h.live, H.h.kids, upd H.h.deg m 0, H.h.ret⟩ rfl]; rfl
  · simp only [sexec, delWith, if_pos hm, key H.h rfl]; rfl

example : ∃ H, sexecAll eq100 9 emptyS [.make 10 (.set .noop), .plain (.mk 1), .sadd 10 1] = .ok (some H) ∧
    H.h.live 10 = true ∧ H.kind 10 = .set .noop ∧ H.h.kids 10 ≠ [] ∧ H.h.ret 10 = false ∧ H.h.deg 10 ≤ 1 :=
  ⟨_, rfl, by decide, by decide, by decide, by decide, by decide⟩

/-- **C103**: `cee_set_clone` of a set of counted members: the copy holds the same members, everything else is as it
was, and the counts are correct again: dropping the set or its copy later frees no member that the other holds. -/
theorem C103_clone {eqv : Nat → Nat → Bool} (E : MapProps.Eqv eqv) {X : SS} {H : SHeap} (G : GoodS eqv X H)
    (x src : Nat) (hs : src ∈ X.s.D) (hk : X.kind src = .set .rc) (hx : x ∉ X.s.D)
    (hr : ∀ z, X.s.rc z + (X.s.members src).length < 65536) :
    ∃ H' X', setClone eqv H x src = .ok H' ∧ GoodS eqv X' H' ∧ X'.s.D = X.s.D ++ [x] ∧ X'.s.ext = X.s.ext ∧
      (∀ y ∈ X.s.D, X'.s.kids y = X.s.kids y ∧ X'.kind y = X.kind y) ∧ X'.kind x = .set .rc ∧
      X'.s.kids x = X.s.kids src := by
  have R := G.rel
  have wf := G.wf src hs
  rw [hk] at wf
  have hkm : X.s.kids src = rcEdges (X.s.members src) := set_edges wf.1
  generalize hM : X.s.members src = M at *
  have hd : M.Pairwise (fun a b => eqv a b = false) := by rw [← hM]; exact wf.2
  have nod : M.Nodup := by
    refine List.Pairwise.imp ?_ hd
    rintro a b hab rfl
    rw [E.refl] at hab; cases hab
  have hMD : ∀ a ∈ M, a ∈ X.s.D ∧ X.s.own a = 0 := by
    intro a ha
    have ha' : (.rc, some a) ∈ X.s.kids src := by rw [hkm]; exact List.mem_map.2 ⟨a, ha, rfl⟩
    have haD := R.tgt src hs a ⟨.rc, by simp, ha'⟩
    refine ⟨haD, ?_⟩
    have := refs_pos hs ha'
    cases hrt : H.h.ret a
    · have := R.own a haD; rw [hrt] at this; simpa using this
    · have h := R.excl a haD hrt; rw [Spec.rc] at h; omega
  obtain ⟨H1, e1, G1⟩ := make_spec G (x := x) (k := .set .rc) hx 0
  simp only [sexec, Res.ok.injEq, Option.some.injEq] at e1
  subst e1
  obtain ⟨h2, e2, G2⟩ := addAll_spec E x (rcEdges M) (acc := []) G1 (List.mem_append.2 (.inr (by simp)))
    (by simp [sstep, upd]) (by simp [sstep, mkBlock, upd, rcEdges]) (by
      intro e he
      obtain ⟨a, ha, rfl⟩ := List.mem_map.1 he
      exact ⟨a, rfl, List.mem_append.2 (.inl (hMD a ha).1), by
        rw [show (sstep eqv X (.make x (.set .rc))).s.own a = X.s.own a from (mkBlock_rc hx a).2]
        exact (hMD a ha).2, by simp⟩) (by rw [rcEdges_members]; exact nod) (by
      intro z
      rw [show (sstep eqv X (.make x (.set .rc))).s.rc z = X.s.rc z from (mkBlock_rc hx z).1]
      simpa [rcEdges] using hr z)
  rw [rcEdges_members, unite_eq E M [] hd] at G2
  simp only [List.any_nil, Bool.not_false, List.filter_true, List.nil_append] at G2
  refine ⟨_, _, ?_, G2, rfl, rfl, ?_, by simp [withKids, sstep, upd], by simp [withKids, upd, hkm]⟩
  · simp only [setClone, G.kind, hk, (R.live src).2 hs, if_true, R.kids, hkm, e2, Res.map]
  · intro y hy
    have : y ≠ x := by rintro rfl; exact hx hy
    simp [withKids, sstep, mkBlock, upd, this]

/-- **C103 is false** for the union of sets with a common member: the new set holds it once and has counted it twice,
so it is never freed: when all three sets are empty again it is still there, with nothing that holds it. -/
theorem C103_union_shared_false : ∃ H, sexecAll eq100 9 emptyS
      [.make 10 (.set .rc), .make 11 (.set .rc), .plain (.mk 1), .sadd 10 1, .sadd 11 1] = .ok (some H) ∧
    H.h.deg 1 = 2 ∧
    ∃ h', setUnion eq100 (trS (upd H.kind 12 (.set .rc)) 9) H.h 12 13 14 10 11 = .ok (some h') ∧
      h'.kids 12 = [(.rc, some 1)] ∧ h'.live 13 = false ∧ h'.live 14 = false ∧ h'.deg 1 = 4 ∧
      ∃ H'', sexecAll eq100 9 ⟨h', upd H.kind 12 (.set .rc)⟩ [.sclear 10, .sclear 11, .sclear 12,
          .plain (.delRef (some 10)), .plain (.delRef (some 11)), .plain (.delRef (some 12))] = .ok (some H'') ∧
        H''.h.live 10 = false ∧ H''.h.live 11 = false ∧ H''.h.live 12 = false ∧
        H''.h.live 1 = true ∧ H''.h.deg 1 = 1 :=
  ⟨_, rfl, by decide, _, rfl, by decide, by decide, by decide, by decide, _, rfl, by decide, by decide, by decide,
    by decide, by decide⟩

/-- **C103 is false** for the union of sets that do not count their members: the new set counts them, and the
members, on which the program has no count either, go with it, under the first set. -/
theorem C103_union_noop_false : ∃ H, sexecAll eq100 9 emptyS
      [.make 10 (.set .noop), .make 11 (.set .noop), .plain (.mk 1), .plain (.mk 2), .sadd 10 1] = .ok (some H) ∧
    ∃ h', setUnion eq100 (trS (upd H.kind 12 (.set .rc)) 9) H.h 12 13 14 10 11 = .ok (some h') ∧
      ∃ H'', sexec eq100 9 ⟨h', upd H.kind 12 (.set .rc)⟩ (.sclear 12) = .ok (some H'') ∧
        H''.h.kids 10 = [(.noop, some 1)] ∧ H''.h.live 1 = false ∧
        H''.h.live 2 = true ∧ sexec eq100 9 H'' (.sadd 10 2) = .ub :=
  ⟨_, rfl, _, rfl, _, rfl, by decide, by decide, by decide, rfl⟩

/-- **C103 is false** for the union of sets that own their members: the new set does not count them, the
owner frees what the new set holds, and clearing the new set is undefined behaviour. -/
theorem C103_union_owned_false : ∃ H, sexecAll eq100 9 emptyS
      [.make 10 (.set .del), .make 11 (.set .del), .plain (.mk 1), .sadd 10 1] = .ok (some H) ∧
    ∃ h', setUnion eq100 (trS (upd H.kind 12 (.set .rc)) 9) H.h 12 13 14 10 11 = .ok (some h') ∧
      h'.kids 12 = [(.rc, some 1)] ∧ h'.deg 1 = 0 ∧
      sexecAll eq100 9 ⟨h', upd H.kind 12 (.set .rc)⟩ [.sclear 10, .sclear 12] = .ub :=
  ⟨_, rfl, _, rfl, by decide, by decide, rfl⟩

/-- **C103 is false** for copies of a set that owns its members: both own them, and clearing both is undefined
behaviour. -/
theorem C103_clone_owned_false : ∃ H, sexecAll eq100 9 emptyS
      [.make 10 (.set .del), .plain (.mk 1), .sadd 10 1] = .ok (some H) ∧
    ∃ H', setClone eq100 H 11 10 = .ok H' ∧ H'.h.kids 10 = [(.del, some 1)] ∧ H'.h.kids 11 = [(.del, some 1)] ∧
      sexecAll eq100 9 H' [.sclear 10, .sclear 11] = .ub :=
  ⟨_, rfl, _, rfl, by decide, by decide, rfl⟩

/-- **C103 is false** for clearing a set that its members alone keep: the set is deleted on the way, undefined
behaviour. -/
theorem C103_clear_false : ∃ H, sexecAll eq100 9 emptyS
      [.make 10 (.set .rc), .plain (.mk 1), .plain (.append 1 (.rc, some 10)), .sadd 10 1] = .ok (some H) ∧
    H.h.deg 10 = 1 ∧ H.h.deg 1 = 1 ∧ sexec eq100 9 H (.sclear 10) = .ub :=
  ⟨_, rfl, by decide, by decide, by simp [sexec]; rfl⟩

/-- **C103 is false** for a dictionary with the policy `CEE_DP_NOOP`: its keys and values are counted all the same,
and the counts are never taken back: whatever the memory, when the dictionary is deleted, the key and the value have
one reference more than before. -/
theorem C103_dict_noop_false (eqv : Nat → Nat → Bool) (fuel : Nat) (H : SHeap) (d k v : Nat)
    (hd : H.h.live d = true) (hkd : H.kind d = .dict .noop) (hdk : H.h.kids d = []) (h0 : H.h.deg d = 0)
    (hr : H.h.ret d = false) (hk : H.h.live k = true) (hv : H.h.live v = true) (hkv : k ≠ v) (hdk' : d ≠ k)
    (hdv : d ≠ v) (hrk : H.h.ret k = false) (hrv : H.h.ret v = false) (hlk : H.h.deg k + 1 < 65536)
    (hlv : H.h.deg v + 1 < 65536) :
    ∃ H', sexecAll eqv (fuel + 1) H [.dadd d (some k) (some v), .plain (.delRef (some d))] = .ok (some H') ∧
      H'.h.live d = false ∧ H'.h.live k = true ∧ H'.h.live v = true ∧ H'.h.deg k = H.h.deg k + 1 ∧
      H'.h.deg v = H.h.deg v + 1 := by
  obtain ⟨h, kind⟩ := H
  simp only at *
  have e1 : sexec eqv (fuel + 1) ⟨h, kind⟩ (.dadd d (some k) (some v)) = .ok (some
      ⟨{ h with deg := upd (upd h.deg k (h.deg k + 1)) v (h.deg v + 1) }, kind⟩) := by
    simp [sexec, hkd, dictAdd, hd, incrIndegree, incrRc, hk, hv, hrk, hrv, Res.map, Res.bind, upd, Ne.symm hkv,
      Nat.mod_eq_of_lt hlk, Nat.mod_eq_of_lt hlv]
  rw [sexecAll, e1]
  simp only
  have hdeg : upd (upd h.deg k (h.deg k + 1)) v (h.deg v + 1) d = 0 := by simp [upd, hdv, hdk', h0]
  refine ⟨⟨{ h with deg := upd (upd h.deg k (h.deg k + 1)) v (h.deg v + 1), live := upd h.live d false }, kind⟩,
    ?_, by simp [upd], by simp [upd, Ne.symm hdk', hk], by simp [upd, Ne.symm hdv, hv], by simp [upd, hkv],
    by simp [upd]⟩
  rw [sexecAll]
  have e2 : sexec eqv (fuel + 1) ⟨{ h with deg := upd (upd h.deg k (h.deg k + 1)) v (h.deg v + 1) }, kind⟩
      (.plain (.delRef (some d))) = .ok (some
      ⟨{ h with deg := upd (upd h.deg k (h.deg k + 1)) v (h.deg v + 1), live := upd h.live d false }, kind⟩) := by
    simp [sexec, delRefWith, hd, hdeg, hr, trS, hkd, Kind.isSet, hdk, delLoop, freeBlock, Res.map]
  rw [e2]; rfl

example : ∃ H, sexecAll eq100 9 emptyS [.make 20 (.dict .noop), .plain (.mk 1), .plain (.mk 2)] = .ok (some H) ∧
    H.h.live 20 = true ∧ H.kind 20 = .dict .noop ∧ H.h.kids 20 = [] ∧ H.h.deg 20 = 0 ∧ H.h.ret 20 = false ∧
    H.h.live 1 = true ∧ H.h.live 2 = true ∧ H.h.ret 1 = false ∧ H.h.ret 2 = false ∧ H.h.deg 1 + 1 < 65536 ∧
    H.h.deg 2 + 1 < 65536 :=
  ⟨_, rfl, by decide, by decide, by decide, by decide, by decide, by decide, by decide, by decide, by decide,
    by decide, by decide⟩

/-- **C103 is false** for dictionaries with values NULL or keys that are no blocks of the library (as the string
literals that `cee_dict_add` takes): undefined behaviour, whatever the policy. -/
theorem C103_dict_foreign_false (o : Policy) (h : RHeap) (d : Nat) (k v : Ptr)
    (hx : v = none ∨ k = none ∨ (∃ x, k = some x ∧ h.live x = false) ∨ ∃ x, v = some x ∧ h.live x = false) :
    dictAdd o h d k v = .ub := by
  have hbad : ∀ (g : RHeap) (p : Ptr), g.live = h.live → (p = none ∨ ∃ x, p = some x ∧ h.live x = false) →
      incrIndegree g (.rc, p) = .ub := by
    rintro g p hg (rfl | ⟨x, rfl, hl⟩)
    · rfl
    · simp [incrIndegree, incrRc, hg, hl]
  unfold dictAdd
  split
  · have hg : ((if o = .noop then h else { h with kids := upd h.kids d (dictInsert (h.kids d) k v) }) : RHeap).live =
        h.live := by split <;> rfl
    simp only
    generalize ((if o = .noop then h else { h with kids := upd h.kids d (dictInsert (h.kids d) k v) }) : RHeap) = g
      at hg
    by_cases hkb : k = none ∨ ∃ x, k = some x ∧ h.live x = false
    · rw [hbad g k hg hkb]; rfl
    · have hvb : v = none ∨ ∃ x, v = some x ∧ h.live x = false := by
        rcases hx with h1 | h1 | h1 | h1
        · exact .inl h1
        · exact absurd (.inl h1) hkb
        · exact absurd (.inr h1) hkb
        · exact .inr h1
      cases he : incrIndegree g (.rc, k) with
      | ok g1 => rw [Res.bind_ok, hbad g1 v (by rw [(incr_frame he).2, hg]) hvb]
      | ub => rfl
      | segv =>
        cases k <;> simp [incrIndegree, incrRc] at he
        split at he
        · split at he <;> cases he
        · cases he
  · rfl

example : ∃ H, sexecAll eq100 9 emptyS [.make 20 (.dict .rc), .plain (.mk 1)] = .ok (some H) ∧
    H.h.live 20 = true ∧ H.h.live 1 = true ∧ H.h.live 7 = false :=
  ⟨_, rfl, by decide, by decide, by decide⟩


end Verif.Rc.SetProps
