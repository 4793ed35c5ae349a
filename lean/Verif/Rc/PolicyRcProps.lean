import Verif.Rc.PolicyRc
import Verif.Rc.MapRcProps

/-! # Properties of changed deletion policies (C127) -/

namespace Verif.Rc.PolicyProps
open Verif.Chain (upd)
open Verif.Rc.Props
open Verif.Rc.MapProps (W upd_upd decr_frame incr_frame decrIndegree_kids)

/-! ## Programs -/

inductive POp where
  | op (o : Op)
  /-- a change of policy with the counts put right -/
  | policy (t i : Nat) (v : Policy)

/-- the element in the specification -/
def elem (s : Spec) (t i : Nat) : Edge := ((s.kids t)[i]?).getD (.noop, none)

/-- the policy of one element is another one -/
def setPolicy (s : Spec) (t i : Nat) (v : Policy) : Spec :=
  { s with kids := upd s.kids t ((s.kids t).set i (v, (elem s t i).2)) }

noncomputable def step (s : Spec) : POp → Spec
  | .op o => specStep s o
  | .policy t i v => setPolicy s t i v

/-- the element is there, and it may be inserted with the new policy once the old one is gone -/
def Ok (s : Spec) : POp → Prop
  | .op o => OkOp s o
  | .policy t i v => t ∈ s.D ∧ i < (s.kids t).length ∧ ((elem s t i).1 = .noop ∨ (elem s t i).2 ≠ none) ∧
      OkEdge (setPolicy s t i .noop) (v, (elem s t i).2)

def exec (fuel : Nat) (h : RHeap) : POp → Res (Option RHeap)
  | .op o => Props.exec fuel h o
  | .policy t i v => (changePolicy h t i (((h.kids t)[i]?).getD (.noop, none)) v).map some

def execAll (fuel : Nat) (h : RHeap) : List POp → Res (Option RHeap)
  | [] => .ok (some h)
  | op :: ops =>
    match exec fuel h op with
    | .ok (some h') => execAll fuel h' ops
    | r => r

def Legal (s : Spec) : List POp → Prop
  | [] => True
  | op :: ops => Ok s op ∧ Legal (step s op) ops

noncomputable def run (s : Spec) : List POp → Spec
  | [] => s
  | op :: ops => run (step s op) ops

/-! ## Proofs -/

section
variable {s : Spec} {h : RHeap}

theorem elem_eq {t i : Nat} {e : Edge} (hi : (s.kids t)[i]? = some e) : elem s t i = e := by simp [elem, hi]

theorem set_perm {l : List Edge} {i : Nat} (hi : i < l.length) (e : Edge) : (l.set i e).Perm (e :: l.eraseIdx i) := by
  have h1 := List.getElem_cons_eraseIdx_perm (l := l.set i e) (n := i) (by simpa using hi)
  rw [List.getElem_set_self, List.eraseIdx_set_eq] at h1
  exact h1.symm

theorem update_ok {t i : Nat} {v : Policy} {e : Edge} (hl : h.live t = true) (hi : (h.kids t)[i]? = some e) :
    updatePolicy h t i v = .ok { h with kids := upd h.kids t ((h.kids t).set i (v, e.2)) } := by
  have : ((i : Int)).toNat = i := by omega
  simp only [updatePolicy, hl, if_true, this, hi]
  rw [if_neg (by omega)]

/-- a pointer that is not counted may come and go -/
theorem w_noop {s : Spec} {h : RHeap} (w : W s h) {y : Nat} (hy : y ∈ s.D) {es : List Edge} (p : Ptr) (hp : (s.kids y).Perm es) :
    W { s with kids := upd s.kids y ((.noop, p) :: es) } h := by
  obtain ⟨h', e, w'⟩ := w.incr hy (e := (.noop, p)) trivial
  cases e
  have := w'.perm (y := y) (es := (.noop, p) :: es) (by
    simp only [addEdge, upd, if_true]
    exact (List.perm_append_comm.trans (List.Perm.cons _ hp)))
  simp only [addEdge, upd_upd] at this
  exact this

theorem change_spec (R : Rel s h) {t i : Nat} {v : Policy} (ok : Ok s (.policy t i v)) :
    ∃ h', exec 0 h (.policy t i v) = .ok (some h') ∧ Rel (setPolicy s t i v) h' := by
  obtain ⟨ht, hi, hn, ho⟩ := ok
  have he : (s.kids t)[i]? = some ((s.kids t)[i]) := List.getElem?_eq_getElem hi
  have hel : elem s t i = (s.kids t)[i] := elem_eq he
  generalize hed : (s.kids t)[i] = e at he hel
  simp only [hel] at hn ho
  have hperm : (s.kids t).Perm (e :: (s.kids t).eraseIdx i) := by
    rw [← hed]; exact (List.getElem_cons_eraseIdx_perm hi).symm
  obtain ⟨h1, e1, w1⟩ := (W.of R).decr ht hperm hn
  have w1' : W (setPolicy s t i .noop) h1 := by
    have := w_noop (y := t) w1 (by exact ht) e.2 (es := (s.kids t).eraseIdx i) (by simp [upd])
    simp only [upd_upd] at this
    have := this.perm (y := t) (es := (s.kids t).set i (.noop, e.2)) (by simp only [upd, if_true]; exact (set_perm hi _).symm)
    simp only [upd_upd] at this
    simpa only [setPolicy, hel] using this
  obtain ⟨hk1, hl1⟩ := decr_frame e1
  have hlt : h1.live t = true := by rw [hl1]; exact (R.live t).2 ht
  have hkt : h1.kids t = s.kids t := by rw [hk1, R.kids]
  have e2 := update_ok (v := v) hlt (show (h1.kids t)[i]? = some e by rw [hkt]; exact he)
  obtain ⟨h3, e3, w3⟩ := w1'.incr (y := t) ht ho
  have e3' := incrIndegree_kids e3 (upd h1.kids t ((h1.kids t).set i (v, e.2)))
  refine ⟨{ h3 with kids := upd h1.kids t ((h1.kids t).set i (v, e.2)) }, ?_, ?_⟩
  · have hR : h.kids t = s.kids t := by rw [R.kids]
    simp only [exec, hR, he, Option.getD_some, changePolicy, e1, Res.bind, e2, e3', Res.map]
  · have w4 : W (setPolicy s t i v) h3 := by
      have hd : (addEdge (setPolicy s t i .noop) t (v, e.2)).kids t =
          (s.kids t).set i (.noop, e.2) ++ [(v, e.2)] := by simp [addEdge, setPolicy, upd, hel]
      obtain ⟨h4, e4, w4⟩ := w3.decr (y := t) (e := (.noop, e.2)) (es := (v, e.2) :: (s.kids t).eraseIdx i) ht (by
        rw [hd]
        refine List.perm_append_comm.trans ?_
        refine (List.Perm.cons _ (set_perm hi _)).trans ?_
        exact List.Perm.swap ..) (.inl rfl)
      cases e4
      have := w4.perm (y := t) (es := (s.kids t).set i (v, e.2)) (by simp only [upd, if_true]; exact (set_perm hi _).symm)
      simp only [addEdge, setPolicy, upd_upd] at this
      simpa only [setPolicy, hel] using this
    refine W.to ?_ ?_
    · exact w4
    · show upd h1.kids t ((h1.kids t).set i (v, e.2)) = _
      simp only [setPolicy, hel, hk1, R.kids]

theorem exec_spec (R : Rel s h) (op : POp) (ok : Ok s op) {fuel : Nat} (hf : s.D.length ≤ fuel) :
    ∃ h', exec fuel h op = .ok (some h') ∧ Rel (step s op) h' := by
  cases op with
  | op o => exact Props.exec_spec R o ok hf
  | policy t i v => exact change_spec R ok

theorem step_length (s : Spec) (op : POp) : (step s op).D.length ≤ s.D.length + 1 := by
  cases op with
  | op o => exact Props.step_length s o
  | policy t i v => simp [step, setPolicy]

theorem execAll_spec (ops : List POp) : ∀ (s : Spec) (h : RHeap) (fuel : Nat), Rel s h → Legal s ops → s.D.length + ops.length ≤ fuel →
    ∃ h', execAll fuel h ops = .ok (some h') ∧ Rel (run s ops) h' := by
  induction ops with
  | nil => intro s h fuel R _ _; exact ⟨h, rfl, R⟩
  | cons op ops ih =>
    intro s h fuel R hl hf
    simp only [List.length_cons] at hf
    obtain ⟨h1, e1, R1⟩ := exec_spec R op hl.1 (fuel := fuel) (by omega)
    have := step_length s op
    obtain ⟨h2, e2, R2⟩ := ih _ _ fuel R1 hl.2 (by omega)
    exact ⟨h2, by rw [execAll, e1]; exact e2, R2⟩

end

/-- **C127, what holds.**  Programs as in C21 that also change the policies of elements of tuples, taking the element back under the old policy first and
counting it under the new one afterwards, never touch what is freed, and all counts are exact at every point.  Missing: changes of the policy alone, for which
the claim is false (`C127_exact_iff`). -/
theorem C127_partial (ops : List POp) (hl : Legal specEmpty ops) :
    ∃ h, execAll ops.length empty ops = .ok (some h) ∧ Rel (run specEmpty ops) h :=
  execAll_spec ops _ _ _ rel_empty hl (by simp [specEmpty])

/-- **C127.**  `cee_tuple_update_del_policy` alone, in any memory with exact counts and for any element that is not NULL: it does what it is asked for, changes
nothing else, and the counts are exact afterwards if and only if the policy was that one before. -/
theorem C127_exact_iff {s : Spec} {h : RHeap} (R : Rel s h) {t i b : Nat} {old v : Policy} (ht : t ∈ s.D) (hi : (s.kids t)[i]? = some (old, some b)) :
    ∃ h', updatePolicy h t i v = .ok h' ∧ h'.live = h.live ∧ h'.deg = h.deg ∧ h'.ret = h.ret ∧ (∀ y ≠ t, h'.kids y = h.kids y) ∧
      (∀ j, (h'.kids t)[j]? = if j = i then some (v, some b) else (h.kids t)[j]?) ∧
      (Rel { s with kids := h'.kids } h' ↔ v = old) := by
  have hkt : h.kids t = s.kids t := by rw [R.kids]
  obtain ⟨hlt, hg⟩ := List.getElem?_eq_some_iff.1 hi
  have e := update_ok (v := v) ((R.live t).2 ht) (show (h.kids t)[i]? = some (old, some b) by rw [hkt]; exact hi)
  refine ⟨_, e, rfl, rfl, rfl, fun y hy => by simp [upd, hy], ?_, ?_⟩
  · intro j
    simp only [upd, if_true, List.getElem?_set, hkt]
    by_cases hj : j = i
    · subst hj; simp [hlt]
    · rw [if_neg (Ne.symm hj), if_neg hj]
  simp only [R.kids]
  constructor
  · intro R'
    by_contra hne
    have hpts : ∀ (p : Policy), p ≠ .noop → p = v ∨ p = old → b ∈ s.D := by
      rintro p hp (rfl | rfl)
      · exact R'.tgt t ht b ⟨p, hp, by
          simp only [upd, if_true]
          exact List.mem_iff_getElem?.2 ⟨i, by rw [List.getElem?_set]; simp [hlt]⟩⟩
      · exact R.tgt t ht b ⟨p, hp, List.mem_iff_getElem?.2 ⟨i, hi⟩⟩
    have hb : b ∈ s.D := by
      cases v with
      | rc => exact hpts .rc (by decide) (.inl rfl)
      | del => exact hpts .del (by decide) (.inl rfl)
      | noop =>
        cases old with
        | rc => exact hpts .rc (by decide) (.inr rfl)
        | del => exact hpts .del (by decide) (.inr rfl)
        | noop => exact absurd rfl hne
    have hc : ∀ pol, ((s.kids t).set i (v, some b)).count (pol, some b) + (if old = pol then 1 else 0) =
        (s.kids t).count (pol, some b) + (if v = pol then 1 else 0) := by
      intro pol
      have h1 := (set_perm hlt (v, some b)).count_eq (pol, some b)
      have h2 := (List.getElem_cons_eraseIdx_perm hlt).count_eq (pol, some b)
      rw [count_cons'] at h1 h2
      rw [hg] at h2
      simp only [Prod.mk.injEq, and_true] at h1 h2
      omega
    have hr := fun pol => refs_upd (kids := s.kids) R.nodup ht ((s.kids t).set i (v, some b)) pol b
    have d1 := R.deg b hb
    have d2 := R'.deg b hb
    have o1 := R.own b hb
    have o2 := R'.own b hb
    simp only [Spec.rc, Spec.own] at d1 d2 o1 o2
    have r1 := hr .rc
    have r2 := hr .del
    have c1 := hc .rc
    have c2 := hc .del
    rw [d1] at d2
    rw [← o1] at o2
    cases v <;> cases old <;> simp at c1 c2 hne <;> omega
  · rintro rfl
    have : upd s.kids t ((s.kids t).set i (v, some b)) = s.kids := by
      funext y
      simp only [upd]
      split
      · rename_i hy; subst hy
        rw [← hg]; exact List.set_getElem_self ..
      · rfl
    rw [this]
    have hh : ({ h with kids := s.kids } : RHeap) = h := by rw [← R.kids]
    rw [hh]; exact R

/-- **C127**, an index that the tuple does not have: a write outside the array -/
theorem C127_index (h : RHeap) (t : Nat) (i : Int) (v : Policy) (hl : h.live t = true) :
    updatePolicy h t i v = .ub ↔ i < 0 ∨ ((h.kids t).length : Int) ≤ i := by
  simp only [updatePolicy, hl, if_true]
  by_cases hi : i < 0
  · simp [hi]
  · simp only [hi, if_false, false_or]
    cases hx : (h.kids t)[i.toNat]? with
    | none =>
      have := List.getElem?_eq_none_iff.1 hx
      simp; omega
    | some e =>
      obtain ⟨h1, _⟩ := List.getElem?_eq_some_iff.1 hx
      simp; omega

theorem delLoop_noop (tr : RHeap → Nat → Res (Option RHeap)) (a : Nat) (h : RHeap) (hl : h.live a = true) :
    ∀ es : List Edge, (∀ e ∈ es, e.1 = .noop) → delLoop tr a h es = .ok (some h) := by
  intro es
  induction es with
  | nil => intro _; rfl
  | cons e es ih =>
    intro hn
    obtain ⟨pol, p⟩ := e
    obtain rfl : pol = .noop := hn (pol, p) (by simp)
    rw [delLoop, if_pos hl, delE]
    exact ih (fun e he => hn e (by simp [he]))

/-- **C127, taking a tuple apart** as `cee_map_remove` does (map.c:192-196): in any memory with exact counts, for a tuple that nothing refers to, exactly the
tuple is freed, its elements stay, and the counts are exact again. -/
theorem C127_detach {s : Spec} {h : RHeap} (R : Rel s h) {t : Nat} {p q : Edge} (ht : t ∈ s.D) (hf : s.Floating t) (hk : s.kids t = [p, q])
    (hp : p.1 = .noop ∨ p.2 ≠ none) (hq : q.1 = .noop ∨ q.2 ≠ none) (fuel : Nat) :
    ∃ h', detach (fuel + 1) h t p q = .ok (some h') ∧ (∀ x, h'.live x = true ↔ h.live x = true ∧ x ≠ t) ∧
      Rel { s with D := s.D.erase t, kids := upd s.kids t [(.noop, p.2), (.noop, q.2)] } h' := by
  have w0 := W.of R
  obtain ⟨h1, e1, w1⟩ := w0.decr ht (e := p) (es := [q]) (by rw [hk]) hp
  obtain ⟨h2, e2, w2⟩ := w1.decr (y := t) ht (e := q) (es := []) (by simp [upd]) hq
  have w3 := w_noop (y := t) w2 ht q.2 (es := []) (by simp [upd])
  have w4 := w_noop (y := t) w3 ht p.2 (es := [(.noop, q.2)]) (by simp [upd])
  simp only [upd_upd] at w4
  obtain ⟨k1, l1⟩ := decr_frame e1
  obtain ⟨k2, l2⟩ := decr_frame e2
  have hl : h2.live t = true := by rw [l2, l1]; exact (R.live t).2 ht
  have hk2 : h2.kids t = [p, q] := by rw [k2, k1, R.kids, hk]
  have e3 := update_ok (h := h2) (t := t) (i := 0) (v := .noop) (e := p) hl (by rw [hk2]; rfl)
  have e4 := update_ok (h := { h2 with kids := upd h2.kids t ((h2.kids t).set 0 (.noop, p.2)) }) (t := t) (i := 1) (v := .noop) (e := q) hl
    (by simp [upd, hk2])
  have hk4 : upd (upd h2.kids t ((h2.kids t).set 0 (.noop, p.2))) t (((upd h2.kids t ((h2.kids t).set 0 (.noop, p.2))) t).set 1 (.noop, q.2)) =
      upd s.kids t [(.noop, p.2), (.noop, q.2)] := by
    rw [upd_upd, k2, k1, R.kids]
    congr 1
    simp [upd, hk]
  simp only [hk4] at e4
  have hdel : del (fuel + 1) { h2 with kids := upd s.kids t [(.noop, p.2), (.noop, q.2)] } (some t) =
      .ok (some { h2 with kids := upd s.kids t [(.noop, p.2), (.noop, q.2)], live := upd h2.live t false }) := by
    rw [del, delWith, if_pos (by exact hl), traceDel, delLoop_noop _ _ _ (by exact hl) _ (by simp [upd])]
    simp only [freeBlock, hl, if_true]
  refine ⟨{ h2 with kids := upd s.kids t [(.noop, p.2), (.noop, q.2)], live := upd h2.live t false }, ?_, ?_, ?_⟩
  · have e3' : updatePolicy h2 t 0 .noop = .ok { h2 with kids := upd h2.kids t ((h2.kids t).set 0 (.noop, p.2)) } := e3
    have e4' : updatePolicy { h2 with kids := upd h2.kids t ((h2.kids t).set 0 (.noop, p.2)) } t 1 .noop =
      .ok { h2 with kids := upd s.kids t [(.noop, p.2), (.noop, q.2)] } := e4
    simp only [detach, e1, e2, Res.bind, e3', e4', hdel]
  · intro x
    simp only [upd, l2, l1]
    by_cases hx : x = t <;> simp [hx]
  · have hnp : ∀ y ∈ s.D, ∀ x, Pts (upd s.kids t [(.noop, p.2), (.noop, q.2)]) y x → x ≠ t := by
      rintro y hy x ⟨pol, hn, hm⟩ rfl
      simp only [upd] at hm
      split at hm
      · simp only [List.mem_cons, List.not_mem_nil, or_false, Prod.mk.injEq] at hm
        rcases hm with hm | hm <;> exact hn hm.1
      · have h1 := refs_pos hy hm
        have h2 := hf.1
        have h3 := hf.2
        simp only [Spec.rc, Spec.own] at h2 h3
        cases pol <;> first | omega | exact hn rfl
    have hre : ∀ pol x, pol ≠ .noop → refs (upd s.kids t [(.noop, p.2), (.noop, q.2)]) (s.D.erase t) pol x =
        refs (upd s.kids t [(.noop, p.2), (.noop, q.2)]) s.D pol x := by
      intro pol x hp
      rw [refs_erase (upd s.kids t [(.noop, p.2), (.noop, q.2)]) ht]
      simp [upd, List.count_cons, hp.symm]
    have hmem : ∀ x, x ∈ s.D.erase t ↔ x ∈ s.D ∧ x ≠ t := by
      intro x; rw [R.nodup.mem_erase_iff]; exact And.comm
    refine ⟨rfl, R.nodup.erase _, ?_, ?_, ?_, ?_, ?_, ?_⟩
    · intro x
      rw [hmem]
      simp only [upd]
      have := w4.live x
      by_cases hx : x = t
      · simp [hx]
      · simp only [if_neg hx, hx, ne_eq, not_false_eq_true, and_true]; exact this
    · intro y hy x hx
      rw [hmem] at hy ⊢
      exact ⟨Rel.tgt w4 y hy.1 x hx, hnp y hy.1 x hx⟩
    · intro x hx
      rw [hmem]
      refine ⟨R.ext x hx, ?_⟩
      rintro rfl
      have := hf.1
      simp only [Spec.rc] at this
      simp only at hx
      omega
    · intro x hx
      have := Rel.deg w4 x ((hmem x).1 hx).1
      simp only [Spec.rc] at this ⊢
      rw [hre _ _ (by decide)]; exact this
    · intro x hx
      have := Rel.own w4 x ((hmem x).1 hx).1
      simp only [Spec.own] at this ⊢
      rw [hre _ _ (by decide)]; exact this
    · intro x hx hr
      have := Rel.excl w4 x ((hmem x).1 hx).1 hr
      simp only [Spec.rc] at this ⊢
      rw [hre _ _ (by decide)]; exact this

/-! ## What goes wrong -/

/-- block 1 in list 2 (policy `l`) and in the tuple 3 (policy `old`), whose policy is then changed to `v`, and the tuple deleted -/
def scene (l old v : Policy) : Res (Option RHeap) :=
  match Props.execAll 9 empty [.mk 1, .mk 2, .append 2 (l, some 1), .mkTuple 3 [(old, some 1), (.noop, none)]] with
  | .ok (some h) => (updatePolicy h 3 0 v).bind fun h => delRef 9 h (some 3)
  | r => r

/-- **C127 is false**, borrowed to counted, borrowed to owned, counted to owned: deleting the tuple frees the element although the list holds it, and deleting
the list then touches freed memory. -/
theorem C127_freed_false (old v : Policy) (hv : (old, v) ∈ [(Policy.noop, Policy.rc), (.noop, .del), (.rc, .del)]) :
    ∃ h, scene .rc old v = .ok (some h) ∧ h.live 1 = false ∧ h.live 2 = true ∧ (.rc, some 1) ∈ h.kids 2 ∧
      delRef 9 h (some 2) = .ub := by
  simp only [List.mem_cons, List.not_mem_nil, or_false, Prod.mk.injEq] at hv
  rcases hv with ⟨rfl, rfl⟩ | ⟨rfl, rfl⟩ | ⟨rfl, rfl⟩ <;> exact ⟨_, rfl, rfl, rfl, List.mem_cons_self, rfl⟩

/-- **C127 is false**, counted to borrowed, owned to borrowed, owned to counted: after the tuple and the list are deleted nothing refers to the element, and it
stays in memory. -/
theorem C127_leak_false (old v : Policy) (hv : (old, v) ∈ [(Policy.rc, Policy.noop), (.del, .noop), (.del, .rc)]) :
    ∃ h h', scene .noop old v = .ok (some h) ∧ delRef 9 h (some 2) = .ok (some h') ∧ h'.live 1 = true ∧ (∀ y, h'.live y = true → y = 1) ∧ h'.kids 1 = [] := by
  simp only [List.mem_cons, List.not_mem_nil, or_false, Prod.mk.injEq] at hv
  rcases hv with ⟨rfl, rfl⟩ | ⟨rfl, rfl⟩ | ⟨rfl, rfl⟩ <;>
    refine ⟨_, _, rfl, rfl, rfl, ?_, rfl⟩ <;>
    exact fun y => match y with
      | 0 => fun h => absurd (show false = true from h) (by decide)
      | 1 => fun _ => rfl
      | 2 => fun h => absurd (show false = true from h) (by decide)
      | 3 => fun h => absurd (show false = true from h) (by decide)
      | n + 4 => fun h => by simp [upd, empty, newBlock] at h

/-! ## The hypotheses are met -/

/-- a string is put into a tuple and a list, the tuple lets go of it, takes it again, and is deleted -/
example : Legal specEmpty [.op (.mk 1), .op (.mk 2), .op (.mkTuple 3 [(.rc, some 1), (.del, some 2)]), .policy 3 0 .noop, .policy 3 1 .rc, .policy 3 0 .del] := by
  simp [Legal, Ok, step, specEmpty, OkOp, specStep, mkBlock, Spec.Floating, Spec.rc, Spec.own, refs, upd, OkEdge, OkEdges, addEdges, addEdge, elem, setPolicy]

/-- strings 1 and 2 in the tuple 3 -/
def inTuple : Spec := ⟨[1, 2, 3], fun x => if x = 3 then [(.rc, some 1), (.del, some 2)] else [], fun _ => 0⟩

def inTupleHeap : RHeap := ⟨fun x => x == 1 || x == 2 || x == 3, fun x => if x = 3 then [(.rc, some 1), (.del, some 2)] else [],
  fun x => if x = 1 then 1 else 0, fun x => x == 2⟩

theorem inTuple_rel : Rel inTuple inTupleHeap := by
  refine ⟨rfl, by simp [inTuple], by simp [inTuple, inTupleHeap, or_assoc], ?_, by simp [inTuple], ?_, ?_, ?_⟩
  · rintro y hy x ⟨p, _, hx⟩
    simp only [inTuple] at hx
    split at hx
    · simp only [List.mem_cons, List.not_mem_nil, or_false, Prod.mk.injEq, Option.some.injEq] at hx
      rcases hx with hx | hx <;> simp [inTuple, hx.2]
    · simp at hx
  all_goals
    intro x hx
    simp only [inTuple, List.mem_cons, List.not_mem_nil, or_false] at hx
    rcases hx with rfl | rfl | rfl <;> decide

example : Rel inTuple inTupleHeap ∧ 3 ∈ inTuple.D ∧ inTuple.Floating 3 ∧ inTuple.kids 3 = [(.rc, some 1), (.del, some 2)] ∧
    (inTuple.kids 3)[1]? = some (.del, some 2) ∧ inTupleHeap.live 3 = true :=
  ⟨inTuple_rel, by decide, ⟨by decide, by decide⟩, rfl, rfl, rfl⟩

end Verif.Rc.PolicyProps
