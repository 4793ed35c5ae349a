import Verif.Rc.Props

/-!
# Who owns the environments and variables of env.c, and the environment of a closure (C93)

The environments and closures of env.c and closure.c as blocks of the reference counting model.  A container of
the library counts the references it holds (`cee_incr_indegree`); an environment does not, but deletes what it
refers to as if it had counted.
-/

namespace Verif.Rc

/-- `cee_env_mk_e` (env.c:44-63): the two pointers are stored with their policies; no in-degree is changed -/
def envMkE (h : RHeap) (x : Nat) (dp0 dp1 : Policy) (outer vars : Ptr) : RHeap :=
  newBlock h x [(dp0, outer), (dp1, vars)]

/-- `cee_env_mk` (env.c:65-68).  The trace function (env.c:30-34) deletes the outer environment, then the
variables, then frees the block: `traceDel`. -/
def envMk (h : RHeap) (x : Nat) (outer vars : Ptr) : RHeap := envMkE h x .rc .rc outer vars

/-- `cee_closure_mk` (closure.c:35-48).  The trace function (closure.c:21-33) frees the closure only, so the
pointer to the environment is held without being deleted. -/
def closureMk (h : RHeap) (x : Nat) (env : Ptr) : RHeap := newBlock h x [(.noop, env)]

/-- `cee_closure_call` (closure.c:50-59): the environment that is passed to the function, `ub` when the closure
is gone.  (The function is the caller's.) -/
def closureEnv (h : RHeap) (c : Nat) : Res Ptr :=
  if h.live c then
    match h.kids c with
    | [e] => .ok e.2
    | _ => .ub
  else .ub

end Verif.Rc

namespace Verif.Rc.EnvProps

open Verif.Chain (upd)
open Verif.Rc.Props (empty)

/-- a block whose pointers are all NULL or not to be deleted, such as an empty map -/
def Leaf (h : RHeap) (a : Nat) : Prop := ∀ e ∈ h.kids a, e.1 = .noop ∨ e.2 = none

/-- a block that no counted reference keeps alive beyond the next deletion -/
def Loose (h : RHeap) (a : Nat) : Prop := h.live a = true ∧ h.ret a = false ∧ h.deg a ≤ 1

theorem delLoop_harmless (tr : RHeap → Nat → Res (Option RHeap)) (a : Nat) (h : RHeap) (hl : h.live a = true)
    (es : List Edge) (he : ∀ e ∈ es, e.1 = .noop ∨ e.2 = none) : delLoop tr a h es = .ok (some h) := by
  induction es with
  | nil => rfl
  | cons e es ih =>
    have h1 : delE tr h e = .ok (some h) := by
      obtain ⟨p, q⟩ := e
      rcases he (p, q) (by simp) with h | h
      · simp only at h; subst h; rfl
      · simp only at h; subst h; cases p <;> rfl
    rw [delLoop, if_pos hl, h1]
    exact ih fun e h => he e (by simp [h])

theorem traceDel_leaf (fuel : Nat) (h : RHeap) (a : Nat) (hl : h.live a = true) (hk : Leaf h a) :
    traceDel (fuel + 1) h a = .ok (some { h with live := upd h.live a false }) := by
  rw [traceDel, delLoop_harmless _ _ _ hl _ hk]
  simp [freeBlock, hl]

/-- what `cee_del_ref` does first with a loose block -/
def dropDeg (h : RHeap) (a : Nat) : RHeap :=
  if h.deg a ≠ 0 then { h with deg := upd h.deg a (h.deg a - 1) } else h

theorem dropDeg_facts (h : RHeap) (a : Nat) (hd : h.deg a ≤ 1) :
    (dropDeg h a).live = h.live ∧ (dropDeg h a).kids = h.kids ∧ (dropDeg h a).ret = h.ret ∧
    (dropDeg h a).deg a = 0 ∧ (∀ z, z ≠ a → (dropDeg h a).deg z = h.deg z) := by
  unfold dropDeg
  split
  · refine ⟨rfl, rfl, rfl, ?_, ?_⟩
    · simp [upd]; omega
    · intro z hz; simp [upd, hz]
  · exact ⟨rfl, rfl, rfl, by omega, fun _ _ => rfl⟩

theorem delRefWith_loose (tr : RHeap → Nat → Res (Option RHeap)) (h : RHeap) (a : Nat) (hl : Loose h a) :
    delRefWith tr h (some a) = tr (dropDeg h a) a := by
  obtain ⟨h1, h2, h3⟩ := hl
  obtain ⟨-, -, e1, e2, -⟩ := dropDeg_facts h a h3
  have e : delRefWith tr h (some a) = if (dropDeg h a).ret a then .ok (some (dropDeg h a))
      else if (dropDeg h a).deg a = 0 then tr (dropDeg h a) a else .ok (some (dropDeg h a)) := by
    rw [delRefWith, if_pos h1]; rfl
  rw [e, if_neg (by rw [e1, h2]; simp), if_pos e2]

/-! ## the claim fails for a shared outer environment -/

/-- **C93 is false**: two environments made over the same outer environment `o` (with or without variables of
their own; the outer one is any loose leaf, such as one just made by `cee_env_mk (st, NULL, NULL)`).  Deleting the
first frees `o`, to which the second still points, and deleting the second is undefined behaviour. -/
theorem C93_shared_outer_false (h : RHeap) (o x y fuel : Nat) (ho : Loose h o) (hk : Leaf h o) (hx : h.live x = false)
    (hy : h.live y = false) (hxy : x ≠ y) :
    ∃ h', delRef (fuel + 2) (envMk (envMk h x (some o) none) y (some o) none) (some x) = .ok (some h') ∧
      h'.live o = false ∧ h'.live y = true ∧ h'.kids y = [(.rc, some o), (.rc, none)] ∧
      delRef (fuel + 2) h' (some y) = .ub := by
  have hxo : x ≠ o := by rintro rfl; rw [ho.1] at hx; cases hx
  have hyo : y ≠ o := by rintro rfl; rw [ho.1] at hy; cases hy
  generalize hH : envMk (envMk h x (some o) none) y (some o) none = H
  have Hx : Loose H x := by
    subst hH; refine ⟨?_, ?_, ?_⟩ <;> simp [envMk, envMkE, newBlock, upd, hxy]
  have Ho : Loose H o := by
    obtain ⟨a, b, c⟩ := ho
    subst hH; refine ⟨?_, ?_, ?_⟩ <;> simp [envMk, envMkE, newBlock, upd, hxo.symm, hyo.symm, a, b, c]
  have Kx : H.kids x = [(.rc, some o), (.rc, none)] := by
    subst hH; simp [envMk, envMkE, newBlock, upd, hxy]
  have Ky : H.kids y = [(.rc, some o), (.rc, none)] := by
    subst hH; simp [envMk, envMkE, newBlock, upd]
  have Ko : Leaf H o := by
    subst hH
    simpa [Leaf, envMk, envMkE, newBlock, upd, hxo.symm, hyo.symm] using hk
  have Ly : H.live y = true ∧ H.ret y = false ∧ H.deg y = 0 := by
    subst hH; simp [envMk, envMkE, newBlock, upd]
  clear hH
  obtain ⟨a1, a2, a3, a4, a5⟩ := dropDeg_facts H x Hx.2.2
  generalize hG : dropDeg H x = G at *
  have Go : Loose G o := ⟨by rw [a1]; exact Ho.1, by rw [a3]; exact Ho.2.1, by rw [a5 o hxo.symm]; exact Ho.2.2⟩
  obtain ⟨b1, b2, b3, b4, b5⟩ := dropDeg_facts G o Go.2.2
  generalize hG2 : dropDeg G o = G2 at *
  have e : delRef (fuel + 2) H (some x) =
      .ok (some { G2 with live := upd (upd G2.live o false) x false }) := by
    rw [delRef, delRefWith_loose _ _ _ Hx, hG, traceDel, a2, Kx, delLoop, if_pos (by rw [a1]; exact Hx.1), delE,
      delRefWith_loose _ _ _ Go, hG2, traceDel_leaf _ _ _ (by rw [b1]; exact Go.1)
        (by unfold Leaf; rw [b2, a2]; exact Ko)]
    have l : upd G2.live o false x = true := by simp [upd, hxo, b1, a1, Hx.1]
    dsimp only
    rw [delLoop_harmless _ _ _ (by exact l) _ (by simp)]
    simp [freeBlock, l]
  refine ⟨_, e, ?_, ?_, ?_, ?_⟩
  · simp [upd, hxo.symm]
  · simp [upd, hxy.symm, hyo, b1, a1, Ly.1]
  · simp [b2, a2, Ky]
  · have Ly' : Loose { G2 with live := upd (upd G2.live o false) x false } y := by
      refine ⟨?_, ?_, ?_⟩
      · simp [upd, hxy.symm, hyo, b1, a1, Ly.1]
      · simp [b3, a3, Ly.2.1]
      · show G2.deg y ≤ 1
        rw [b5 y hyo, a5 y hxy.symm, Ly.2.2]; omega
    rw [delRef, delRefWith_loose _ _ _ Ly']
    obtain ⟨c1, c2, -, -, -⟩ := dropDeg_facts { G2 with live := upd (upd G2.live o false) x false } y Ly'.2.2
    generalize dropDeg { G2 with live := upd (upd G2.live o false) x false } y = G3 at *
    rw [traceDel, c2]
    simp only [b2, a2, Ky]
    rw [delLoop, if_pos (by rw [c1]; exact Ly'.1), delE, delRefWith]
    have : G3.live o = false := by rw [c1]; simp [upd, hxo.symm]
    simp [this]

/-- the hypotheses are met right after making an environment without outer one -/
example (h : RHeap) (o x y : Nat) (hx : h.live x = false) (hy : h.live y = false) (h1 : x ≠ y) (h2 : x ≠ o)
    (h3 : y ≠ o) : Loose (envMk h o none none) o ∧ Leaf (envMk h o none none) o ∧
    (envMk h o none none).live x = false ∧ (envMk h o none none).live y = false := by
  refine ⟨⟨?_, ?_, ?_⟩, ?_, ?_, ?_⟩ <;> simp [Leaf, envMk, envMkE, newBlock, upd, h2, h3, hx, hy]

/-! ## the part that holds: environments that are not shared -/

/-- the innermost environment of a chain, given as the list of environments, innermost first, with their
variables -/
def top : List (Nat × Ptr) → Ptr
  | [] => none
  | (x, _) :: _ => some x

/-- making a chain of environments, the outermost first -/
def mkChain (h : RHeap) : List (Nat × Ptr) → RHeap
  | [] => h
  | (x, v) :: l => envMk (mkChain h l) x (top l) v

/-- the environments of a chain -/
def envs (l : List (Nat × Ptr)) : List Nat := l.map (·.1)

/-- the variables of a chain -/
def vars (l : List (Nat × Ptr)) : List Nat := l.flatMap (·.2.toList)

/-- a chain of environments as it lies in memory -/
def Laid (h : RHeap) : List (Nat × Ptr) → Prop
  | [] => True
  | (x, v) :: l => Loose h x ∧ h.kids x = [(.rc, top l), (.rc, v)] ∧ (∀ w, v = some w → Loose h w ∧ Leaf h w) ∧ Laid h l

theorem Laid.frame {h h' : RHeap} (hk : h'.kids = h.kids) : ∀ {l : List (Nat × Ptr)}, Laid h l →
    (∀ z, z ∈ envs l ∨ z ∈ vars l → Loose h z → Loose h' z) → Laid h' l
  | [], _, _ => trivial
  | (x, v) :: l, ⟨a, b, c, d⟩, hl => by
    refine ⟨hl x (by simp [envs]) a, by rw [hk]; exact b, ?_, ?_⟩
    · intro w hw
      refine ⟨hl w (by simp [vars, hw]) (c w hw).1, ?_⟩
      unfold Leaf; rw [hk]; exact (c w hw).2
    · apply Laid.frame hk d
      intro z hz
      apply hl
      rcases hz with hz | hz
      · left; simp [envs] at hz ⊢; exact .inr hz
      · right; simp [vars] at hz ⊢; exact .inr hz

/-- deleting the innermost environment of a chain frees the environments and variables of the chain -/
theorem traceDel_chain (l : List (Nat × Ptr)) : ∀ (x : Nat) (v : Ptr) (h : RHeap) (fuel : Nat),
    Laid h ((x, v) :: l) → (envs ((x, v) :: l) ++ vars ((x, v) :: l)).Nodup → l.length + 2 ≤ fuel →
    ∃ h', traceDel fuel h x = .ok (some h') ∧ h'.kids = h.kids ∧ h'.ret = h.ret ∧
      (∀ z, h'.live z = true ↔ h.live z = true ∧ z ∉ envs ((x, v) :: l) ∧ z ∉ vars ((x, v) :: l)) ∧
      (∀ z, z ∉ envs l → z ∉ vars ((x, v) :: l) → h'.deg z = h.deg z) := by
  induction l with
  | nil =>
    intro x v h fuel hl hn hf
    obtain ⟨f, rfl⟩ : ∃ f, fuel = f + 2 := ⟨fuel - 2, by simp at hf; omega⟩
    obtain ⟨a, b, c, -⟩ := hl
    cases v with
    | none =>
      refine ⟨{ h with live := upd h.live x false }, ?_, rfl, rfl, ?_, fun _ _ _ => rfl⟩
      · exact traceDel_leaf (f + 1) h x a.1 (by unfold Leaf; rw [b]; simp [top])
      · intro z; by_cases hz : z = x <;> simp [upd, envs, vars, hz]
    | some w =>
      obtain ⟨hw, kw⟩ := c w rfl
      have hne : x ≠ w := by simp [envs, vars] at hn; exact hn
      obtain ⟨c1, c2, c3, c4, c5⟩ := dropDeg_facts h w hw.2.2
      refine ⟨{ dropDeg h w with live := upd (upd h.live w false) x false }, ?_, c2, c3, ?_, ?_⟩
      · rw [traceDel, b, delLoop, if_pos a.1]
        simp only [top, delE, delRefWith]
        rw [delLoop, if_pos a.1, delE, delRefWith_loose _ _ _ hw, traceDel_leaf _ _ _ (by rw [c1]; exact hw.1)
          (by unfold Leaf; rw [c2]; exact kw)]
        simp [delLoop, freeBlock, upd, hne, c1, a.1]
      · intro z
        by_cases hz : z = x <;> by_cases hw : z = w <;> simp [upd, envs, vars, hz, hw]
      · intro z _ hz
        exact c5 z (by simpa [vars] using hz)
  | cons e l ih =>
    obtain ⟨x', v'⟩ := e
    intro x v h fuel hl hn hf
    obtain ⟨f, rfl⟩ : ∃ f, fuel = f + 1 := ⟨fuel - 1, by omega⟩
    obtain ⟨a, b, c, d⟩ := hl
    have hx' : Loose h x' := d.1
    have hxe : x ∉ envs ((x', v') :: l) := by
      intro hm
      exact (List.nodup_cons.1 hn).1 (List.mem_append_left _ hm)
    have hxv : x ∉ vars ((x, v) :: (x', v') :: l) := by
      intro hm
      exact (List.nodup_cons.1 hn).1 (List.mem_append_right _ hm)
    have hve : vars ((x, v) :: (x', v') :: l) = v.toList ++ vars ((x', v') :: l) := rfl
    have hn' : (envs ((x', v') :: l) ++ vars ((x', v') :: l)).Nodup := by
      rw [List.nodup_append] at hn ⊢
      obtain ⟨n1, n2, n3⟩ := hn
      rw [hve, List.nodup_append] at n2
      exact ⟨(List.nodup_cons.1 n1).2, n2.2.1, fun z hz w hw => n3 z (by simp [envs] at hz ⊢; exact .inr hz) w
        (by rw [hve]; simp [hw])⟩
    obtain ⟨c1, c2, c3, c4, c5⟩ := dropDeg_facts h x' hx'.2.2
    obtain ⟨h2, e2, k2, r2, l2, g2⟩ := ih x' v' (dropDeg h x') f (by
      apply d.frame c2
      rintro z - ⟨p1, p2, p3⟩
      refine ⟨by rw [c1]; exact p1, by rw [c3]; exact p2, ?_⟩
      by_cases hz : z = x'
      · subst hz; omega
      · rw [c5 z hz]; exact p3) hn' (by simp at hf; omega)
    have lx2 : h2.live x = true := by
      rw [l2, c1]
      refine ⟨a.1, hxe, ?_⟩
      intro hm; exact hxv (by rw [hve]; simp [hm])
    have step1 : delLoop (traceDel f) x h (h.kids x) = delLoop (traceDel f) x h2 [(.rc, v)] := by
      rw [b, delLoop, if_pos a.1]
      show (match delRefWith (traceDel f) h (some x') with
        | .ok (some h') => delLoop (traceDel f) x h' [(.rc, v)]
        | r => r) = _
      rw [delRefWith_loose _ _ _ hx', e2]
    have out1 : ∀ z, z ∉ envs ((x', v') :: l) → z ∉ vars ((x', v') :: l) → h2.deg z = h.deg z := by
      intro z h1 h3
      rw [g2 z (by intro hm; exact h1 (by simp [envs] at hm ⊢; exact .inr hm)) h3, c5 z (by
        rintro rfl; exact h1 (by simp [envs]))]
    cases v with
    | none =>
      refine ⟨{ h2 with live := upd h2.live x false }, ?_, by rw [k2, c2], by rw [r2, c3], ?_, ?_⟩
      · rw [traceDel, step1, delLoop_harmless _ _ _ lx2 _ (by simp)]
        simp [freeBlock, lx2]
      · intro z
        by_cases hz : z = x
        · subst hz; simp [upd, envs]
        · simp only [upd, if_neg hz]
          rw [l2, c1]
          simp [envs, vars, hz]
      · intro z h1 h3
        exact out1 z h1 (by rw [hve] at h3; simpa using h3)
    | some w =>
      obtain ⟨hw, kw⟩ := c w rfl
      have hwe : w ∉ envs ((x', v') :: l) := by
        rw [List.nodup_append] at hn
        intro hm
        exact hn.2.2 w (by simp only [envs, List.map_cons, List.mem_cons] at hm ⊢; exact .inr hm) w (by rw [hve]; simp) rfl
      have hwv : w ∉ vars ((x', v') :: l) := by
        rw [List.nodup_append] at hn
        have := hn.2.1
        rw [hve] at this
        simp only [Option.toList_some, List.cons_append, List.nil_append, List.nodup_cons] at this
        exact this.1
      have hne : x ≠ w := by rintro rfl; exact hxv (by rw [hve]; simp)
      have hw2 : Loose h2 w := ⟨by rw [l2, c1]; exact ⟨hw.1, hwe, hwv⟩, by rw [r2, c3]; exact hw.2.1, by
        rw [out1 w hwe hwv]; exact hw.2.2⟩
      obtain ⟨m1, m2, m3, m4, m5⟩ := dropDeg_facts h2 w hw2.2.2
      refine ⟨{ dropDeg h2 w with live := upd (upd h2.live w false) x false }, ?_, by rw [m2, k2, c2], by rw [m3, r2, c3], ?_, ?_⟩
      · obtain ⟨f', rfl⟩ : ∃ f', f = f' + 1 := ⟨f - 1, by simp at hf; omega⟩
        rw [traceDel, step1, delLoop, if_pos lx2, delE, delRefWith_loose _ _ _ hw2, traceDel_leaf _ _ _ (by rw [m1]; exact hw2.1)
          (by unfold Leaf; rw [m2, k2, c2]; exact kw)]
        simp [delLoop, freeBlock, upd, hne, m1, lx2]
      · intro z
        by_cases hz : z = x
        · subst hz; simp [upd, envs]
        · by_cases hzw : z = w
          · subst hzw; simp [upd, hz, hve]
          · simp only [upd, if_neg hz, if_neg hzw]
            rw [l2, c1]
            simp [envs, vars, hz, hzw]
      · intro z h1 h3
        rw [hve] at h3
        simp only [Option.toList_some, List.cons_append, List.nil_append, List.mem_cons, not_or] at h3
        show (dropDeg h2 w).deg z = _
        rw [m5 z h3.1, out1 z h1 h3.2]

theorem mkChain_spec (h : RHeap) : ∀ l : List (Nat × Ptr), (envs l ++ vars l).Nodup → (∀ x ∈ envs l, h.live x = false) →
    (∀ w ∈ vars l, Loose h w ∧ Leaf h w) →
    Laid (mkChain h l) l ∧ (∀ z, z ∉ envs l → (mkChain h l).live z = h.live z ∧ (mkChain h l).kids z = h.kids z ∧
      (mkChain h l).deg z = h.deg z ∧ (mkChain h l).ret z = h.ret z)
  | [], _, _, _ => ⟨trivial, fun _ _ => ⟨rfl, rfl, rfl, rfl⟩⟩
  | (x, v) :: l, hn, hx, hv => by
    have hve : vars ((x, v) :: l) = v.toList ++ vars l := rfl
    have hen : envs ((x, v) :: l) = x :: envs l := rfl
    rw [hve, hen] at hn
    rw [hve] at hv
    rw [hen] at hx
    simp only [List.cons_append, List.nodup_cons, List.mem_append, not_or] at hn
    obtain ⟨⟨n1, n2, n3⟩, n4⟩ := hn
    rw [List.nodup_append] at n4
    obtain ⟨i1, i2⟩ := mkChain_spec h l (by
        rw [List.nodup_append]
        exact ⟨n4.1, (List.nodup_append.1 n4.2.1).2.1, fun a ha b hb => n4.2.2 a ha b (by simp [hb])⟩)
      (fun y hy => hx y (by simp [hy])) (fun w hw => hv w (by simp [hw]))
    have fr : ∀ z, z ≠ x → (mkChain h ((x, v) :: l)).live z = (mkChain h l).live z ∧
        (mkChain h ((x, v) :: l)).kids z = (mkChain h l).kids z ∧
        (mkChain h ((x, v) :: l)).deg z = (mkChain h l).deg z ∧ (mkChain h ((x, v) :: l)).ret z = (mkChain h l).ret z := by
      intro z hz
      simp [mkChain, envMk, envMkE, newBlock, upd, hz]
    have laid : ∀ l' : List (Nat × Ptr), x ∉ envs l' → x ∉ vars l' → Laid (mkChain h l) l' → Laid (mkChain h ((x, v) :: l)) l' := by
      intro l'
      induction l' with
      | nil => intros; trivial
      | cons e l' ih =>
        rintro h1 h2 ⟨a, b, c, d⟩
        obtain ⟨y, u⟩ := e
        simp only [envs, List.map_cons, List.mem_cons, not_or] at h1
        have hv2 : x ∉ u.toList ∧ x ∉ vars l' := by
          simpa [vars] using h2
        have Lz : ∀ z, z ≠ x → Loose (mkChain h l) z → Loose (mkChain h ((x, v) :: l)) z := by
          rintro z hz ⟨p, q, r⟩
          obtain ⟨f1, f2, f3, f4⟩ := fr z hz
          exact ⟨by rw [f1]; exact p, by rw [f4]; exact q, by rw [f3]; exact r⟩
        refine ⟨Lz y (Ne.symm h1.1) a, by rw [(fr y (Ne.symm h1.1)).2.1]; exact b, ?_, ih h1.2 hv2.2 d⟩
        intro w hw
        have hwx : w ≠ x := by rintro rfl; exact hv2.1 (by simp [hw])
        refine ⟨Lz w hwx (c w hw).1, ?_⟩
        unfold Leaf; rw [(fr w hwx).2.1]; exact (c w hw).2
    refine ⟨⟨?_, ?_, ?_, laid l n1 n3 i1⟩, ?_⟩
    · refine ⟨?_, ?_, ?_⟩ <;> simp [mkChain, envMk, envMkE, newBlock, upd]
    · simp [mkChain, envMk, envMkE, newBlock, upd]
    · intro w hw
      subst hw
      have hwx : w ≠ x := by rintro rfl; exact n2 (by simp)
      have hwe : w ∉ envs l := fun hm => n4.2.2 w hm w (by simp) rfl
      obtain ⟨⟨p, q, r⟩, s⟩ := hv w (by simp)
      obtain ⟨f1, f2, f3, f4⟩ := fr w hwx
      obtain ⟨g1, g2, g3, g4⟩ := i2 w hwe
      refine ⟨⟨by rw [f1, g1]; exact p, by rw [f4, g4]; exact q, by rw [f3, g3]; exact r⟩, ?_⟩
      unfold Leaf; rw [f2, g2]; exact s
    · intro z hz
      rw [hen] at hz
      simp only [List.mem_cons, not_or] at hz
      obtain ⟨f1, f2, f3, f4⟩ := fr z hz.1
      obtain ⟨g1, g2, g3, g4⟩ := i2 z hz.2
      exact ⟨by rw [f1, g1], by rw [f2, g2], by rw [f3, g3], by rw [f4, g4]⟩

/-- **C93** (the part that holds): a chain of environments, of any length, each with or without variables, where
no environment and no variables are shared: deleting the innermost one (with `cee_del_ref` or `cee_del`) frees
exactly the environments and the variables of the chain, and nothing else is changed. -/
theorem C93_partial (h : RHeap) (x : Nat) (v : Ptr) (l : List (Nat × Ptr)) (fuel : Nat)
    (hn : (envs ((x, v) :: l) ++ vars ((x, v) :: l)).Nodup) (hx : ∀ y ∈ envs ((x, v) :: l), h.live y = false)
    (hv : ∀ w ∈ vars ((x, v) :: l), Loose h w ∧ Leaf h w) (hf : l.length + 2 ≤ fuel) :
    ∃ h', delRef fuel (mkChain h ((x, v) :: l)) (some x) = .ok (some h') ∧
      del fuel (mkChain h ((x, v) :: l)) (some x) = .ok (some h') ∧
      (∀ z, h'.live z = true ↔ h.live z = true ∧ z ∉ vars ((x, v) :: l)) ∧
      (∀ z, h'.live z = true → h'.deg z = h.deg z ∧ h'.ret z = h.ret z ∧ h'.kids z = h.kids z) := by
  obtain ⟨i1, i2⟩ := mkChain_spec h _ hn hx hv
  obtain ⟨h', e, k, r, li, g⟩ := traceDel_chain l x v _ fuel i1 hn hf
  have d0 : (mkChain h ((x, v) :: l)).deg x = 0 := by simp [mkChain, envMk, envMkE, newBlock, upd]
  have live : ∀ z, h'.live z = true ↔ h.live z = true ∧ z ∉ vars ((x, v) :: l) := by
    intro z
    rw [li]
    constructor
    · rintro ⟨a, b, c⟩
      exact ⟨by rw [← (i2 z b).1]; exact a, c⟩
    · rintro ⟨a, b⟩
      have hz : z ∉ envs ((x, v) :: l) := by intro hm; rw [hx z hm] at a; cases a
      exact ⟨by rw [(i2 z hz).1]; exact a, hz, b⟩
  refine ⟨h', ?_, ?_, live, ?_⟩
  · rw [delRef, delRefWith_loose _ _ _ i1.1, dropDeg, if_neg (by simp [d0])]
    exact e
  · rw [del, delWith, if_pos i1.1.1]
    exact e
  · intro z hz
    obtain ⟨a, b, c⟩ := (li z).1 hz
    obtain ⟨g1, g2, g3, g4⟩ := i2 z b
    exact ⟨by rw [g z (fun hm => b (by simp [envs] at hm ⊢; exact .inr hm)) c, g3], by rw [r, g4], by rw [k, g2]⟩

/-- two nested environments with a map each meet the hypotheses -/
example : ∃ h : RHeap, (envs [(3, some 1), (4, some 2)] ++ vars [(3, some 1), (4, some 2)]).Nodup ∧
    (∀ y ∈ envs [(3, some 1), (4, some 2)], h.live y = false) ∧
    (∀ w ∈ vars [(3, some 1), (4, some 2)], Loose h w ∧ Leaf h w) := by
  refine ⟨newBlock (newBlock empty 1 []) 2 [], by decide, ?_, ?_⟩
  · intro y hy
    simp [envs] at hy
    rcases hy with rfl | rfl <;> simp [newBlock, upd, empty]
  · intro w hw
    simp [vars] at hw
    rcases hw with rfl | rfl <;> simp [Loose, Leaf, newBlock, upd]

/-- **C93 is false**: when the outer environment is deleted before the inner one (nothing prevents it, as the
inner one does not count), deleting the inner one is undefined behaviour. -/
theorem C93_outer_first_false (h : RHeap) (o x fuel : Nat) (ho : Loose h o) (hk : Leaf h o) (hx : h.live x = false) :
    ∃ h', delRef (fuel + 1) (envMk h x (some o) none) (some o) = .ok (some h') ∧ h'.live x = true ∧
      delRef (fuel + 1) h' (some x) = .ub := by
  have hxo : x ≠ o := by rintro rfl; rw [ho.1] at hx; cases hx
  generalize hH : envMk h x (some o) none = H
  have Lo : Loose H o := by
    obtain ⟨a, b, c⟩ := ho
    subst hH; refine ⟨?_, ?_, ?_⟩ <;> simp [envMk, envMkE, newBlock, upd, hxo.symm, a, b, c]
  have Ko : Leaf H o := by
    subst hH; simpa [Leaf, envMk, envMkE, newBlock, upd, hxo.symm] using hk
  have Lx : Loose H x := by
    subst hH; refine ⟨?_, ?_, ?_⟩ <;> simp [envMk, envMkE, newBlock, upd]
  have Kx : H.kids x = [(.rc, some o), (.rc, none)] := by subst hH; simp [envMk, envMkE, newBlock, upd]
  clear hH
  obtain ⟨a1, a2, a3, a4, a5⟩ := dropDeg_facts H o Lo.2.2
  have e : delRef (fuel + 1) H (some o) = .ok (some { dropDeg H o with live := upd (dropDeg H o).live o false }) := by
    rw [delRef, delRefWith_loose _ _ _ Lo, traceDel_leaf _ _ _ (by rw [a1]; exact Lo.1)]
    unfold Leaf; rw [a2]; exact Ko
  have Lx' : Loose { dropDeg H o with live := upd (dropDeg H o).live o false } x := by
    refine ⟨?_, ?_, ?_⟩
    · simp [upd, hxo, a1, Lx.1]
    · simp [a3, Lx.2.1]
    · show (dropDeg H o).deg x ≤ 1
      rw [a5 x hxo]; exact Lx.2.2
  refine ⟨_, e, Lx'.1, ?_⟩
  have ko : ({ dropDeg H o with live := upd (dropDeg H o).live o false } : RHeap).kids x = [(.rc, some o), (.rc, none)] := by
    show (dropDeg H o).kids x = _
    rw [a2, Kx]
  have lo : ({ dropDeg H o with live := upd (dropDeg H o).live o false } : RHeap).live o = false := by simp [upd]
  generalize ({ dropDeg H o with live := upd (dropDeg H o).live o false } : RHeap) = G at *
  rw [delRef, delRefWith_loose _ _ _ Lx']
  obtain ⟨c1, c2, -, -, -⟩ := dropDeg_facts _ x Lx'.2.2
  rw [traceDel, c2, ko, delLoop, if_pos (by rw [c1]; exact Lx'.1), delE, delRefWith, if_neg (by rw [c1, lo]; simp)]

example : ∃ h : RHeap, Loose h 1 ∧ Leaf h 1 ∧ h.live 2 = false :=
  ⟨newBlock empty 1 [], by simp [Loose, newBlock, upd], by simp [Leaf, newBlock, upd], by simp [newBlock, upd, empty]⟩

/-! ## closures -/

/-- **C93**: deleting a closure, however its environment is used, frees the closure and nothing else; and as
long as it lives it passes on the environment it was made with. -/
theorem C93_closure (h : RHeap) (c : Nat) (env : Ptr) (fuel : Nat) (hc : h.live c = false) :
    closureEnv (closureMk h c env) c = .ok env ∧
    ∃ h', delRef (fuel + 1) (closureMk h c env) (some c) = .ok (some h') ∧ h'.live = h.live ∧
      (∀ z, z ≠ c → h'.deg z = h.deg z ∧ h'.ret z = h.ret z ∧ h'.kids z = h.kids z) := by
  have Lc : Loose (closureMk h c env) c := by refine ⟨?_, ?_, ?_⟩ <;> simp [closureMk, newBlock, upd]
  refine ⟨by simp [closureEnv, closureMk, newBlock, upd], ?_⟩
  have K : Leaf (closureMk h c env) c := by simp [Leaf, closureMk, newBlock, upd]
  have F : ∀ z, z ≠ c → (closureMk h c env).live z = h.live z ∧ (closureMk h c env).deg z = h.deg z ∧
      (closureMk h c env).ret z = h.ret z ∧ (closureMk h c env).kids z = h.kids z := by
    intro z hz; simp [closureMk, newBlock, upd, hz]
  generalize closureMk h c env = H at *
  obtain ⟨a1, a2, a3, a4, a5⟩ := dropDeg_facts _ c Lc.2.2
  refine ⟨{ dropDeg H c with live := upd (dropDeg H c).live c false }, ?_, ?_, ?_⟩
  · rw [delRef, delRefWith_loose _ _ _ Lc, traceDel_leaf _ _ _ (by rw [a1]; exact Lc.1)]
    unfold Leaf; rw [a2]; exact K
  · funext z
    by_cases hz : z = c
    · subst hz; simp [upd, hc]
    · simp [upd, hz, a1, (F z hz).1]
  · intro z hz
    obtain ⟨-, f1, f2, f3⟩ := F z hz
    exact ⟨(a5 z hz).trans f1, (congrFun a3 z).trans f2, (congrFun a2 z).trans f3⟩

example : ∃ h : RHeap, h.live 1 = true ∧ h.live 2 = false :=
  ⟨newBlock empty 1 [], by simp [newBlock, upd], by simp [newBlock, upd, empty]⟩

/-- **C93 is false**: a closure does not keep its environment: after the environment is deleted, the closure
still passes the pointer on. -/
theorem C93_closure_false (h : RHeap) (c o fuel : Nat) (ho : Loose h o) (hk : Leaf h o) (hc : h.live c = false) :
    ∃ h', delRef (fuel + 1) (closureMk h c (some o)) (some o) = .ok (some h') ∧
      closureEnv h' c = .ok (some o) ∧ h'.live o = false := by
  have hco : c ≠ o := by rintro rfl; rw [ho.1] at hc; cases hc
  have Lo : Loose (closureMk h c (some o)) o := by
    obtain ⟨a, b, c⟩ := ho
    refine ⟨?_, ?_, ?_⟩ <;> simp [closureMk, newBlock, upd, hco.symm, a, b, c]
  have Ko : Leaf (closureMk h c (some o)) o := by
    simpa [Leaf, closureMk, newBlock, upd, hco.symm] using hk
  have Kc : (closureMk h c (some o)).live c = true ∧ (closureMk h c (some o)).kids c = [(.noop, some o)] := by
    simp [closureMk, newBlock, upd]
  generalize closureMk h c (some o) = H at *
  obtain ⟨a1, a2, a3, a4, a5⟩ := dropDeg_facts _ o Lo.2.2
  refine ⟨{ dropDeg H o with live := upd (dropDeg H o).live o false }, ?_, ?_, ?_⟩
  · rw [delRef, delRefWith_loose _ _ _ Lo, traceDel_leaf _ _ _ (by rw [a1]; exact Lo.1)]
    unfold Leaf; rw [a2]; exact Ko
  · simp [closureEnv, upd, hco, a1, a2, Kc.1, Kc.2]
  · simp [upd]

example : ∃ h : RHeap, Loose h 1 ∧ Leaf h 1 ∧ h.live 2 = false :=
  ⟨newBlock empty 1 [], by simp [Loose, newBlock, upd], by simp [Leaf, newBlock, upd], by simp [newBlock, upd, empty]⟩

end Verif.Rc.EnvProps
