import Verif.Rc.PrintRc

/-!
# Memory with the blocks of the printer (definitions and lemmas for C131)
-/

namespace Verif.Rc.PrintProps
open Verif.Chain (upd)
open Verif.Json (Byte Atom Out Libc Val)

/-- the allocator gives an address that is not in use, if finitely many are -/
def AlFree (Q : QEnv) : Prop := ∀ n (live : Nat → Bool) (D : List Nat), (∀ x, live x = true → x ∈ D) → live (Q.al n live) = false

/-- memory is `H0` with the further blocks `T`, given with what they hold, and a further reference to each of `ks` -/
structure Over (H0 H : JHeap) (T : List (Nat × List Edge)) (ks : List Nat) : Prop where
  nodup : (T.map Prod.fst).Nodup
  fresh : ∀ p ∈ T, H0.m.h.live p.1 = false
  live : ∀ y, H.m.h.live y = true ↔ H0.m.h.live y = true ∨ y ∈ T.map Prod.fst
  held : ∀ p ∈ T, H.m.h.kids p.1 = p.2
  kids : ∀ y, H0.m.h.live y = true → H.m.h.kids y = H0.m.h.kids y
  deg : ∀ y, H0.m.h.live y = true → H.m.h.deg y = H0.m.h.deg y + ks.count y
  ret : ∀ y, H0.m.h.live y = true → H.m.h.ret y = H0.m.h.ret y
  tag : ∀ y, H0.m.h.live y = true → H.tag y = H0.tag y
  maps : H.m.maps = H0.m.maps
  single : H.single = H0.single
  other : H.m.other = H0.m.other

/-- what is needed of the memory in which a value is printed: finitely many blocks, with the static ones -/
structure Sane (H0 : JHeap) : Prop where
  finite : ∃ D : List Nat, ∀ x, H0.m.h.live x = true → x ∈ D
  static : ∀ x, H0.single x = true → H0.m.h.live x = true

/-- a key that can be counted by the printer -/
structure KeyOk (H0 : JHeap) (k : Nat) : Prop where
  live : H0.m.h.live k = true
  ret : H0.m.h.ret k = false
  pos : 0 < H0.m.h.deg k

section
variable {H0 H : JHeap} {T T' : List (Nat × List Edge)} {ks ks' : List Nat} {Q : QEnv}

theorem over_refl (H : JHeap) : Over H H [] [] :=
  ⟨List.nodup_nil, by simp, by simp, by simp, fun _ _ => rfl, by simp, fun _ _ => rfl, fun _ _ => rfl, rfl, rfl, rfl⟩

theorem Over.perm (o : Over H0 H T ks) (hT : T.Perm T') (hk : ks.Perm ks') : Over H0 H T' ks' where
  nodup := (hT.map Prod.fst).nodup_iff.1 o.nodup
  fresh := fun p hp => o.fresh p (hT.mem_iff.2 hp)
  live := fun y => by rw [o.live y, (hT.map Prod.fst).mem_iff]
  held := fun p hp => o.held p (hT.mem_iff.2 hp)
  kids := o.kids
  deg := fun y hy => by rw [o.deg y hy, hk.count_eq]
  ret := o.ret
  tag := o.tag
  maps := o.maps
  single := o.single
  other := o.other

theorem Over.finite (o : Over H0 H T ks) (s : Sane H0) : ∃ D : List Nat, ∀ x, H.m.h.live x = true → x ∈ D := by
  obtain ⟨D, hD⟩ := s.finite
  refine ⟨D ++ T.map Prod.fst, fun x hx => ?_⟩
  rcases (o.live x).1 hx with h | h
  · exact List.mem_append_left _ (hD x h)
  · exact List.mem_append_right _ h

theorem Over.new (o : Over H0 H T ks) (s : Sane H0) (al : AlFree Q) (n : Nat) : H.m.h.live (Q.al n H.m.h.live) = false := by
  obtain ⟨D, hD⟩ := o.finite s
  exact al n _ D hD

theorem Over.not_live (o : Over H0 H T ks) {x : Nat} (hx : H.m.h.live x = false) : H0.m.h.live x = false ∧ x ∉ T.map Prod.fst := by
  have h : ¬ (H0.m.h.live x = true ∨ x ∈ T.map Prod.fst) := fun h => by rw [(o.live x).2 h] at hx; cases hx
  rw [not_or] at h
  exact ⟨by simpa using h.1, h.2⟩

/-- a new block -/
theorem Over.block (o : Over H0 H T ks) {x : Nat} (hx : H.m.h.live x = false) (es : List Edge) :
    Over H0 { H with m := { H.m with h := newBlock H.m.h x es }, tag := upd H.tag x none } ((x, es) :: T) ks := by
  obtain ⟨h0, hT⟩ := o.not_live hx
  have ne : ∀ y, H0.m.h.live y = true → y ≠ x := by rintro y hy rfl; rw [h0] at hy; cases hy
  have neT : ∀ p ∈ T, p.1 ≠ x := by rintro p hp rfl; exact hT (List.mem_map_of_mem hp)
  refine ⟨?_, ?_, fun y => ?_, ?_, ?_, ?_, ?_, ?_, o.maps, o.single, o.other⟩
  · rw [List.map_cons, List.nodup_cons]; exact ⟨hT, o.nodup⟩
  · intro p hp
    rcases List.mem_cons.1 hp with rfl | hp
    · exact h0
    · exact o.fresh p hp
  · simp only [newBlock, upd, List.map_cons, List.mem_cons]
    by_cases h : y = x
    · simp [h]
    · rw [if_neg h, o.live y]; simp [h]
  · intro p hp
    simp only [newBlock, upd]
    rcases List.mem_cons.1 hp with rfl | hp
    · rw [if_pos rfl]
    · rw [if_neg (neT p hp)]; exact o.held p hp
  · intro y hy; simp only [newBlock, upd, if_neg (ne y hy)]; exact o.kids y hy
  · intro y hy; simp only [newBlock, upd, if_neg (ne y hy)]; exact o.deg y hy
  · intro y hy; simp only [newBlock, upd, if_neg (ne y hy)]; exact o.ret y hy
  · intro y hy; simp only [upd, if_neg (ne y hy)]; exact o.tag y hy

theorem Over.raw (o : Over H0 H T ks) (s : Sane H0) (al : AlFree Q) (n : Nat) :
    Over H0 (allocRaw Q H n).1 (((allocRaw Q H n).2, []) :: T) ks := o.block (o.new s al n) []

/-- the keys are counted in the list `l` -/
theorem Over.append (ks1 : List Nat) : ∀ {H : JHeap} {es : List Edge} {l : Nat} {ks : List Nat}, Over H0 H ((l, es) :: T) ks →
    (∀ k ∈ ks1, KeyOk H0 k) → (∀ k ∈ ks1, H0.m.h.deg k + (ks1 ++ ks).count k < 65536) →
    ∃ h, appendKeys l H.m.h ks1 = .ok h ∧ Over H0 (H.on h) ((l, es ++ ks1.map fun k => (.rc, some k)) :: T) (ks1 ++ ks) := by
  induction ks1 with
  | nil => intro H es l ks o _ _; exact ⟨_, rfl, by simpa [JHeap.on] using o⟩
  | cons k ks1 ih =>
    intro H es l ks o hk hd
    have kk := hk k (by simp)
    have hl : H.m.h.live l = true := (o.live l).2 (.inr (by simp))
    have hkl : H.m.h.live k = true := (o.live k).2 (.inl kk.live)
    have hdk := hd k (by simp)
    have hlt : H.m.h.deg k + 1 < 65536 := by
      rw [o.deg k kk.live]
      simp only [List.cons_append, List.count_cons_self, List.count_append] at hdk
      omega
    have hne : k ≠ l := by rintro rfl; have := o.fresh _ (List.mem_cons_self); rw [kk.live] at this; cases this
    have hlf : H0.m.h.live l = false := o.fresh _ (List.mem_cons_self)
    have ne : ∀ y, H0.m.h.live y = true → y ≠ l := by rintro y hy rfl; rw [hlf] at hy; cases hy
    have hnd := o.nodup
    rw [List.map_cons, List.nodup_cons] at hnd
    let h1 : RHeap := { H.m.h with kids := upd H.m.h.kids l (H.m.h.kids l ++ [(.rc, some k)]), deg := upd H.m.h.deg k (H.m.h.deg k + 1) }
    have e1 : listAppend H.m.h l (.rc, some k) = .ok h1 := by
      simp only [listAppend, hl, if_true, incrIndegree, incrRc, hkl, o.ret k kk.live, kk.ret, Bool.false_eq_true, if_false, h1]
      rw [Nat.mod_eq_of_lt hlt]
    have o1 : Over H0 (H.on h1) ((l, es ++ [(.rc, some k)]) :: T) (k :: ks) := by
      refine ⟨o.nodup, ?_, o.live, ?_, ?_, ?_, o.ret, o.tag, o.maps, o.single, o.other⟩
      · intro p hp
        rcases List.mem_cons.1 hp with rfl | hp
        · exact hlf
        · exact o.fresh p (List.mem_cons_of_mem _ hp)
      · intro p hp
        simp only [JHeap.on, h1, upd]
        rcases List.mem_cons.1 hp with rfl | hp
        · rw [if_pos rfl]
          rw [show H.m.h.kids l = es from o.held (l, es) (by simp)]
        · rw [if_neg (fun e => hnd.1 (List.mem_map.2 ⟨p, hp, e⟩))]
          exact o.held p (List.mem_cons_of_mem _ hp)
      · intro y hy; simp only [JHeap.on, h1, upd, if_neg (ne y hy)]; exact o.kids y hy
      · intro y hy
        simp only [JHeap.on, h1, upd, List.count_cons]
        by_cases e : y = k
        · subst e; simp only [if_true, beq_self_eq_true]; rw [o.deg y hy]; omega
        · rw [if_neg e, o.deg y hy, if_neg (by simpa using fun h => e h.symm)]; omega
    obtain ⟨h, e2, o2⟩ := ih o1 (fun q hq => hk q (List.mem_cons_of_mem _ hq)) (fun q hq => by
      have := hd q (List.mem_cons_of_mem _ hq)
      have hp : (ks1 ++ k :: ks).Perm (k :: ks1 ++ ks) := List.perm_middle
      rw [hp.count_eq]
      exact this)
    refine ⟨h, by rw [appendKeys, e1]; exact e2, ?_⟩
    have := o2.perm (T' := (l, es ++ (k :: ks1).map fun k => (.rc, some k)) :: T) (ks' := k :: ks1 ++ ks) (by simp) List.perm_middle
    exact this

/-- the tuple of a counter `c` is made -/
theorem Over.tuple (o : Over H0 H T ks) {x c : Nat} {p : Ptr} (hx : H.m.h.live x = false) (hc : c ∈ T.map Prod.fst) :
    ∃ h, tupleMk H.m.h x [(.del, some c), (.noop, p)] = .ok h ∧
      Over H0 { H.on h with tag := upd H.tag x none } ((x, [(.del, some c), (.noop, p)]) :: T) ks := by
  have ob := o.block hx [(.del, some c), (.noop, p)]
  have hcl : (newBlock H.m.h x [(.del, some c), (.noop, p)]).live c = true := (ob.live c).2 (.inr (List.mem_cons_of_mem _ hc))
  refine ⟨{ newBlock H.m.h x [(.del, some c), (.noop, p)] with ret := upd (newBlock H.m.h x [(.del, some c), (.noop, p)]).ret c true }, ?_, ?_⟩
  · simp only [tupleMk, incrAll, incrIndegree, retain, hcl, if_true, Res.bind_ok]
  · obtain ⟨q, hq, rfl⟩ := List.mem_map.1 hc
    have hcf := o.fresh q hq
    refine ⟨ob.nodup, ob.fresh, ob.live, ob.held, ob.kids, ob.deg, fun y hy => ?_, ob.tag, ob.maps, ob.single, ob.other⟩
    have : y ≠ q.1 := by rintro rfl; rw [hcf] at hy; cases hy
    simp only [JHeap.on, upd, if_neg this]
    exact ob.ret y hy

/-- a further block without counted pointers is freed -/
theorem Over.free (o : Over H0 H ((x, es) :: T) ks) :
    freeBlock H.m.h x = .ok (some { H.m.h with live := upd H.m.h.live x false }) ∧
      Over H0 (H.on { H.m.h with live := upd H.m.h.live x false }) T ks := by
  have hx : H.m.h.live x = true := (o.live x).2 (.inr (by simp))
  have hnd := o.nodup
  rw [List.map_cons, List.nodup_cons] at hnd
  have hxf : H0.m.h.live x = false := o.fresh _ (List.mem_cons_self)
  refine ⟨by simp only [freeBlock, hx, if_true], hnd.2, fun p hp => o.fresh p (List.mem_cons_of_mem _ hp), fun y => ?_,
    fun p hp => o.held p (List.mem_cons_of_mem _ hp), o.kids, o.deg, o.ret, o.tag, o.maps, o.single, o.other⟩
  simp only [JHeap.on, upd]
  by_cases h : y = x
  · subst h
    simp [hxf]
    simpa using hnd.1
  · rw [if_neg h, o.live y]; simp [h]

theorem Over.dyn (o : Over H0 H T ks) (s : Sane H0) {x : Nat} (hx : x ∈ T.map Prod.fst) : H.single x = false := by
  obtain ⟨p, hp, rfl⟩ := List.mem_map.1 hx
  rw [o.single]
  cases h : H0.single p.1 with
  | false => rfl
  | true => have := s.static _ h; rw [o.fresh p hp] at this; cases this

/-- `cee_del` of a block without pointers -/
theorem Over.delRaw (o : Over H0 H ((x, []) :: T) ks) (s : Sane H0) {fuel : Nat} (hf : 1 ≤ fuel) :
    ∃ H', mdel fuel H x = .ok (some H') ∧ Over H0 H' T ks := by
  obtain ⟨fuel, rfl⟩ : ∃ g, fuel = g + 1 := ⟨fuel - 1, by omega⟩
  obtain ⟨e, o'⟩ := o.free
  refine ⟨_, ?_, o'⟩
  have hx : H.m.h.live x = true := (o.live x).2 (.inr (by simp))
  have hk : H.m.h.kids x = [] := o.held (x, []) (by simp)
  simp only [mdel, jsonDel, delWith, hx, if_true, traceS, o.dyn s (x := x) (by simp), hk, delLoop, e]
  rfl

/-- `cee_del` of the tuple of a counter -/
theorem Over.delTuple (o : Over H0 H ((x, [(.del, some c), (.noop, p)]) :: (c, []) :: T) ks) (s : Sane H0) {fuel : Nat} (hf : 2 ≤ fuel) :
    ∃ H', mdel fuel H x = .ok (some H') ∧ Over H0 H' T ks := by
  obtain ⟨fuel, rfl⟩ : ∃ g, fuel = g + 2 := ⟨fuel - 2, by omega⟩
  have hx : H.m.h.live x = true := (o.live x).2 (.inr (by simp))
  have hc : H.m.h.live c = true := (o.live c).2 (.inr (by simp))
  have hk : H.m.h.kids x = [(.del, some c), (.noop, p)] := o.held (x, _) (by simp)
  have hkc : H.m.h.kids c = [] := o.held (c, []) (by simp)
  obtain ⟨e, o1⟩ := (o.perm (List.Perm.swap _ _ _) (List.Perm.refl _)).free
  obtain ⟨e', o2⟩ := o1.free
  have hx1 : upd H.m.h.live c false x = true := (o1.live x).2 (.inr (by simp))
  refine ⟨_, ?_, o2⟩
  simp only [mdel, jsonDel, delWith, hx, if_true, traceS, o.dyn s (x := x) (by simp), o.dyn s (x := c) (by simp), hk, hkc, delLoop, delE, hc, e,
    Bool.false_eq_true, if_false, hx1]
  simp only [JHeap.on] at e'
  rw [e']
  rfl

/-- the references of a list of keys are dropped -/
theorem Over.drop (ks1 : List Nat) (tr : RHeap → Nat → Res (Option RHeap)) (x : Nat) : ∀ {H : JHeap} {ks : List Nat}, Over H0 H T (ks1 ++ ks) →
    x ∈ T.map Prod.fst → (∀ k ∈ ks1, KeyOk H0 k) →
    ∃ h, delLoop tr x H.m.h (ks1.map fun k => (.rc, some k)) = .ok (some h) ∧ Over H0 (H.on h) T ks := by
  induction ks1 with
  | nil => intro H ks o _ _; exact ⟨_, rfl, o⟩
  | cons k ks1 ih =>
    intro H ks o hx hk
    have kk := hk k (by simp)
    have hxl : H.m.h.live x = true := (o.live x).2 (.inr hx)
    have hkl : H.m.h.live k = true := (o.live k).2 (.inl kk.live)
    have hdeg : H.m.h.deg k = H0.m.h.deg k + (1 + (ks1 ++ ks).count k) := by
      rw [o.deg k kk.live]; simp only [List.cons_append, List.count_cons_self]; omega
    have hp := kk.pos
    have hr : H.m.h.ret k = false := by rw [o.ret k kk.live]; exact kk.ret
    let h1 : RHeap := { H.m.h with deg := upd H.m.h.deg k (H.m.h.deg k - 1) }
    have e1 : delE tr H.m.h (.rc, some k) = .ok (some h1) := by
      have h0 : H.m.h.deg k ≠ 0 := by omega
      have h1 : H.m.h.deg k - 1 ≠ 0 := by omega
      simp only [delE, delRefWith, hkl, if_true, h0, ne_eq, not_false_eq_true, hr, Bool.false_eq_true, if_false, upd, h1]
      rfl
    have o1 : Over H0 (H.on h1) T (ks1 ++ ks) := by
      refine ⟨o.nodup, o.fresh, o.live, o.held, o.kids, fun y hy => ?_, o.ret, o.tag, o.maps, o.single, o.other⟩
      simp only [JHeap.on, h1, upd]
      by_cases e : y = k
      · subst e; rw [if_pos rfl, hdeg]; omega
      · rw [if_neg e, o.deg y hy, List.cons_append, List.count_cons, if_neg (by simpa using fun h => e h.symm)]; omega
    obtain ⟨h, e2, o2⟩ := ih o1 hx (fun q hq => hk q (List.mem_cons_of_mem _ hq))
    refine ⟨h, ?_, o2⟩
    rw [List.map_cons, delLoop, if_pos hxl, e1]
    exact e2

/-- `cee_del` of a list of keys -/
theorem Over.delKeys (o : Over H0 H ((x, ks1.map fun k => (.rc, some k)) :: T) (ks1 ++ ks)) (s : Sane H0) (hk : ∀ k ∈ ks1, KeyOk H0 k)
    {fuel : Nat} (hf : 1 ≤ fuel) : ∃ H', mdel fuel H x = .ok (some H') ∧ Over H0 H' T ks := by
  obtain ⟨fuel, rfl⟩ : ∃ g, fuel = g + 1 := ⟨fuel - 1, by omega⟩
  have hx : H.m.h.live x = true := (o.live x).2 (.inr (by simp))
  have hkx : H.m.h.kids x = ks1.map fun k => (.rc, some k) := o.held (x, _) (by simp)
  obtain ⟨h, e, o1⟩ := o.drop ks1 (traceS H.single fuel) x (by simp) hk
  obtain ⟨e', o2⟩ := o1.free
  refine ⟨_, ?_, o2⟩
  simp only [mdel, jsonDel, delWith, hx, if_true, traceS, o.dyn s (x := x) (by simp), hkx, Bool.false_eq_true, if_false, e]
  simp only [JHeap.on] at e'
  rw [e']
  rfl

end

end Verif.Rc.PrintProps
