import Verif.Own.Refine

/-! # Containers and their private memory: the operations -/

namespace Verif.Own

open Verif.Chain (upd)

variable {al : Malloc} {text : Nat → Hash.Key} {s : St} {L : List Nat} {A : Abs} {G : Nat → Option Nat}

/-! ## Lists -/

/-- the list `l` has become `l'`, with its array at `a'` -/
structure Shape (s s' : St) (l a : Nat) (l' : CList.CList Nat) (a' : Nat) : Prop where
  ch : s'.ch = s.ch
  obj : s'.obj = upd s.obj l (.list l'.size l'.capacity a')
  mem : s'.mem = upd (upd s.mem a none) a' (some (.cells l'.cells))
  addr : a' = a ∨ Fresh s a'

theorem getCells_ok {a : Nat} {cs : List (CList.Cell Nat)} (h : s.mem a = some (.cells cs)) : getCells s a = .ok cs := by
  simp only [getCells, h]

theorem grow_sim (hal : al.Sound) (hf : Finite s) {l size cap a : Nat} {cs : List (CList.Cell Nat)}
    (hlive : s.ch.live l = true) (ho : s.obj l = .list size cap a) (hm : s.mem a = some (.cells cs)) (hal0 : s.ch.live a = false)
    (h0 : a ≠ 0) :
    ∃ s' a', grow al s l = .ok s' ∧ Shape s s' l a (CList.grow ⟨cs, size, cap, .rc⟩) a' := by
  simp only [grow, getObj, hlive, if_true, Res.bind_ok, ho, CList.grow]
  by_cases h : size = cap
  · simp only [h, if_true, realloc, getCells_ok hm, Res.bind_ok, take]
    obtain ⟨r0, rl, rm⟩ := fresh hal (s := { s with mem := upd s.mem a none }) (hf.upd a none s.n)
    refine ⟨_, _, rfl, rfl, rfl, rfl, ?_⟩
    simp only at r0 rl rm ⊢
    by_cases hr : al.addr s.n (used ⟨s.ch, s.obj, upd s.mem a none, s.n⟩) = a
    · exact .inl hr
    · rw [upd_ne _ _ hr] at rm
      exact .inr ⟨r0, rl, rm⟩
  · simp only [h, if_false]
    refine ⟨s, a, rfl, rfl, ?_, ?_, .inl rfl⟩
    · simp only [← ho, upd_self]
    · simp only [upd_upd, ← hm, upd_self]

theorem onCells_ok {l size cap a : Nat} {cs cs' : List (CList.Cell Nat)} (hlive : s.ch.live l = true)
    (ho : s.obj l = .list size cap a) (hm : s.mem a = some (.cells cs))
    {f : Nat → List (CList.Cell Nat) → Res (List (CList.Cell Nat))} {g : Nat → Nat} (hf : f size cs = .ok cs') :
    onCells s l f g = .ok { s with mem := upd s.mem a (some (.cells cs')), obj := upd s.obj l (.list (g size) cap a) } := by
  simp only [onCells, getObj, hlive, if_true, Res.bind_ok, ho, getCells_ok hm, hf]

theorem append_sim (hal : al.Sound) (hf : Finite s) {l size cap a : Nat} {cs : List (CList.Cell Nat)}
    (hlive : s.ch.live l = true) (ho : s.obj l = .list size cap a) (hm : s.mem a = some (.cells cs)) (hal0 : s.ch.live a = false)
    (h0 : a ≠ 0) {e : Option Nat} {l' : CList.CList Nat} (h : CList.append ⟨cs, size, cap, .rc⟩ e = .ok l') :
    ∃ s' a', append al s l e = .ok s' ∧ Shape s s' l a l' a' := by
  obtain ⟨s1, a1, g1, S1⟩ := grow_sim hal hf hlive ho hm hal0 h0
  have hpol : (CList.grow ⟨cs, size, cap, .rc⟩ : CList.CList Nat).pol = .rc := by
    unfold CList.grow; split <;> rfl
  unfold CList.append at h
  simp only at h
  generalize CList.grow ⟨cs, size, cap, .rc⟩ = gl at *
  cases hw : CList.wr gl.cells gl.size e with
  | ub => rw [hw] at h; simp at h
  | segv => rw [hw] at h; simp at h
  | ok cs2 =>
    rw [hw] at h
    simp only [Res.ok_bind, hpol] at h
    cases ht : CList.touch .rc e with
    | ub => rw [ht] at h; simp at h
    | segv => rw [ht] at h; simp at h
    | ok x =>
      rw [ht] at h
      simp only [Res.ok_bind, Res.pure_eq, Res.ok.injEq] at h
      subst h
      simp only [append, g1, Res.bind_ok]
      rw [onCells_ok (cs' := cs2) (by rw [S1.ch]; exact hlive) (by rw [S1.obj, upd_same]) (by rw [S1.mem, upd_same]) hw,
        Res.bind_ok, ht, Res.bind_ok]
      refine ⟨_, a1, rfl, S1.ch, ?_, ?_, S1.addr⟩
      · simp only [S1.obj, upd_upd]
      · simp only [S1.mem, upd_upd]

theorem insert_sim (hal : al.Sound) (hf : Finite s) {l size cap a : Nat} {cs : List (CList.Cell Nat)}
    (hlive : s.ch.live l = true) (ho : s.obj l = .list size cap a) (hm : s.mem a = some (.cells cs)) (hal0 : s.ch.live a = false)
    (h0 : a ≠ 0) {i : Int} {e : Option Nat} {l' : CList.CList Nat}
    (h : CList.insert ⟨cs, size, cap, .rc⟩ i e = .ok l') :
    ∃ s' a', insert al s l i e = .ok s' ∧ Shape s s' l a l' a' := by
  obtain ⟨s1, a1, g1, S1⟩ := grow_sim hal hf hlive ho hm hal0 h0
  have hpol : (CList.grow ⟨cs, size, cap, .rc⟩ : CList.CList Nat).pol = .rc := by
    unfold CList.grow; split <;> rfl
  unfold CList.insert at h
  simp only at h
  generalize CList.grow ⟨cs, size, cap, .rc⟩ = gl at *
  cases hu : CList.shiftUp (cInt gl.size - i).toNat gl.cells (cInt gl.size) with
  | ub => rw [hu] at h; simp at h
  | segv => rw [hu] at h; simp at h
  | ok cs1 =>
    rw [hu] at h
    simp only [Res.ok_bind] at h
    cases hw : CList.wr cs1 i e with
    | ub => rw [hw] at h; simp at h
    | segv => rw [hw] at h; simp at h
    | ok cs2 =>
      rw [hw] at h
      simp only [Res.ok_bind, hpol] at h
      cases ht : CList.touch .rc e with
      | ub => rw [ht] at h; simp at h
      | segv => rw [ht] at h; simp at h
      | ok x =>
        rw [ht] at h
        simp only [Res.ok_bind, Res.pure_eq, Res.ok.injEq] at h
        subst h
        simp only [insert, g1, Res.bind_ok]
        rw [onCells_ok (cs' := cs2) (by rw [S1.ch]; exact hlive) (by rw [S1.obj, upd_same]) (by rw [S1.mem, upd_same])
          (by rw [hu, Res.bind_ok]; exact hw), Res.bind_ok, ht, Res.bind_ok]
        refine ⟨_, a1, rfl, S1.ch, ?_, ?_, S1.addr⟩
        · simp only [S1.obj, upd_upd]
        · simp only [S1.mem, upd_upd]

theorem remove_sim {l size cap a : Nat} {cs : List (CList.Cell Nat)}
    (hlive : s.ch.live l = true) (ho : s.obj l = .list size cap a) (hm : s.mem a = some (.cells cs))
    {i : Int} {b : Bool} {l' : CList.CList Nat}
    (h : CList.remove (some ⟨cs, size, cap, .rc⟩) i = .ok (b, some l')) :
    ∃ s', remove s l i = .ok (s', b) ∧ Shape s s' l a l' a := by
  unfold CList.remove at h
  simp only at h
  simp only [remove, getObj, hlive, if_true, Res.bind_ok, ho]
  by_cases hi : size ≤ toU64 i
  · simp only [hi, if_true, Res.ok.injEq, Prod.mk.injEq, Option.some.injEq] at h ⊢
    obtain ⟨rfl, rfl⟩ := h
    refine ⟨s, ⟨rfl, rfl⟩, rfl, ?_, ?_, .inl rfl⟩
    · simp only [← ho, upd_self]
    · simp only [upd_upd, ← hm, upd_self]
  · simp only [hi, if_false] at h ⊢
    rw [getCells_ok hm, Res.bind_ok]
    cases hr : CList.rd cs i with
    | ub => rw [hr] at h; simp at h
    | segv => rw [hr] at h; simp at h
    | ok e =>
      rw [hr] at h
      simp only [Res.ok_bind] at h
      cases hw : CList.wr cs i none with
      | ub => rw [hw] at h; simp at h
      | segv => rw [hw] at h; simp at h
      | ok cs1 =>
        rw [hw] at h
        simp only [Res.ok_bind] at h
        by_cases hbig : 2 ^ 31 < size
        · rw [if_pos hbig] at h; simp at h
        · rw [if_neg hbig] at h
          cases hd : CList.shiftDown (size - 1 - i.toNat) cs1 i with
          | ub => rw [hd] at h; simp at h
          | segv => rw [hd] at h; simp at h
          | ok cs2 =>
            rw [hd] at h
            simp only [Res.ok_bind] at h
            cases ht : CList.touch .rc e with
            | ub => rw [ht] at h; simp at h
            | segv => rw [ht] at h; simp at h
            | ok x =>
              rw [ht] at h
              simp only [Res.ok_bind, Res.pure_eq, Res.ok.injEq, Prod.mk.injEq, Option.some.injEq] at h
              obtain ⟨rfl, rfl⟩ := h
              rw [Res.bind_ok, onCells_ok (cs' := cs2) hlive ho hm (by rw [hw, Res.bind_ok, if_neg hbig]; exact hd),
                Res.bind_ok, ht, Res.bind_ok]
              exact ⟨_, rfl, rfl, rfl, by simp only [upd_upd], .inl rfl⟩

theorem Shape.inv {s' : St} {l a a' : Nat} {l' : CList.CList Nat} (S : Shape s s' l a l' a') (I : Inv text s L A G)
    {o : Option Nat} {xs xs' : List (Option Nat)} (hl : A l = some (.list o xs)) {size cap : Nat}
    (ho : s.obj l = .list size cap a) (hr : CList.Props.Rel l' xs') (hp : l'.pol = .rc) (o' : Option Nat) :
    ∃ G', Inv text s' L (upd A l (some (.list o' xs'))) G' := by
  obtain ⟨cs, size', cap', pol⟩ := l'
  simp only at hp
  subst hp
  exact I.list hl ho S.ch S.obj S.mem S.addr hr o'

theorem append_ok (hal : al.Sound) (I : Inv text s L A G) {l : Nat} {o : Option Nat} {xs : List (Option Nat)}
    (hl : A l = some (.list o xs)) (hlen : xs.length < 2 ^ 31) (e : Nat) :
    ∃ s' G', append al s l (some e) = .ok s' ∧ Inv text s' L (upd A l (some (.list o (xs ++ [some e])))) G' ∧
      ∀ p, p ≠ l → s'.obj p = s.obj p := by
  obtain ⟨size, cap, a, cs, h1, h2, h3, h4⟩ := I.holds l _ hl
  obtain ⟨l', e1, r1, _, p1⟩ := CList.Props.append_spec h3 hlen (some e) (.inl (by simp))
  obtain ⟨s', a', e2, S⟩ := append_sim hal I.finite (I.liveOf hl) h1 h2 (I.sep a (by simp [h2])) (I.ne0 (by simp [h2])) e1
  obtain ⟨G', I'⟩ := S.inv I hl h1 r1 p1 o
  exact ⟨s', G', e2, I', fun p hp => by rw [S.obj, upd_ne _ _ hp]⟩

theorem insert_ok (hal : al.Sound) (I : Inv text s L A G) {l : Nat} {o : Option Nat} {xs : List (Option Nat)}
    (hl : A l = some (.list o xs)) (hlen : xs.length < 2 ^ 31) (i e : Nat) (hi : i ≤ xs.length) :
    ∃ s' G', insert al s l i (some e) = .ok s' ∧
      Inv text s' L (upd A l (some (.list o (xs.take i ++ some e :: xs.drop i)))) G' := by
  obtain ⟨size, cap, a, cs, h1, h2, h3, h4⟩ := I.holds l _ hl
  obtain ⟨l', e1, r1, _, p1⟩ := CList.Props.insert_spec h3 hlen i hi (some e) (.inl (by simp))
  obtain ⟨s', a', e2, S⟩ := insert_sim hal I.finite (I.liveOf hl) h1 h2 (I.sep a (by simp [h2])) (I.ne0 (by simp [h2])) e1
  obtain ⟨G', I'⟩ := S.inv I hl h1 r1 p1 o
  exact ⟨s', G', e2, I'⟩

theorem remove_ok (I : Inv text s L A G) {l : Nat} {o : Option Nat} {xs : List (Option Nat)}
    (hl : A l = some (.list o xs)) (hlen : xs.length < 2 ^ 31) (i : Int) (hi : CList.Props.IsInt i) :
    ∃ s' G', remove s l i = .ok (s', decide (0 ≤ i ∧ i < xs.length)) ∧
      Inv text s' L (upd A l (some (.list o (if 0 ≤ i ∧ i < xs.length then xs.eraseIdx i.toNat else xs)))) G' := by
  obtain ⟨size, cap, a, cs, h1, h2, h3, h4⟩ := I.holds l _ hl
  by_cases h : 0 ≤ i ∧ i < xs.length
  · obtain ⟨n, rfl⟩ := Int.eq_ofNat_of_zero_le h.1
    obtain ⟨l', e1, r1, _, p1⟩ := CList.Props.remove_spec h3 hlen n (by omega)
    obtain ⟨s', e2, S⟩ := remove_sim (I.liveOf hl) h1 h2 e1
    obtain ⟨G', I'⟩ := S.inv I hl h1 r1 p1 o
    exact ⟨s', G', by rw [e2]; simp [h], by simpa only [h, and_self, if_true, Int.toNat_natCast] using I'⟩
  · have e1 := CList.Props.remove_out h3 hlen i hi h
    obtain ⟨s', e2, S⟩ := remove_sim (I.liveOf hl) h1 h2 e1
    obtain ⟨G', I'⟩ := S.inv I hl h1 h3 rfl o
    exact ⟨s', G', by rw [e2]; simp [h], by simpa only [h, if_false] using I'⟩

/-- `cee_list_mk` -/
theorem listMk_ok (hal : al.Sound) (I : Inv text s L A G) (o : Option Nat) {cap : Nat} (hcap : cap < 2 ^ 60) :
    ∃ s' r G', listMk al s cap = .ok (s', r) ∧ r ≠ 0 ∧ r ∉ L ∧ A r = none ∧
      Inv text s' (L ++ [r]) (upd A r (some (.list o []))) G' := by
  obtain ⟨s1, r, e1, r0, rL, rA, hc, ho, hm, hrm⟩ := mkObj_ok hal I (.list 0 cap 0)
  have hlive : ∀ y, s1.ch.live y = true ↔ y = 0 ∨ y ∈ L ++ [r] := fun y => hc.elim fun _ h => h.live y
  have hf1 : Finite s1 := by
    obtain ⟨l, hl⟩ := I.fin
    refine ⟨0 :: (L ++ [r]) ++ l, fun p hp => ?_⟩
    simp only [used, Bool.or_eq_true, Option.isSome_iff_ne_none, hm] at hp
    rcases hp with hp | hp
    · rcases (hlive p).1 hp with h | h
      · simp [h]
      · exact List.mem_append_left _ (List.mem_cons_of_mem _ h)
    · exact List.mem_append_right _ (hl p hp)
  obtain ⟨a0, al', am⟩ := fresh hal hf1
  refine ⟨_, r, upd G (al.addr s1.n (used s1)) (some r), ?_, r0, rL, rA, I.add (s' := ⟨s1.ch, upd s1.obj r
    (.list 0 cap (al.addr s1.n (used s1))), upd s1.mem (al.addr s1.n (used s1))
      (some (.cells (List.replicate (CList.allocCells cap) none))), s1.n + 1⟩) rL hc ?_ ?_ ?_ ?_ ?_ ?_ ?_ ?_⟩
  · simp only [listMk, e1, Res.bind_ok, take]
  all_goals generalize al.addr s1.n (used s1) = a at *
  · intro p hp; simp only [ho, upd_ne _ _ hp]
  · have : r ≠ a := by
      rintro rfl
      rw [(hlive r).2 (.inr (by simp))] at al'; simp at al'
    simp only [upd_ne _ _ this, hm, hrm]
  · intro b hb
    have : b ≠ a := by rintro rfl; rw [hm] at am; exact hb am
    simp only [upd_ne _ _ this, hm]
  · intro b p hp
    simp only [upd]
    split
    · next h =>
      subst h
      rw [hm] at am
      rw [I.free_none am]
      simp [hp.symm]
    · rfl
  · intro b
    simp only [upd, hm]
    split
    · simp
    · exact I.own b
  · intro b hb
    simp only [upd] at hb
    split at hb
    · next h =>
      subst h
      cases hv : s.ch.live b with
      | false => rfl
      | true =>
        rw [(hlive b).2 (((I.live b).1 hv).imp id (List.mem_append_left _))] at al'
        simp at al'
    · exact absurd (I.ownL b r hb) rL
  · refine ⟨[a], fun b hb => ?_⟩
    simp only [upd] at hb
    split at hb
    · next h => simp [h]
    · exact absurd (I.ownL b r hb) rL
  · refine ⟨0, cap, a, List.replicate (CList.allocCells cap) none, upd_same .., upd_same .., CList.Props.Rel_mk .rc cap hcap,
      fun b => ?_⟩
    simp only [upd]
    split
    · next h => simp [h]
    · next h => simp only [h, iff_false]; exact fun hb => rL (I.ownL b r hb)

/-- a block without private memory -/
theorem plainMk_ok (hal : al.Sound) (I : Inv text s L A G) (ob : Obj) (so : SObj)
    (hob : ∀ (s' : St) (G' : Nat → Option Nat) r, s'.obj r = ob → (∀ b, G' b ≠ some r) → Holds text s' G' r so) :
    ∃ s' r, mkObj al s ob = .ok (s', r) ∧ r ≠ 0 ∧ r ∉ L ∧ A r = none ∧ s'.obj r = ob ∧
      Inv text s' (L ++ [r]) (upd A r (some so)) G := by
  obtain ⟨s1, r, e1, r0, rL, rA, hc, ho, hm, hrm⟩ := mkObj_ok hal I ob
  refine ⟨s1, r, e1, r0, rL, rA, by rw [ho, upd_same], I.add rL hc (fun p hp => by rw [ho, upd_ne _ _ hp]) (by rw [hm, hrm]) (fun b _ => by rw [hm])
    (fun b p _ => Iff.rfl) (fun b => by rw [hm]; exact I.own b) (fun b hb => absurd (I.ownL b r hb) rL)
    ⟨[], fun b hb => absurd (I.ownL b r hb) rL⟩ (hob s1 G r (by rw [ho, upd_same]) (fun b hb => rL (I.ownL b r hb)))⟩

/-! ## Deletion -/

theorem del_split {h : Chain.Heap} {c : Bool} (I : Chain.Props.Inv h L c) {a : Nat} (ha : a ∈ L) :
    ∃ h1 h2 c', Chain.deChain h a = .ok h1 ∧ Chain.free h1 a = .ok h2 ∧ Chain.Props.Inv h2 (L.erase a) c' := by
  obtain ⟨h2, e, I2⟩ := Chain.Props.exec_spec I (.del a) ha
  simp only [Chain.Props.exec, Chain.del] at e
  cases hd : Chain.deChain h a with
  | ub => rw [hd] at e; simp at e
  | segv => rw [hd] at e; simp at e
  | ok h1 =>
    rw [hd, Res.ok_bind] at e
    exact ⟨h1, h2, _, rfl, e, I2⟩

theorem plainFree_ok (I : Inv text s L A G) {p : Nat} {x : SObj} (hp : A p = some x) (hG : ∀ b, G b ≠ some p) :
    ∃ s', plainFree s p = .ok s' ∧ Inv text s' (L.erase p) (upd A p none) G ∧ s'.obj = s.obj := by
  obtain ⟨c, hc⟩ := I.chain
  obtain ⟨h1, h2, c', e1, e2, I2⟩ := del_split hc (I.mem hp)
  refine ⟨⟨h2, s.obj, s.mem, s.n⟩, ?_, I.drop ⟨c', I2⟩ rfl (fun b => by rw [if_neg (hG b)]) (fun b => by rw [if_neg (hG b)]), rfl⟩
  simp only [plainFree, deChain, e1, Res.bind_ok, freeObj, e2]

theorem listFree_ok (I : Inv text s L A G) {l : Nat} {o : Option Nat} {xs : List (Option Nat)}
    (hl : A l = some (.list o xs)) :
    ∃ s' G', listFree s l = .ok s' ∧ Inv text s' (L.erase l) (upd A l none) G' ∧ s'.obj = s.obj := by
  obtain ⟨c, hc⟩ := I.chain
  obtain ⟨h1, h2, c', e1, e2, I2⟩ := del_split hc (I.mem hl)
  obtain ⟨size, cap, a, cs, g1, g2, g3, g4⟩ := I.holds l _ hl
  refine ⟨⟨h2, s.obj, upd s.mem a none, s.n⟩, upd G a none, ?_, I.drop ⟨c', I2⟩ rfl (fun b => ?_) (fun b => ?_), rfl⟩
  · rw [listFree, I.getObj hl, Res.bind_ok, g1]
    simp only [deChain, e1, Res.bind_ok]
    rw [freeP_ok (s := ⟨h1, s.obj, s.mem, s.n⟩) (I.ne0 (by simp [g2])) g2, Res.bind_ok]
    simp only [freeObj, e2, Res.bind_ok]
  · simp only [upd, g4]
  · simp only [upd, g4]

theorem elems_ok (cs : List (CList.Cell Nat)) (xs : List (Option Nat)) (n i : Nat) (hn : i + n = xs.length)
    (h : cs.take xs.length = xs.map some) : elems cs n i = .ok (xs.drop i) := by
  induction n generalizing i with
  | zero => rw [List.drop_eq_nil_of_le (by omega)]; rfl
  | succ n ih =>
    have hi : i < xs.length := by omega
    have hci : cs[i]? = some (some xs[i]) := by
      have := congrArg (·[i]?) h
      simpa [List.getElem?_take, hi] using this
    rw [elems, CList.Props.rd_ok hci, Res.bind_ok, ih (i + 1) (by omega), Res.bind_ok, List.drop_eq_getElem_cons hi]

theorem listDel_ok (I : Inv text s L A G) {l : Nat} {o : Option Nat} {xs : List (Option Nat)}
    (hl : A l = some (.list o xs)) :
    ∃ s' G', listDel s l = .ok (s', xs) ∧ Inv text s' (L.erase l) (upd A l none) G' ∧ s'.obj = s.obj := by
  obtain ⟨s', G', e, I', ho⟩ := listFree_ok I hl
  obtain ⟨size, cap, a, cs, g1, g2, g3, g4⟩ := I.holds l _ hl
  refine ⟨s', G', ?_, I', ho⟩
  have he : listElems s l = .ok xs := by
    rw [listElems, I.getObj hl, Res.bind_ok, g1]
    simp only
    have hs : size = xs.length := g3.size
    split
    · next h0 => rw [h0] at hs; rw [List.eq_nil_of_length_eq_zero hs.symm]
    · rw [getCells_ok g2, Res.bind_ok]
      have := elems_ok cs xs size 0 (by omega) (by have := g3.cont; simp only at this; rw [← hs]; exact this)
      simpa using this
  rw [listDel, he, Res.bind_ok, e, Res.bind_ok]

theorem hdestroy_ok (I : Inv text s L A G) {t e m u : Nat} {es : List Ent} (ht : s.mem t = some (.tab e m u))
    (he : s.mem e = some (.ents es)) :
    hdestroy s t = .ok { s with mem := upd (upd s.mem e none) t none } := by
  have hte : t ≠ e := by rintro rfl; rw [he] at ht; simp at ht
  rw [hdestroy, if_neg (I.ne0 (by simp [ht])), getTab_ok ht, Res.bind_ok, freeP_ok (I.ne0 (by simp [he])) he, Res.bind_ok,
    freeP_ok (I.ne0 (by simp [ht])) (by simp only [upd_ne _ _ hte]; exact ht)]

theorem dictFree_ok (I : Inv text s L A G) {d : Nat} {pol : Policy} {k v : Nat} {adds : List (Nat × Nat)}
    (hd : A d = some (.dict pol k v adds)) :
    ∃ s' G', dictFree s d = .ok s' ∧ Inv text s' (L.erase d) (upd A d none) G' := by
  obtain ⟨c, hc⟩ := I.chain
  obtain ⟨h1, h2, c', e1, e2, I2⟩ := del_split hc (I.mem hd)
  obtain ⟨t, e, m, u, es, g1, g2, g3, g4, g5, g6⟩ := I.holds d _ hd
  refine ⟨⟨h2, s.obj, upd (upd s.mem e none) t none, s.n⟩, upd (upd G e none) t none, ?_,
    I.drop ⟨c', I2⟩ rfl (fun b => ?_) (fun b => ?_)⟩
  · rw [dictFree, I.getObj hd, Res.bind_ok, g1]
    simp only [hdestroy_ok I g2 g3, Res.bind_ok, deChain, e1, freeObj, e2]
  · simp only [upd, g6]
    by_cases q1 : b = t <;> by_cases q2 : b = e <;> simp [q1, q2]
  · simp only [upd, g6]
    by_cases q1 : b = t <;> by_cases q2 : b = e <;> simp [q1, q2]

/-- the nodes of a tree are freed -/
theorem treeDestroy_ok {root : Nat} {key : Nat → Nat} {cmp : Nat → Nat → Int} {xs : List Nat} {p : Nat}
    (T : TreeIn (nodes s.mem) root key cmp xs (fun b => G b = some p)) (hn : xs.length ≤ 2 ^ 31) :
    ∃ h' ks, treeDestroy s root = .ok (⟨s.ch, s.obj, setNodes s.mem h', s.n⟩, ks) ∧ ks.Perm xs ∧
      (∀ b, G b = some p → h' b = none) ∧ (∀ b, G b ≠ some p → h' b = nodes s.mem b) ∧
      ∀ b, setNodes s.mem h' b = if G b = some p then none else s.mem b := by
  obtain ⟨h', ks, e, h1, h2, h3⟩ := T.destroy (by omega)
  refine ⟨h'.mem, ks, by rw [treeDestroy, e]; rfl, h1, h2, h3, fun b => ?_⟩
  split
  · next h => exact setNodes_none (h2 b h) (.inl (T.alloc h).2)
  · next h => exact setNodes_same (h3 b h)

theorem treeFree_ok (I : Inv text s L A G) {root : Nat} {key : Nat → Nat} {cmp : Nat → Nat → Int} {xs : List Nat} {p : Nat} {x : SObj}
    (hp : A p = some x) (T : TreeIn (nodes s.mem) root key cmp xs (fun b => G b = some p)) (hn : xs.length ≤ 2 ^ 31) :
    ∃ s' G', ((treeDestroy s root).bind fun r => (deChain r.1 p).bind fun s => freeObj s p) = .ok s' ∧
      Inv text s' (L.erase p) (upd A p none) G' ∧ s'.obj = s.obj := by
  obtain ⟨c, hc⟩ := I.chain
  obtain ⟨h1, h2, c', e1, e2, I2⟩ := del_split hc (I.mem hp)
  obtain ⟨h', ks, e, _, _, _, hm⟩ := treeDestroy_ok T hn
  refine ⟨⟨h2, s.obj, setNodes s.mem h', s.n⟩, fun b => if G b = some p then none else G b, ?_,
    I.drop ⟨c', I2⟩ rfl (fun b => rfl) hm, rfl⟩
  simp only [e, Res.bind_ok, deChain, e1, freeObj, e2]

theorem traceFree_ok (I : Inv text s L A G) {p : Nat} {x : SObj} (hp : A p = some x) (hx : x.real) :
    ∃ s' G', traceFree s p = .ok s' ∧ Inv text s' (L.erase p) (upd A p none) G' := by
  cases x with
  | plain =>
    obtain ⟨g1, g2⟩ := I.holds p _ hp
    obtain ⟨s', e, I', _⟩ := plainFree_ok I hp g2
    rw [traceFree, I.getObj hp, Res.bind_ok, g1]
    exact ⟨s', G, e, I'⟩
  | gone => exact hx.elim
  | frozen o f => exact hx.elim
  | list o xs =>
    obtain ⟨s', G', e, I', _⟩ := listFree_ok I hp
    obtain ⟨size, cap, a, cs, g1, _⟩ := I.holds p _ hp
    rw [traceFree, I.getObj hp, Res.bind_ok, g1]
    exact ⟨s', G', e, I'⟩
  | dict pol k v adds =>
    obtain ⟨s', G', e, I'⟩ := dictFree_ok I hp
    obtain ⟨t, e', m, u, es, g1, _⟩ := I.holds p _ hp
    rw [traceFree, I.getObj hp, Res.bind_ok, g1]
    exact ⟨s', G', e, I'⟩
  | pair o k v =>
    obtain ⟨g1, g2⟩ := I.holds p _ hp
    obtain ⟨s', e, I', _⟩ := plainFree_ok I hp g2
    rw [traceFree, I.getObj hp, Res.bind_ok, g1]
    exact ⟨s', G, e, I'⟩
  | set pol cmp xs =>
    obtain ⟨g1, g2, root, g3, T⟩ := I.holds p _ hp
    obtain ⟨s', G', e, I', _⟩ := treeFree_ok I hp T g2
    rw [traceFree, I.getObj hp, Res.bind_ok, g3]
    simp only [setFree, I.getObj hp, Res.bind_ok, g3]
    exact ⟨s', G', e, I'⟩
  | map kp vp cmp k es =>
    obtain ⟨g1, g2, root, g3, T⟩ := I.holds p _ hp
    obtain ⟨s', G', e, I', _⟩ := treeFree_ok I hp T (by simpa using g2)
    rw [traceFree, I.getObj hp, Res.bind_ok, g3]
    simp only [mapFree, I.getObj hp, Res.bind_ok, g3]
    exact ⟨s', G', e, I'⟩

/-- `cee_del(state)` -/
theorem delState_ok (n : Nat) {s : St} {L : List Nat} {A : Abs} {G : Nat → Option Nat} (I : Inv text s L A G)
    (hA : ∀ p x, A p = some x → x.real) (hn : L.length = n) : ∃ s', delState (n + 1) s = .ok (some s') ∧ (∀ p, s'.ch.live p = false) ∧ ∀ b, s'.mem b = none := by
  induction n generalizing s L A G with
  | zero =>
    have : L = [] := List.eq_nil_of_length_eq_zero hn
    subst this
    obtain ⟨c, hc⟩ := I.chain
    have ht : s.ch.tail = 0 := by have := hc.links.tail; simp at this; exact this.symm
    refine ⟨⟨{ s.ch with live := upd s.ch.live 0 false }, s.obj, s.mem, s.n⟩, ?_, ?_, ?_⟩
    · simp [delState, ht, freeObj, Chain.free, (I.live 0).2 (.inl rfl), Res.bind]
    · intro x
      simp only [upd]
      split
      · rfl
      · next hx =>
        cases hv : s.ch.live x with
        | false => rfl
        | true => exact absurd ((I.live x).1 hv) (by simp [hx])
    · intro b
      by_contra h
      obtain ⟨p, hp⟩ := Option.ne_none_iff_exists'.1 ((I.own b).1 h)
      exact absurd (I.ownL b p hp) (by simp)
  | succ n ih =>
    obtain ⟨c, hc⟩ := I.chain
    have htm := Chain.Props.getLast?_mem hc.links.tail
    have ht0 : s.ch.tail ≠ 0 := by
      intro h0
      have := hc.links.tail
      rw [h0] at this
      cases L with
      | nil => simp at hn
      | cons a L =>
        rw [List.getLast?_cons_cons] at this
        exact hc.zero_notMem (Chain.Props.getLast?_mem this)
    have htL : s.ch.tail ∈ L := by simpa [ht0] using htm
    obtain ⟨x, hx⟩ := Option.ne_none_iff_exists'.1 ((I.dom _).2 htL)
    obtain ⟨s1, G1, e1, I1⟩ := traceFree_ok I hx (hA _ _ hx)
    obtain ⟨s2, e2, f1, f2⟩ := ih I1 (fun p x => by simp only [upd]; split <;> [simp; exact hA p x]) (by rw [List.length_erase_of_mem htL]; omega)
    exact ⟨s2, by rw [delState, if_neg ht0, e1, Res.bind_ok]; exact e2, f1, f2⟩

end Verif.Own
