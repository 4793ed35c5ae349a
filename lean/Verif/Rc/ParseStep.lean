import Verif.Rc.ParseUp

/-!
# One turn of the loop (lemmas for C106)
-/

namespace Verif.Rc.ParseProps
open Verif.Chain (upd)
open Verif.Json (Byte Tok Atom PState PFrame PSt Val insertKey PInv ChainOk pstep popFrame pstep_inv)
open Verif.Rc.Props Verif.Rc.MapProps Verif.Rc.JsonProps

/-- the blocks that only the parser has: the key that was read, the tuples, and the stack -/
def tempsOf (s : MSt) : List Nat :=
  (if s.st = .colon ∨ s.st = .objValue then s.key.toList else []) ++
    ((s.result.map MFrame.tup).toList ++ (s.stk.map MFrame.tup ++ [s.sp]))

/-- the document -/
def docOf (s : MSt) : Ptr :=
  match s.stk.getLast? with
  | some f => f.j
  | none => s.result.bind (·.j)

/-- the document, if it is not static -/
def rootOf (sg : Nat → Bool) (s : MSt) : List Nat :=
  match docOf s with
  | some j => dyn sg j
  | none => []

/-- the containers that are open, or the value when all is done -/
def Spine (E : PEnv) (X0 X : JS) (idx : Nat → Nat) (s : MSt) (p : PSt) : Prop :=
  match s.st with
  | .value => ∃ f g, s.stk = [f] ∧ f.j = none ∧ f.ret = .done ∧ p.stk = [g] ∧ g.ret = .done
  | .done => s.stk = [] ∧ p.stk = [] ∧ ∃ f j v, s.result = some f ∧ f.j = some j ∧ p.result = some v ∧ j ∈ X.x.s.D ∧
      holds E X idx s.n v j
  | .error => False
  | _ => frames E X0 X idx s.n s.stk p.stk

/-- the key that was read was made after the object that is open -/
def KeyOk (E : PEnv) (X : JS) (idx : Nat → Nat) (s : MSt) (p : PSt) : Prop :=
  s.st = .colon ∨ s.st = .objValue → ∃ k f fs j b, s.key = some k ∧ E.txt k = p.key ∧ s.stk = f :: fs ∧ f.j = some j ∧
    j ∈ X.x.s.D ∧ X.kind j = .json .object ∧ X.x.s.kids j = [(.rc, some b)] ∧ idx b < idx k

/-- memory and the parser on it, as long as there was no error -/
structure Fine (E : PEnv) (sg : Nat → Bool) (X0 X : JS) (idx : Nat → Nat) (s : MSt) (p : PSt) (ex : List Nat) (d : Nat) : Prop where
  own : Own sg X0 X (ex ++ tempsOf s) (rootOf sg s) d
  key : KeyOk E X idx s p
  spine : Spine E X0 X idx s p

/-- the parser on memory is where the parser on values is -/
def RelP (E : PEnv) (sg oth : Nat → Bool) (X0 : JS) (s : MSt) (p : PSt) (l r d : Nat) : Prop :=
  ∃ X idx, Core sg E.eqv oth X0 X s.H idx s.n l r ∧ s.st = p.st ∧ PInv p ∧ (s.st = .error → ∃ u, Own sg X0 X [s.sp, u] [] 1) ∧
    (s.st ≠ .error → Fine E sg X0 X idx s p [] d)

section
variable {sg oth : Nat → Bool} {E : PEnv} {X0 X X' : JS} {H : JHeap} {idx idx' : Nat → Nat} {n l r d hi hi' c : Nat} {T Q : List Nat}

theorem KeyOk.same {s s' : MSt} {p : PSt} (J : JG sg E.eqv oth X H) {ex : List Nat} (o : Own sg X0 X (ex ++ tempsOf s) Q d) (h : KeyOk E X idx s p)
    (sb : SameBut X X' idx idx' c) (hc : c ∉ X.x.s.D) (e1 : s'.st = s.st) (e2 : s'.key = s.key) (e3 : s'.stk = s.stk) :
    KeyOk E X' idx' s' p := by
  intro hs
  rw [e1] at hs
  obtain ⟨k, f, fs, j, b, h1, h2, h3, h4, h5, h6, h7, h8⟩ := h hs
  obtain ⟨A, G, -⟩ := J.mem
  have hb : b ∈ X.x.s.D := Good.tgt G h5 (by rw [h7]; simp)
  have hk : k ∈ X.x.s.D := (o.temps k (by simp [tempsOf, hs, h1])).1.mem
  exact ⟨k, f, fs, j, b, e2.trans h1, h2, e3.trans h3, h4, sb.keep j h5 (by rw [h6]; simp), (sb.kind j h5).trans h6,
    (sb.kids j h5 (by rintro rfl; exact hc h5)).trans h7, by rw [sb.idx b hb, sb.idx k hk]; exact h8⟩

theorem Spine.same {s s' : MSt} {p : PSt} (J : JG sg E.eqv oth X H) (h : Spine E X0 X idx s p)
    (sb : SameBut X X' idx idx' c) (hc : c ∉ X.x.s.D) (e1 : s'.st = s.st) (e3 : s'.stk = s.stk) (hd : s.st ≠ .done)
    (hn : s.n ≤ s'.n) : Spine E X0 X' idx' s' p := by
  unfold Spine at h ⊢
  rw [e1, e3]
  cases hs : s.st <;> rw [hs] at h <;> simp only at h ⊢
  case done => exact absurd hs hd
  case value => exact h
  all_goals exact frames_same J sb hc hn h

theorem root_eq {s s' : MSt} (hne : s.stk ≠ []) (h : s'.stk.getLast? = s.stk.getLast?) : rootOf sg s' = rootOf sg s := by
  unfold rootOf docOf
  rw [h]
  cases h : s.stk.getLast? with
  | none => exact absurd (List.getLast?_eq_none_iff.1 h) hne
  | some x => rfl

/-- the stack and the tuples are not used by anything -/
theorem Own.sp {s : MSt} {ex : List Nat} (o : Own sg X0 X (ex ++ tempsOf s) Q d) {f : MFrame} (h : f ∈ s.stk) :
    Own sg X0 X [s.sp, f.tup] [] 1 := by
  have hm : f.tup ∈ s.stk.map MFrame.tup := List.mem_map_of_mem h
  refine ⟨?_, fun t ht => o.temps t ?_, fun _ h => absurd h List.not_mem_nil, fun h => absurd h (by simp)⟩
  · have hn := o.nodup
    rw [tempsOf, List.nodup_append] at hn
    have hn := (List.nodup_append.1 (List.nodup_append.1 (List.nodup_append.1 hn.2.1).2.1).2.1).2.2 _ hm s.sp (by simp)
    simp [hn.symm]
  · simp only [List.mem_cons, List.not_mem_nil, or_false] at ht
    rcases ht with rfl | rfl
    · simp [tempsOf]
    · simp only [tempsOf, List.mem_append]
      exact .inr (.inr (.inr (.inl hm)))

theorem RelP.of {s : MSt} {p : PSt} (k : Core sg E.eqv oth X0 X s.H idx s.n l r) (h1 : s.st = p.st) (h2 : PInv p)
    (f : Fine E sg X0 X idx s p [] d) : RelP E sg oth X0 s p l r d :=
  ⟨X, idx, k, h1, h2, fun h => by
    have := f.spine
    unfold Spine at this
    rw [h] at this
    exact this.elim, fun _ => f⟩

/-- `delResult` -/
theorem fine_del {s : MSt} {p : PSt} {fuel : Nat} (al : AlOk E) (k : Core sg E.eqv oth X0 X s.H idx s.n l r) (f : Fine E sg X0 X idx s p [] d)
    (hne : s.stk ≠ []) (hd : s.st ≠ .done) (hf : X0.x.s.D.length + l ≤ fuel) :
    ∃ H' X', delResult fuel s = .ok (some { s with H := H', result := none }) ∧ Core sg E.eqv oth X0 X' H' idx s.n l r ∧
      Fine E sg X0 X' idx { s with H := H', result := none } p [] d := by
  cases hr : s.result with
  | none =>
    refine ⟨s.H, X, ?_, k, ?_⟩
    · rw [delResult, hr]; simp only; rw [← hr]
    · rw [← hr]; exact f
  | some x =>
    have o' : Own sg X0 X (x.tup :: tempsOf { s with result := none }) (rootOf sg s) d := by
      refine f.own.perm ?_ (List.Perm.refl _)
      simp only [tempsOf, hr, Option.map_some, Option.map_none, Option.toList_some, Option.toList_none, List.nil_append]
      exact (List.perm_middle).symm
    obtain ⟨L, hL, hl⟩ := k.old.dom
    obtain ⟨c, hc⟩ : ∃ c, c ∉ X.x.s.D := ⟨_, (new_fresh al k.J []).1⟩
    obtain ⟨H', X', e, k', o'', sb⟩ := op_drop k o' (fuel := fuel) (by rw [hL, List.length_append]; omega) c
    refine ⟨H', X', by simp only [delResult, hr, e, bindO, Res.bind_ok], k', ?_, ?_, ?_⟩
    · rw [root_eq (s := s) (s' := { s with H := H', result := none }) hne rfl]; exact o''
    · exact f.key.same k.J f.own sb hc rfl rfl rfl
    · exact f.spine.same k.J sb hc rfl rfl hd (Nat.le_refl _)

/-- what is known of the token that was read -/
structure TokAt (E : PEnv) (idx : Nat → Nat) (n : Nat) (c : Tok) (str : Ptr) : Prop where
  made : ∀ t, c = .str t → ∃ b, str = some b ∧ E.txt b = t ∧ idx b + 1 = n
  other : (∀ t, c ≠ .str t) → str = none

theorem fine_read {s : MSt} {p : PSt} (al : AlOk E) (k : Core sg E.eqv oth X0 X s.H idx s.n l r) (f : Fine E sg X0 X idx s p [] d)
    (hd : s.st ≠ .done) (c : Tok) :
    ∃ H' n' str X' idx', readTok E s c = ({ s with H := H', n := n' }, str) ∧ Core sg E.eqv oth X0 X' H' idx' n' (l + 1) r ∧
      Fine E sg X0 X' idx' { s with H := H', n := n' } p str.toList d ∧ TokAt E idx' n' c str := by
  by_cases hc : ∃ t, c = .str t
  · obtain ⟨t, rfl⟩ := hc
    obtain ⟨f1, f2⟩ := new_fresh al k.J t
    obtain ⟨X', k', o', sb, -⟩ := op_raw (eqvE E) k f.own f1 (s.new E t)
    refine ⟨_, _, _, X', _, rfl, k', ⟨o', f.key.same k.J f.own sb f1 rfl rfl rfl, f.spine.same k.J sb f1 rfl rfl hd (Nat.le_succ _)⟩,
      ⟨fun u hu => ?_, fun h => absurd rfl (h t)⟩⟩
    cases hu
    exact ⟨_, rfl, f2, by simp [upd]⟩
  · have hc' : ∀ t, c ≠ .str t := fun t h => hc ⟨t, h⟩
    refine ⟨s.H, s.n, none, X, idx, ?_, k.more (by omega) (Nat.le_refl _), f, ⟨fun t h => absurd h (hc' t), fun _ => rfl⟩⟩
    cases c <;> first | rfl | exact absurd rfl (hc' _)

/-- going on with an error -/
theorem rel_error {s : MSt} (p : PSt) (k : Core sg E.eqv oth X0 X s.H idx s.n l r) {ex : List Nat}
    (o : Own sg X0 X (ex ++ tempsOf s) Q d) {f : MFrame} {fs : List MFrame} (hs : s.stk = f :: fs) {l' r' d' : Nat} (hl : l ≤ l')
    (hr : r ≤ r') : RelP E sg oth X0 { s with st := .error } { p with st := .error } l' r' d' :=
  ⟨X, idx, k.more hl hr, rfl, trivial, fun _ => ⟨_, o.sp (f := f) (by rw [hs]; simp)⟩, fun h => absurd rfl h⟩

/-- the end of a container -/
theorem rel_pop {s : MSt} {p : PSt} {f : MFrame} {fs : List MFrame} {g : PFrame} {gs : List PFrame} {v : Val}
    (k : Core sg E.eqv oth X0 X s.H idx s.n l r) (hs : s.stk = f :: fs) (hr : s.result = none)
    (hst : s.st ≠ .colon ∧ s.st ≠ .objValue)
    (o : Own sg X0 X (tempsOf s) (rootOf sg s) d) (hj : g.j = some v) (hc : ChainOk (g :: gs))
    (h : frames E X0 X idx s.n (f :: fs) (g :: gs)) (al : AlOk E) :
    ∃ p', popFrame p g gs = .ok p' ∧ PInv p' ∧ RelP E sg oth X0 (popTuple s f fs) p' l r d := by
  obtain ⟨p', e, hp'⟩ := Verif.Json.popFrame_inv (s := p) hj hc
  refine ⟨p', e, hp', ?_⟩
  obtain ⟨j, w, b, h1, h2, h3, h4, h5, h6, h7, h8⟩ := h
  rw [hj] at h2; cases h2
  have ht : tempsOf s = f.tup :: (fs.map MFrame.tup ++ [s.sp]) := by
    simp [tempsOf, hst.1, hst.2, hr, hs]
  have hh : holds E X idx s.n v j := h7.holds (by omega)
  cases gs with
  | nil => cases fs with
    | cons f' fs => simp [below] at h8
    | nil =>
      simp only [ChainOk] at hc
      have hfr : f.ret = .done := h3.trans hc
      simp only [popFrame, hc, Res.ok.injEq] at e
      subst e
      refine RelP.of k hfr hp' ⟨?_, ?_, ?_⟩
      · have e1 : tempsOf (popTuple s f []) = tempsOf s := by rw [ht]; simp [tempsOf, popTuple, hfr]
        have e2 : rootOf sg (popTuple s f []) = rootOf sg s := by simp [rootOf, docOf, popTuple, hs]
        rw [e1, e2]; exact o
      · intro h; simp [popTuple, hfr] at h
      · unfold Spine
        simp only [popTuple, hfr]
        exact ⟨trivial, trivial, f, j, v, rfl, h1, hj, h4, hh⟩
  | cons g' gs => cases fs with
    | nil => simp [below] at h8
    | cons f' fs =>
      simp only [below] at h8
      obtain ⟨j', v', b', q1, q2, q3, q4, q5, q6, q7, q8⟩ := h8
      obtain ⟨c, hc0⟩ : ∃ c, c ∉ X.x.s.D := ⟨_, (new_fresh al k.J []).1⟩
      obtain ⟨hb, -, -⟩ := h7.part k.J h4
      obtain ⟨hb', -, -⟩ := q7.part k.J q4
      have q7' : hole E X idx s.n v' j' b' j g.key :=
        q7.same k.J (SameBut.refl X idx c) ⟨fun h => absurd h hc0, fun h => absurd h hc0⟩ (by omega) q4
          (by rintro rfl; exact hc0 hb')
      obtain ⟨pv, ea, hpv⟩ := q7'.fill hh
      have e0 := e
      simp only [popFrame, hj, q2, ea, Res.map_ok', Res.ok.injEq] at e
      subst e
      have hfr : f.ret = .arrCloseOrComma ∨ f.ret = .objCloseOrComma := by
        rw [h3]; simp only [ChainOk] at hc; exact hc.1.imp And.left And.left
      refine RelP.of k h3 hp' ⟨?_, ?_, ?_⟩
      · have e1 : tempsOf (popTuple s f (f' :: fs)) = tempsOf s := by
          rw [ht]; rcases hfr with hfr | hfr <;> simp [tempsOf, popTuple, hfr]
        have e2 : rootOf sg (popTuple s f (f' :: fs)) = rootOf sg s :=
          root_eq (by rw [hs]; simp) (by rw [hs]; exact List.getLast?_cons_cons.symm)
        rw [e1, e2]; exact o
      · intro h; rcases hfr with hfr | hfr <;> simp [popTuple, hfr] at h
      · have : frames E X0 X idx s.n (f' :: fs) ({ g' with j := some pv } :: gs) :=
          ⟨j', pv, b', q1, rfl, q3, q4, q5, by have := q6; omega, hpv, q8⟩
        unfold Spine
        rcases hfr with hfr | hfr <;> simp only [popTuple, hfr] <;> exact this

theorem late_self (J : JG sg E.eqv oth X H) {v : Val} {j b : Nat} (hj : j ∈ X.x.s.D) (h : cont E X idx hi v j b) {m : Nat}
    (hm : m ≤ idx b) : Late X idx m b := ⟨fun _ => (h.part J hj).2.1, fun _ => hm⟩

/-- an element is put into the open array -/
theorem arr_put {s : MSt} {xs : List Val} {j b v : Nat} {key : List Byte} {fs : List MFrame} {gs : List PFrame}
    (k : Core sg E.eqv oth X0 X s.H idx s.n l r) (o : Own sg X0 X T Q d) (hj : j ∈ X.x.s.D) (hb0 : b ∉ X0.x.s.D)
    (hc : cont E X idx hi (.arr xs) j b) (hw : below E X0 X idx j b key fs gs) (hv : Fits sg X idx Q b v) (Q' : List Nat)
    (hQ : ∀ x, x ∈ Q' ↔ x ∈ Q ∧ x ≠ v) (key' : List Byte) :
    ∃ H' X', addElem s b v = .ok (some { s with H := H' }) ∧ Core sg E.eqv oth X0 X' H' idx s.n l (r + 1) ∧ Own sg X0 X' T Q' d ∧
      hole E X' idx hi (.arr xs) j b v key' ∧ below E X0 X' idx j b key fs gs ∧ SameBut X X' idx idx b ∧ j ∈ X'.x.s.D := by
  obtain ⟨hb, hbk, t, ht⟩ := hc.part k.J hj
  have hbl : X.kind b = .list := by obtain ⟨vs, a, -⟩ := hc; exact a.kind
  obtain ⟨c, X', e, k', o', sb, hK⟩ := op_append k o hb hb0 hbl hv Q' hQ
  exact ⟨_, X', by rw [addElem, e, Res.map_ok'], k', o', cont_append k hj hb0 hc sb hK,
    below_same k.J sb fs gs j b key hb (late_self k.J hj hc (Nat.le_refl _)) hw, sb, sb.keep j hj (by rw [ht]; simp)⟩

/-- a value is put into the open object -/
theorem obj_put {s : MSt} {xs : List (List Byte × Val)} {j b v kk fuel : Nat} {key : List Byte} {fs : List MFrame} {gs : List PFrame}
    (k : Core sg E.eqv oth X0 X s.H idx s.n l r) (o : Own sg X0 X (kk :: T) Q d) (hj : j ∈ X.x.s.D) (hb0 : b ∉ X0.x.s.D)
    (hc : cont E X idx hi (.obj xs) j b) (hw : below E X0 X idx j b key fs gs) (hv : Fits sg X idx Q b v) (Q' : List Nat)
    (hQ : ∀ x, x ∈ Q' ↔ x ∈ Q ∧ x ≠ v) (hkk : s.key = some kk) (hki : idx b < idx kk) (hf : X0.x.s.D.length + l ≤ fuel) :
    ∃ H' X', addKey E fuel s b v = .ok (some { s with H := H' }) ∧ Core sg E.eqv oth X0 X' H' idx s.n l (r + 1) ∧
      Own sg X0 X' T Q' (d + if xs.any (fun p => p.1 == E.txt kk) then 1 else 0) ∧
      hole E X' idx hi (.obj xs) j b v (E.txt kk) ∧ below E X0 X' idx j b key fs gs ∧ SameBut X X' idx idx b ∧ j ∈ X'.x.s.D := by
  obtain ⟨hb, hbk, t, ht⟩ := hc.part k.J hj
  have hbl : X.kind b = .map := by obtain ⟨vs, a, -⟩ := hc; exact a.kind
  obtain ⟨L, hL, hl⟩ := k.old.dom
  obtain ⟨H', X', e, k', o', sb, hK, hO⟩ := op_put (eqvE E) k o hb hb0 hbl hki hv Q' hQ (fuel := fuel)
    (by rw [hL, List.length_append]; omega)
  obtain ⟨h1, h2⟩ := cont_put k hj hb0 hc sb hK hO
  rw [h2] at o'
  exact ⟨_, X', by simp only [addKey, hkk, e, bindO, Res.bind_ok], k', o', h1,
    below_same k.J sb fs gs j b key hb (late_self k.J hj hc (Nat.le_refl _)) hw, sb, sb.keep j hj (by rw [ht]; simp)⟩

/-- a container inside of the open one is opened -/
theorem rel_open {s : MSt} {p' : PSt} {f : MFrame} {fs : List MFrame} {g : PFrame} {gs : List PFrame} {v v0 : Val} {ret : PState}
    {j b j0 b0 : Nat} {key : List Byte} (al : AlOk E)
    (k : Core sg E.eqv oth X0 X s.H idx s.n l r) (o : Own sg X0 X (s.stk.map MFrame.tup ++ [s.sp]) (rootOf sg s) d)
    (hs : s.stk = f :: fs) (hr : s.result = none) (hst : s.st = .keyOrClose ∨ s.st = .arrValueOrClose)
    (h1 : f.j = some j0) (h2 : g.j = some v0) (h3 : f.ret = g.ret) (h4 : j0 ∈ X.x.s.D) (h5 : b0 ∉ X0.x.s.D)
    (h6 : idx b0 + 2 ≤ idx b) (h7 : hole E X idx (idx b) v0 j0 b0 j key) (h8 : below E X0 X idx j0 b0 g.key fs gs)
    (c1 : j ∈ X.x.s.D) (c2 : b ∉ X0.x.s.D) (c3 : idx b + 2 ≤ s.n) (c4 : cont E X idx 0 v j b)
    (hp : p'.st = s.st) (hps : p'.stk = ⟨ret, some v, key⟩ :: g :: gs) (hi : PInv p') :
    RelP E sg oth X0 (pushTuple E s ret (some j)) p' (l + 1) r d := by
  obtain ⟨f1, -⟩ := new_fresh al k.J []
  obtain ⟨X', k', o', sb, -⟩ := op_raw (eqvE E) k o f1 (s.new E [])
  have hl : ∀ hi, Late X idx hi (s.new E []) := fun hi => ⟨fun h => absurd h f1, fun h => absurd h f1⟩
  obtain ⟨hb, -, t, ht⟩ := c4.part k.J c1
  obtain ⟨hb0, -, t0, ht0⟩ := h7.part k.J h4
  have hne : ∀ {x}, x ∈ X.x.s.D → x ≠ s.new E [] := by rintro x hx rfl; exact f1 hx
  have hfr : frames E X0 X' (upd idx (s.new E []) s.n) (s.n + 1) (⟨s.new E [], ret, some j⟩ :: f :: fs)
      (⟨ret, some v, key⟩ :: g :: gs) := by
    refine ⟨j, v, b, rfl, rfl, rfl, sb.keep j c1 (by rw [ht]; simp), c2, by rw [sb.idx b hb]; omega,
      c4.same k.J sb (hl _) (Nat.zero_le _) c1 (hne hb), ?_⟩
    rw [below]
    refine ⟨j0, v0, b0, h1, h2, h3, sb.keep j0 h4 (by rw [ht0]; simp), h5, by rw [sb.idx b hb, sb.idx b0 hb0]; exact h6,
      h7.same k.J sb (hl _) (by rw [sb.idx b hb]; exact Nat.le_refl _) h4 (hne hb0),
      below_same k.J sb fs gs j0 b0 g.key hb0 (hl _) h8⟩
  refine RelP.of k' hp.symm hi ⟨?_, ?_, ?_⟩
  · have e1 : tempsOf (pushTuple E s ret (some j)) = s.new E [] :: (s.stk.map MFrame.tup ++ [s.sp]) := by
      rcases hst with h | h <;> simp [tempsOf, pushTuple, h, hr]
    have e2 : rootOf sg (pushTuple E s ret (some j)) = rootOf sg s := by
      refine root_eq (by rw [hs]; simp) ?_
      simp only [pushTuple, hs]
      exact List.getLast?_cons_cons
    rw [e1, e2]; exact o'
  · intro h; rcases hst with h' | h' <;> simp [pushTuple, h'] at h
  · unfold Spine
    rcases hst with h' | h' <;> simp only [pushTuple, h', hs, hps] <;> exact hfr

theorem mkBox_none {s : MSt} {c : Tok} (h : box? c = none) : mkBox E s c = .ok none := by
  cases c <;> first | rfl | cases h

theorem mkAtom_none {s : MSt} {c : Tok} {str : Ptr} (h : c.atom? = none) : mkAtom E s str c = .ok none := by
  cases c <;> first | rfl | cases h

/-- the kinds of tokens -/
theorem tok_cases (c : Tok) : (∃ v bs, box? c = some (v, bs) ∧ c.atom? = none ∧ c ≠ .rb ∧ ∀ t, c ≠ .str t) ∨
    (∃ a, c.atom? = some a ∧ box? c = none ∧ c ≠ .rb) ∨ (box? c = none ∧ c.atom? = none) := by
  cases c <;> simp [box?, Tok.atom?]

theorem box_state {c : Tok} {v : Val} {bs : PState} (h : box? c = some (v, bs)) : bs = .keyOrClose ∨ bs = .arrValueOrClose := by
  cases c <;> simp [box?] at h
  · exact .inr h.2.symm
  · exact .inl h.2.symm

/-- how many keys are given again by this token -/
def dupOf (p : PSt) (c : Tok) : Nat :=
  match p.st, p.stk with
  | .objValue, ⟨_, some (.obj kvs), _⟩ :: _ =>
    if (box? c).isSome || c.atom?.isSome then (if kvs.any (fun q => q.1 == p.key) then 1 else 0) else 0
  | _, _ => 0

theorem dyn_fits {v b m : Nat} (hm : Made sg X idx m v) (hb : idx b + 2 ≤ m) :
    Fits sg X idx (dyn sg v ++ Q) b v := by
  by_cases hs : sg v = true
  · exact .inl hs
  · have := hm.new.resolve_left hs
    exact .inr ⟨by simp [dyn, hs], hm.kind, by omega⟩

theorem held_arr (J : JG sg E.eqv oth X H) {xs : List Val} {j b : Nat} (hj : j ∈ X.x.s.D) (h : cont E X idx hi (.arr xs) j b) :
    toPart H j .array = .ok b := by
  obtain ⟨vs, a, -⟩ := h
  have := (J.held ⟨hj, a.tag⟩ rfl).1
  rw [this]
  simp [JS.held, a.held]

theorem held_obj (J : JG sg E.eqv oth X H) {xs : List (List Byte × Val)} {j b : Nat} (hj : j ∈ X.x.s.D)
    (h : cont E X idx hi (.obj xs) j b) : toPart H j .object = .ok b := by
  obtain ⟨vs, a, -⟩ := h
  have := (J.held ⟨hj, a.tag⟩ rfl).1
  rw [this]
  simp [JS.held, a.held]

/-- at the start -/
theorem step_value {s : MSt} {p : PSt} {c : Tok} {str : Ptr} {fuel : Nat} (al : AlOk E) (st : Statics E sg) (hok : TokOk c)
    (k : Core sg E.eqv oth X0 X s.H idx s.n l r) (f : Fine E sg X0 X idx s p str.toList d) (tk : TokAt E idx s.n c str)
    (hst : s.st = .value) (hps : s.st = p.st) (hr : s.result = none) (hi : PInv p) :
    ∃ s' p', memStep E fuel s c str = .ok (some s') ∧ pstep p c = .ok p' ∧ RelP E sg oth X0 s' p' (l + 2) r d := by
  have sp := f.spine
  unfold Spine at sp
  rw [hst] at sp
  obtain ⟨tf, g, h1, h2, h3, h4, h5⟩ := sp
  obtain ⟨p', ep, hi'⟩ := pstep_inv hi (by rw [← hps, hst]; simp) (by rw [h4]; simp) c
  have hp : p.st = .value := by rw [← hps, hst]
  have o := f.own
  have e1 : tempsOf s = [tf.tup, s.sp] := by simp [tempsOf, hst, hr, h1]
  have e2 : rootOf sg s = [] := by simp [rootOf, docOf, h1, h2]
  rw [e1, e2] at o
  obtain ⟨cc, hcc⟩ : ∃ cc, cc ∉ X.x.s.D := ⟨_, (new_fresh al k.J []).1⟩
  rcases tok_cases c with ⟨v, bs, hb, ha, -, hns⟩ | ⟨a, ha, hb, -⟩ | ⟨hb, ha⟩
  · obtain rfl := tk.other hns
    obtain ⟨H', j, b, X', idx', em, k', o', sb, m1, m2, m3, m4, m5, m6, -⟩ := mkBox_ok al hb k o cc
    have ep' : p' = { p with st := bs, stk := [{ g with j := some v }] } := by
      have : pstep p c = .ok { p with st := bs, stk := [{ g with j := some v }] } := by
        cases c <;> simp [box?] at hb <;> obtain ⟨rfl, rfl⟩ := hb <;> simp [pstep, h4, hp]
      rw [this] at ep; cases ep; rfl
    subst ep'
    refine ⟨{ s with st := bs, stk := [{ tf with j := some j }], H := H', n := s.n + 2 }, _,
      by simp only [memStep, h1, hst, em, Res.bind_ok], ep, RelP.of k' rfl hi' ⟨?_, ?_, ?_⟩⟩
    · have hns : sg j = false := by
        cases h : sg j with
        | false => rfl
        | true => exact absurd (k.old.static j h) m5
      have e3 : tempsOf { sp := s.sp, st := bs, stk := [{ tf with j := some j }], key := s.key, result := s.result, H := H', n := s.n + 2 } =
          [tf.tup, s.sp] := by
        rcases box_state hb with rfl | rfl <;> simp [tempsOf, hr]
      rw [e3]
      simpa [rootOf, docOf, dyn, hns] using o'
    · intro h; rcases box_state hb with rfl | rfl <;> simp at h
    · have hfr : frames E X0 X' idx' (s.n + 2) [{ tf with j := some j }] [{ g with j := some v }] := by
        obtain ⟨mb, -, -⟩ := m6.part k'.J m1
        refine ⟨j, v, b, rfl, rfl, h3.trans h5.symm, m1, m4, by omega, ?_, by simp [below]⟩
        obtain ⟨c2, hc2⟩ : ∃ c2, c2 ∉ X'.x.s.D := ⟨_, (new_fresh (s := { s with H := H' }) al k'.J []).1⟩
        exact m6.same k'.J (SameBut.refl X' idx' c2) ⟨fun h => absurd h hc2, fun h => absurd h hc2⟩ (Nat.zero_le _) m1
          (by rintro rfl; exact hc2 mb)
      unfold Spine
      rcases box_state hb with rfl | rfl <;> exact hfr
  · obtain ⟨H', n', v, X', idx', em, k', o', sb, md, mv, hn, -⟩ := mkAtom_ok (T := [tf.tup, s.sp]) (Q := []) al st ha hok k o tk.made tk.other cc
    have ep' : p' = { p with st := .done, stk := [], result := some (.atom a) } := by
      have : pstep p c = .ok { p with st := .done, stk := [], result := some (.atom a) } := by
        cases c <;> simp [Tok.atom?] at ha <;> subst ha <;> simp [pstep, h4, hp, popFrame, h5, Tok.atom?]
      rw [this] at ep; cases ep; rfl
    subst ep'
    refine ⟨popTuple { s with H := H', n := n' } { tf with j := some v } [], _,
      by simp only [memStep, h1, hst, mkBox_none hb, em, Res.bind_ok], ep, RelP.of k' h3 hi' ⟨?_, ?_, ?_⟩⟩
    · have e3 : ∀ n, tempsOf (popTuple { s with H := H', n := n } { tf with j := some v } []) = [tf.tup, s.sp] := by
        intro n; simp [tempsOf, popTuple, h3]
      rw [e3]
      simpa [rootOf, docOf, popTuple] using o'
    · intro h; simp [popTuple, h3] at h
    · unfold Spine
      simp only [popTuple, h3]
      exact ⟨trivial, trivial, _, v, .atom a, rfl, rfl, rfl, md.mem, by rw [holds]; exact mv⟩
  · have ep' : p' = { p with st := .error } := by
      have : pstep p c = .ok { p with st := .error } := by
        cases c <;> simp [Tok.atom?, box?] at ha hb <;> simp [pstep, h4, hp, Tok.atom?]
      rw [this] at ep; cases ep; rfl
    subst ep'
    exact ⟨{ s with st := .error }, _, by simp only [memStep, h1, hst, mkBox_none hb, mkAtom_none ha, Res.bind_ok], ep,
      rel_error p k f.own h1 (by omega) (Nat.le_refl _)⟩

/-- the turn of the loop in an array -/
theorem memStep_arr {s : MSt} {c : Tok} {str : Ptr} {fuel : Nat} {top : MFrame} {rest : List MFrame} (hs : s.stk = top :: rest)
    (hst : s.st = .arrValueOrClose) (hrb : c ≠ .rb) : memStep E fuel s c str =
      (topPart s.H top .array).bind fun l =>
        (mkBox E s c).bind fun r =>
        match r with
        | some (s, j) => bindO (addElem s l j) fun s => .ok (some (pushTuple E s .arrCloseOrComma (some j)))
        | none =>
          (mkAtom E s str c).bind fun r =>
          match r with
          | some (s, v) => bindO (addElem s l v) fun s => .ok (some { s with st := .arrCloseOrComma })
          | none => .ok (some { s with st := .error }) := by
  simp only [memStep, hs, hst, if_neg hrb]
  rfl

/-- the turn of the loop before the value of a key -/
theorem memStep_obj {s : MSt} {c : Tok} {str : Ptr} {fuel : Nat} {top : MFrame} {rest : List MFrame} (hs : s.stk = top :: rest)
    (hst : s.st = .objValue) : memStep E fuel s c str =
      (topPart s.H top .object).bind fun m =>
      (mkBox E s c).bind fun r =>
      match r with
      | some (s, j) => bindO (addKey E fuel s m j) fun s => .ok (some (pushTuple E s .objCloseOrComma (some j)))
      | none =>
        (mkAtom E s str c).bind fun r =>
        match r with
        | some (s, v) => bindO (addKey E fuel s m v) fun s => .ok (some { s with st := .objCloseOrComma })
        | none => .ok (some { s with st := .error }) := by
  simp only [memStep, hs, hst]
  rfl

/-- in an array, before a value -/
theorem step_arr {s : MSt} {p : PSt} {c : Tok} {str : Ptr} {fuel : Nat} (al : AlOk E) (st : Statics E sg) (hok : TokOk c)
    (k : Core sg E.eqv oth X0 X s.H idx s.n l r) (f : Fine E sg X0 X idx s p str.toList d) (tk : TokAt E idx s.n c str)
    (hst : s.st = .arrValueOrClose) (hps : s.st = p.st) (hr : s.result = none) (hi : PInv p) :
    ∃ s' p', memStep E fuel s c str = .ok (some s') ∧ pstep p c = .ok p' ∧ RelP E sg oth X0 s' p' (l + 3) (r + 1) d := by
  have sp := f.spine
  unfold Spine at sp
  rw [hst] at sp
  have hp : p.st = .arrValueOrClose := by rw [← hps, hst]
  have hi0 := hi
  unfold PInv at hi
  rw [hp] at hi
  obtain ⟨g, gs, xs, h1, h2, h3⟩ := hi
  simp only at sp
  rw [h1] at sp h3
  cases hs : s.stk with
  | nil => rw [hs] at sp; exact sp.elim
  | cons tf fs =>
  rw [hs] at sp
  obtain ⟨p', ep, hi'⟩ := pstep_inv hi0 (by rw [hp]; simp) (by rw [h1]; simp) c
  have e1 : tempsOf s = s.stk.map MFrame.tup ++ [s.sp] := by simp [tempsOf, hst, hr]
  obtain ⟨cc, hcc⟩ : ∃ cc, cc ∉ X.x.s.D := ⟨_, (new_fresh al k.J []).1⟩
  have o := f.own
  by_cases hrb : c = .rb
  · subst hrb
    obtain rfl := tk.other (by simp)
    obtain ⟨p'', e, hi'', R⟩ := rel_pop (p := p) k hs hr (by rw [hst]; simp) o h2 h3 sp al
    have : pstep p .rb = popFrame p g gs := by simp only [pstep, h1, hp]
    obtain ⟨X', idx', k', R⟩ := R
    exact ⟨_, p'', by simp only [memStep, hs, hst, if_true], by rw [this, e], X', idx', k'.more (by omega) (by omega), R⟩
  have htp : ∀ j b, tf.j = some j → j ∈ X.x.s.D → cont E X idx s.n (.arr xs) j b → topPart s.H tf .array = .ok b := by
    intro j b hj hD hc
    rw [topPart, hj]
    exact held_arr k.J hD hc
  rcases tok_cases c with ⟨v, bs, hb, ha, -, hns⟩ | ⟨a, ha, hb, -⟩ | ⟨hb, ha⟩
  · obtain rfl := tk.other hns
    rw [e1] at o
    obtain ⟨H', j, b, X', idx', em, k', o', sb, m1, m2, m3, m4, m5, m6, hQ⟩ := mkBox_ok al hb k o cc
    obtain ⟨j0, v0, b0, q1, q2, q3, q4, q5, q6, q7, q8⟩ := sp
    rw [h2] at q2; cases q2
    obtain ⟨hb0, hbk, t0, ht0⟩ := q7.part k.J q4
    have q7' := q7.same k.J sb ⟨fun h => absurd h hcc, fun h => absurd h hcc⟩ (Nat.le_refl _) q4 (by rintro rfl; exact hcc hb0)
    have q8' := below_same k.J sb fs gs j0 b0 g.key hb0 ⟨fun h => absurd h hcc, fun h => absurd h hcc⟩ q8
    have q4' := sb.keep j0 q4 (by rw [ht0]; simp)
    obtain ⟨mb, mk, tj, mt⟩ := m6.part k'.J m1
    obtain ⟨H2, X2, e2, k2, o2, hh, hw, sb2, hj2⟩ := arr_put (s := { s with H := H', n := s.n + 2, st := bs }) k' o' q4' q5 q7' q8'
      (v := j) (.inr ⟨by simp, ⟨tj, mt⟩, by rw [sb.idx b0 hb0]; omega⟩) (rootOf sg s) hQ []
    have hbb : b ≠ b0 := by rintro rfl; rw [sb.idx b hb0] at m2; omega
    have m6' := m6.same k'.J sb2 (late_self k'.J q4' q7' (Nat.zero_le _)) (Nat.le_refl _) m1 hbb
    have ep' : p' = { p with st := bs, stk := ⟨.arrCloseOrComma, some v, []⟩ :: g :: gs } := by
      have : pstep p c = .ok { p with st := bs, stk := ⟨.arrCloseOrComma, some v, []⟩ :: g :: gs } := by
        cases c <;> simp [box?] at hb <;> obtain ⟨rfl, rfl⟩ := hb <;> simp [pstep, h1, hp, h2]
      rw [this] at ep; cases ep; rfl
    subst ep'
    refine ⟨pushTuple E { s with H := H2, n := s.n + 2, st := bs } .arrCloseOrComma (some j), _, by
      rw [memStep_arr hs hst hrb]; simp only [htp j0 b0 q1 q4 q7, em, e2, Res.bind_ok, bindO], ep, ?_⟩
    refine rel_open (s := { s with H := H2, n := s.n + 2, st := bs }) al k2 ?_ hs hr (box_state hb) q1 h2 q3 hj2 q5
      (by rw [sb.idx b0 hb0, m2]; exact q6) (by rw [m2]; exact hh) hw (sb2.keep j m1 (by rw [mt]; simp)) m4 (by rw [m2]; exact Nat.le_refl _)
      m6' rfl rfl hi'
    exact o2
  · have oo := o
    rw [e1] at o
    obtain ⟨H', n', v, X', idx', em, k', o', sb, md, mv, hn, hQ⟩ := mkAtom_ok al st ha hok k o tk.made tk.other cc
    have sp' := frames_same k.J sb hcc hn sp
    obtain ⟨j0, v0, b0, q1, q2, q3, q4, q5, q6, q7, q8⟩ := sp
    rw [h2] at q2; cases q2
    obtain ⟨hb0, hbk, t0, ht0⟩ := q7.part k.J q4
    have q7' := q7.same k.J sb ⟨fun h => absurd h hcc, fun h => absurd h hcc⟩ hn q4 (by rintro rfl; exact hcc hb0)
    have q8' := below_same k.J sb fs gs j0 b0 g.key hb0 ⟨fun h => absurd h hcc, fun h => absurd h hcc⟩ q8
    have q4' := sb.keep j0 q4 (by rw [ht0]; simp)
    have fit : Fits sg X' idx' (dyn sg v ++ rootOf sg s) b0 v := dyn_fits md (by rw [sb.idx b0 hb0]; exact q6)
    obtain ⟨H2, X2, e2, k2, o2, hh, hw, sb2, hj2⟩ := arr_put (s := { s with H := H', n := n' }) k' o' q4' q5 q7' q8'
      fit (rootOf sg s) hQ []
    have hv2 : holds E X2 idx' n' (.atom a) v := by
      refine holds_up k' sb2 q5 (Nat.le_refl _) _ v md.mem ?_ (by rw [holds]; exact mv)
      by_cases hsv : sg v = true
      · exact .inl hsv
      · have h0 : v ∉ X0.x.s.D := (o'.roots v (by simp [dyn, hsv])).2.1
        exact .inr ⟨h0, fit.rank k' o' h0 (by rw [sb.kind b0 hb0]; exact hbk)⟩
    obtain ⟨pv, ea, hpv⟩ := hh.fill hv2
    have ep' : p' = { p with st := .arrCloseOrComma, stk := { g with j := some pv } :: gs } := by
      have : pstep p c = .ok { p with st := .arrCloseOrComma, stk := { g with j := some pv } :: gs } := by
        simp only [Verif.Json.attach, Res.ok.injEq] at ea
        subst ea
        cases c <;> simp [Tok.atom?] at ha <;> subst ha <;> simp [pstep, h1, hp, h2, Tok.atom?]
      rw [this] at ep; cases ep; rfl
    subst ep'
    refine ⟨{ s with st := .arrCloseOrComma, H := H2, n := n' }, _,
      by rw [memStep_arr hs hst hrb]; simp only [htp j0 b0 q1 q4 q7, mkBox_none hb, em, e2, Res.bind_ok, bindO], ep,
      RelP.of (k2.more (by omega) (Nat.le_refl _)) rfl hi' ⟨?_, by intro h; simp at h, ?_⟩⟩
    · have e3 : tempsOf { s with st := .arrCloseOrComma, H := H2, n := n' } = s.stk.map MFrame.tup ++ [s.sp] := by
        simp [tempsOf, hr]
      rw [e3]; exact o2
    · show frames E X0 X2 idx' n' s.stk _
      rw [hs]
      exact ⟨j0, pv, b0, q1, rfl, q3, hj2, q5, by rw [sb.idx b0 hb0]; omega, hpv, hw⟩
  · have ep' : p' = { p with st := .error } := by
      have : pstep p c = .ok { p with st := .error } := by
        cases c <;> simp [Tok.atom?, box?] at ha hb hrb <;> simp [pstep, h1, hp, Tok.atom?, h2]
      rw [this] at ep; cases ep; rfl
    subst ep'
    obtain ⟨j0, v0, b0, q1, q2, q3, q4, q5, q6, q7, q8⟩ := sp
    rw [h2] at q2; cases q2
    exact ⟨{ s with st := .error }, _,
      by rw [memStep_arr hs hst hrb]; simp only [htp j0 b0 q1 q4 q7, mkBox_none hb, mkAtom_none ha, Res.bind_ok], ep,
      rel_error p k f.own hs (by omega) (by omega)⟩

/-- in an object, before the value of a key -/
theorem step_obj {s : MSt} {p : PSt} {c : Tok} {str : Ptr} {fuel : Nat} (al : AlOk E) (st : Statics E sg) (hok : TokOk c)
    (k : Core sg E.eqv oth X0 X s.H idx s.n l r) (f : Fine E sg X0 X idx s p str.toList d) (tk : TokAt E idx s.n c str)
    (hst : s.st = .objValue) (hps : s.st = p.st) (hr : s.result = none) (hi : PInv p)
    (hf : X0.x.s.D.length + (l + 2) ≤ fuel) :
    ∃ s' p', memStep E fuel s c str = .ok (some s') ∧ pstep p c = .ok p' ∧
      RelP E sg oth X0 s' p' (l + 3) (r + 1) (d + dupOf p c) := by
  have sp := f.spine
  unfold Spine at sp
  rw [hst] at sp
  have hp : p.st = .objValue := by rw [← hps, hst]
  have hi0 := hi
  unfold PInv at hi
  rw [hp] at hi
  obtain ⟨g, gs, xs, h1, h2, h3⟩ := hi
  simp only at sp
  rw [h1] at sp h3
  obtain ⟨kk, tf, fs, jk, bk, k1, k2, hs, k4, k5, k6, k7, k8⟩ := f.key (.inr hst)
  rw [hs] at sp
  obtain ⟨p', ep, hi'⟩ := pstep_inv hi0 (by rw [hp]; simp) (by rw [h1]; simp) c
  have e1 : tempsOf s = kk :: (s.stk.map MFrame.tup ++ [s.sp]) := by simp [tempsOf, hst, hr, k1]
  have hD : ∀ (v : Val) bs, box? c = some (v, bs) ∨ (∃ a, c.atom? = some a) →
      dupOf p c = if xs.any (fun q => q.1 == p.key) then 1 else 0 := by
    intro v bs h
    obtain ⟨gr, gj, gk⟩ := g
    simp only at h2
    subst h2
    have : ((box? c).isSome || c.atom?.isSome) = true := by
      rcases h with h | ⟨a, h⟩ <;> simp [h]
    simp only [dupOf, hp, h1, this, if_true]
  obtain ⟨cc, hcc⟩ : ∃ cc, cc ∉ X.x.s.D := ⟨_, (new_fresh al k.J []).1⟩
  have o := f.own
  have hkD : kk ∈ X.x.s.D := (o.temps kk (by rw [e1]; simp)).1.mem
  obtain ⟨j0, v0, b0, q1, q2, q3, q4, q5, q6, q7, q8⟩ := sp
  rw [h2] at q2; cases q2
  obtain ⟨hb0, hbk, t0, ht0⟩ := q7.part k.J q4
  have hbe : idx b0 < idx kk := by
    rw [q1] at k4; cases k4
    obtain ⟨vs, a, -⟩ := q7
    have := a.held
    rw [k7] at this
    simp only [List.cons.injEq, Prod.mk.injEq, Option.some.injEq, true_and, and_true] at this
    rw [← this]; exact k8
  have htp : topPart s.H tf .object = .ok b0 := by
    rw [topPart, q1]
    exact held_obj k.J q4 q7
  rcases tok_cases c with ⟨v, bs, hb, ha, -, hns⟩ | ⟨a, ha, hb, -⟩ | ⟨hb, ha⟩
  · obtain rfl := tk.other hns
    rw [e1] at o
    obtain ⟨H', j, b, X', idx', em, k', o', sb, m1, m2, m3, m4, m5, m6, hQ⟩ := mkBox_ok al hb k o cc
    have q7' := q7.same k.J sb ⟨fun h => absurd h hcc, fun h => absurd h hcc⟩ (Nat.le_refl _) q4 (by rintro rfl; exact hcc hb0)
    have q8' := below_same k.J sb fs gs j0 b0 g.key hb0 ⟨fun h => absurd h hcc, fun h => absurd h hcc⟩ q8
    have q4' := sb.keep j0 q4 (by rw [ht0]; simp)
    obtain ⟨mb, mk, tj, mt⟩ := m6.part k'.J m1
    obtain ⟨H2, X2, e2, k2', o2, hh, hw, sb2, hj2⟩ := obj_put (s := { s with H := H', n := s.n + 2, st := bs }) (fuel := fuel) k' o' q4' q5 q7' q8'
      (v := j) (.inr ⟨by simp, ⟨tj, mt⟩, by rw [sb.idx b0 hb0]; omega⟩) (rootOf sg s) hQ k1
      (by rw [sb.idx b0 hb0, sb.idx kk hkD]; exact hbe) hf
    have hbb : b ≠ b0 := by rintro rfl; rw [sb.idx b hb0] at m2; omega
    have m6' := m6.same k'.J sb2 (late_self k'.J q4' q7' (Nat.zero_le _)) (Nat.le_refl _) m1 hbb
    have ep' : p' = { p with st := bs, stk := ⟨.objCloseOrComma, some v, p.key⟩ :: g :: gs } := by
      have : pstep p c = .ok { p with st := bs, stk := ⟨.objCloseOrComma, some v, p.key⟩ :: g :: gs } := by
        cases c <;> simp [box?] at hb <;> obtain ⟨rfl, rfl⟩ := hb <;> simp [pstep, h1, hp, h2]
      rw [this] at ep; cases ep; rfl
    subst ep'
    refine ⟨pushTuple E { s with H := H2, n := s.n + 2, st := bs } .objCloseOrComma (some j), _, by
      rw [memStep_obj hs hst]; simp only [htp, em, e2, Res.bind_ok, bindO], ep, ?_⟩
    rw [hD v bs (.inl hb)]
    rw [k2] at hh o2
    refine rel_open (s := { s with H := H2, n := s.n + 2, st := bs }) al k2' ?_ hs hr (box_state hb) q1 h2 q3 hj2 q5
      (by rw [sb.idx b0 hb0, m2]; exact q6) (by rw [m2]; exact hh) hw (sb2.keep j m1 (by rw [mt]; simp)) m4 (by rw [m2]; exact Nat.le_refl _)
      m6' rfl rfl hi'
    exact o2
  · rw [e1] at o
    obtain ⟨H', n', v, X', idx', em, k', o', sb, md, mv, hn, hQ⟩ := mkAtom_ok al st ha hok k o tk.made tk.other cc
    have q7' := q7.same k.J sb ⟨fun h => absurd h hcc, fun h => absurd h hcc⟩ hn q4 (by rintro rfl; exact hcc hb0)
    have q8' := below_same k.J sb fs gs j0 b0 g.key hb0 ⟨fun h => absurd h hcc, fun h => absurd h hcc⟩ q8
    have q4' := sb.keep j0 q4 (by rw [ht0]; simp)
    have fit : Fits sg X' idx' (dyn sg v ++ rootOf sg s) b0 v := dyn_fits md (by rw [sb.idx b0 hb0]; exact q6)
    obtain ⟨H2, X2, e2, k2', o2, hh, hw, sb2, hj2⟩ := obj_put (s := { s with H := H', n := n' }) (fuel := fuel) k' o' q4' q5 q7' q8'
      fit (rootOf sg s) hQ k1 (by rw [sb.idx b0 hb0, sb.idx kk hkD]; exact hbe) hf
    have hv2 : holds E X2 idx' n' (.atom a) v := by
      refine holds_up k' sb2 q5 (Nat.le_refl _) _ v md.mem ?_ (by rw [holds]; exact mv)
      by_cases hsv : sg v = true
      · exact .inl hsv
      · have h0 : v ∉ X0.x.s.D := (o'.roots v (by simp [dyn, hsv])).2.1
        exact .inr ⟨h0, fit.rank k' o' h0 (by rw [sb.kind b0 hb0]; exact hbk)⟩
    obtain ⟨pv, ea, hpv⟩ := hh.fill hv2
    rw [k2] at ea
    have ep' : p' = { p with st := .objCloseOrComma, stk := { g with j := some pv } :: gs } := by
      have : pstep p c = .ok { p with st := .objCloseOrComma, stk := { g with j := some pv } :: gs } := by
        simp only [Verif.Json.attach, Res.ok.injEq] at ea
        subst ea
        cases c <;> simp [Tok.atom?] at ha <;> subst ha <;> simp [pstep, h1, hp, h2, Tok.atom?]
      rw [this] at ep; cases ep; rfl
    subst ep'
    refine ⟨{ s with st := .objCloseOrComma, H := H2, n := n' }, _,
      by rw [memStep_obj hs hst]; simp only [htp, mkBox_none hb, em, e2, Res.bind_ok, bindO], ep,
      RelP.of (k2'.more (by omega) (Nat.le_refl _)) rfl hi' ⟨?_, by intro h; simp at h, ?_⟩⟩
    · have e3 : tempsOf { s with st := .objCloseOrComma, H := H2, n := n' } = s.stk.map MFrame.tup ++ [s.sp] := by
        simp [tempsOf, hr]
      rw [e3, hD (.arr []) .done (.inr ⟨a, ha⟩), ← k2]; exact o2
    · show frames E X0 X2 idx' n' s.stk _
      rw [hs]
      exact ⟨j0, pv, b0, q1, rfl, q3, hj2, q5, by rw [sb.idx b0 hb0]; omega, hpv, hw⟩
  · have ep' : p' = { p with st := .error } := by
      have : pstep p c = .ok { p with st := .error } := by
        cases c <;> simp [Tok.atom?, box?] at ha hb <;> simp [pstep, h1, hp, Tok.atom?, h2]
      rw [this] at ep; cases ep; rfl
    subst ep'
    exact ⟨{ s with st := .error }, _,
      by rw [memStep_obj hs hst]; simp only [htp, mkBox_none hb, mkAtom_none ha, Res.bind_ok], ep,
      rel_error p k f.own hs (by omega) (by omega)⟩

/-- the other states -/
theorem step_rest {s : MSt} {p : PSt} {c : Tok} {str : Ptr} {fuel : Nat} (al : AlOk E)
    (k : Core sg E.eqv oth X0 X s.H idx s.n l r) (f : Fine E sg X0 X idx s p str.toList d) (tk : TokAt E idx s.n c str)
    (hst : s.st = .keyOrClose ∨ s.st = .colon ∨ s.st = .objCloseOrComma ∨ s.st = .arrCloseOrComma)
    (hps : s.st = p.st) (hr : s.result = none) (hi : PInv p) :
    ∃ s' p', memStep E fuel s c str = .ok (some s') ∧ pstep p c = .ok p' ∧ RelP E sg oth X0 s' p' l r d := by
  have sp : frames E X0 X idx s.n s.stk p.stk := by
    have sp := f.spine
    unfold Spine at sp
    rcases hst with h | h | h | h <;> rw [h] at sp <;> exact sp
  obtain ⟨g, gs, v, h1, h2, h3⟩ : ∃ g gs v, p.stk = g :: gs ∧ g.j = some v ∧ ChainOk p.stk := by
    unfold PInv at hi
    rw [← hps] at hi
    rcases hst with h | h | h | h <;> rw [h] at hi <;> obtain ⟨g, gs, v, h1, h2, h3⟩ := hi <;> exact ⟨g, gs, _, h1, h2, h3⟩
  rw [h1] at sp h3
  cases hs : s.stk with
  | nil => rw [hs] at sp; exact sp.elim
  | cons tf fs =>
  rw [hs] at sp
  obtain ⟨p', ep, hi'⟩ := pstep_inv hi (by rw [← hps]; rcases hst with h | h | h | h <;> rw [h] <;> simp) (by rw [h1]; simp) c
  have o := f.own
  have err : pstep p c = .ok { p with st := .error } → memStep E fuel s c str = .ok (some { s with st := .error }) →
      ∃ s' p', memStep E fuel s c str = .ok (some s') ∧ pstep p c = .ok p' ∧ RelP E sg oth X0 s' p' l r d :=
    fun h h' => ⟨_, _, h', h, rel_error p k f.own hs (Nat.le_refl _) (Nat.le_refl _)⟩
  have pop : s.st ≠ .colon → s.st ≠ .objValue → str = none → pstep p c = popFrame p g gs →
      memStep E fuel s c str = .ok (some (popTuple s tf fs)) →
      ∃ s' p', memStep E fuel s c str = .ok (some s') ∧ pstep p c = .ok p' ∧ RelP E sg oth X0 s' p' l r d := by
    intro n1 n2 hn h h'
    subst hn
    obtain ⟨p'', e, -, R⟩ := rel_pop (p := p) k hs hr ⟨n1, n2⟩ o h2 h3 sp al
    exact ⟨_, p'', h', by rw [h, e], R⟩
  have move : ∀ st', st' = .keyOrClose ∨ st' = .arrValueOrClose → s.st ≠ .colon → s.st ≠ .objValue → str = none →
      pstep p c = .ok { p with st := st' } → memStep E fuel s c str = .ok (some { s with st := st' }) →
      ∃ s' p', memStep E fuel s c str = .ok (some s') ∧ pstep p c = .ok p' ∧ RelP E sg oth X0 s' p' l r d := by
    intro st' hs' n1 n2 hn h h'
    subst hn
    rw [h] at ep; cases ep
    refine ⟨_, _, h', h, RelP.of k rfl hi' ⟨?_, ?_, ?_⟩⟩
    · have e3 : tempsOf { s with st := st' } = tempsOf s := by
        rcases hs' with rfl | rfl <;> simp [tempsOf, n1, n2]
      rw [e3]; exact o
    · intro h; rcases hs' with rfl | rfl <;> simp at h
    · unfold Spine
      rcases hs' with rfl | rfl <;> simp only [hs, h1] <;> exact sp
  rcases hst with hst | hst | hst | hst
  · have hp : p.st = .keyOrClose := by rw [← hps, hst]
    by_cases h : ∃ t, c = .str t
    · obtain ⟨t, rfl⟩ := h
      obtain ⟨b, rfl, hb, hbi⟩ := tk.made t rfl
      have e : pstep p (.str t) = .ok { p with st := .colon, key := t } := by simp only [pstep, h1, hp]
      rw [e] at ep; cases ep
      refine ⟨{ s with st := .colon, key := some b }, _, by simp only [memStep, hs, hst], e, RelP.of k rfl hi' ⟨?_, ?_, ?_⟩⟩
      · have e3 : tempsOf { s with st := .colon, key := some b } = b :: tempsOf s := by simp [tempsOf, hst]
        rw [e3]; exact o
      · intro _
        obtain ⟨j0, v0, b0, q1, q2, q3, q4, q5, q6, q7, q8⟩ := sp
        obtain ⟨g', gs', kvs, i1, i2, -⟩ : ∃ top rest kvs, p.stk = top :: rest ∧ top.j = some (.obj kvs) ∧ ChainOk p.stk := by
          unfold PInv at hi; rw [hp] at hi; exact hi
        rw [h1] at i1; cases i1
        rw [i2] at q2; cases q2
        obtain ⟨vs, a, -⟩ := q7
        exact ⟨b, tf, fs, j0, b0, rfl, hb, hs, q1, q4, a.tag, a.held, by omega⟩
      · show frames E X0 X idx s.n s.stk p.stk
        rw [hs, h1]; exact sp
    · have h' : ∀ t, c ≠ .str t := fun t e => h ⟨t, e⟩
      have hn := tk.other h'
      by_cases hrc : c = .rc
      · subst hrc
        exact pop (by rw [hst]; simp) (by rw [hst]; simp) hn (by simp only [pstep, h1, hp]) (by simp only [memStep, hs, hst])
      · refine err ?_ ?_
        · cases c <;> simp [pstep, h1, hp] at h' hrc ⊢
        · cases c <;> simp [memStep, hs, hst] at h' hrc ⊢
  · have hp : p.st = .colon := by rw [← hps, hst]
    by_cases hc : c = .colon
    · subst hc
      obtain rfl := tk.other (by simp)
      have e : pstep p .colon = .ok { p with st := .objValue } := by simp only [pstep, h1, hp, if_true]
      rw [e] at ep; cases ep
      refine ⟨{ s with st := .objValue }, _, by simp only [memStep, hs, hst, if_true], e, RelP.of k rfl hi' ⟨?_, ?_, ?_⟩⟩
      · have e3 : tempsOf { s with st := .objValue } = tempsOf s := by simp [tempsOf, hst]
        rw [e3]; exact o
      · intro _
        exact f.key (.inl hst)
      · show frames E X0 X idx s.n s.stk p.stk
        rw [hs, h1]; exact sp
    · exact err (by simp only [pstep, h1, hp, if_neg hc]) (by simp only [memStep, hs, hst, if_neg hc])
  · have hp : p.st = .objCloseOrComma := by rw [← hps, hst]
    cases c
    case comma =>
      exact move _ (.inl rfl) (by rw [hst]; simp) (by rw [hst]; simp) (tk.other (by simp)) (by simp only [pstep, h1, hp])
        (by simp only [memStep, hs, hst])
    case rc =>
      exact pop (by rw [hst]; simp) (by rw [hst]; simp) (tk.other (by simp)) (by simp only [pstep, h1, hp]) (by simp only [memStep, hs, hst])
    all_goals exact err (by simp only [pstep, h1, hp]) (by simp only [memStep, hs, hst])
  · have hp : p.st = .arrCloseOrComma := by rw [← hps, hst]
    cases c
    case comma =>
      exact move _ (.inr rfl) (by rw [hst]; simp) (by rw [hst]; simp) (tk.other (by simp)) (by simp only [pstep, h1, hp])
        (by simp only [memStep, hs, hst])
    case rb =>
      exact pop (by rw [hst]; simp) (by rw [hst]; simp) (tk.other (by simp)) (by simp only [pstep, h1, hp]) (by simp only [memStep, hs, hst])
    all_goals exact err (by simp only [pstep, h1, hp]) (by simp only [memStep, hs, hst])

end
end Verif.Rc.ParseProps
