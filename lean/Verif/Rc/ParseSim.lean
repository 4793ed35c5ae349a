import Verif.Rc.ParseVal

/-!
# The parser on memory does what the parser on values does (lemmas for C106)
-/

namespace Verif.Rc.ParseProps
open Verif.Chain (upd)
open Verif.Json (Byte Tok Atom PState PFrame PSt Val insertKey PInv ChainOk pstep popFrame)
open Verif.Rc.Props Verif.Rc.MapProps Verif.Rc.JsonProps

/-- what is assumed of the allocator, as long as not all of memory is in use: new blocks are where nothing is, and strings
have the text they were made with -/
def AlOk (E : PEnv) : Prop := ∀ (n : Nat) (live : Nat → Bool) (D : List Nat), (∀ x, live x = true → x ∈ D) → ∀ t,
  live (E.al n live t) = false ∧ E.txt (E.al n live t) = t

theorem eqvE (E : PEnv) : Eqv E.eqv :=
  ⟨fun a => by simp [PEnv.eqv], fun a b h => by simp only [PEnv.eqv, beq_iff_eq] at h ⊢; exact h.symm,
    fun a b c h1 h2 => by simp only [PEnv.eqv, beq_iff_eq] at h1 h2 ⊢; exact h1.trans h2⟩

/-- the static blocks -/
structure Statics (E : PEnv) (sg : Nat → Bool) : Prop where
  yes : sg E.yes = true
  no : sg E.no = true
  null : sg E.null = true

/-- a token for a literal is one for a truth value, `null` or a number -/
def TokOk : Tok → Prop
  | .lit (.bool _) => True
  | .lit .null => True
  | .lit (.i64 _) => True
  | .lit (.u64 _) => True
  | .lit (.dbl _) => True
  | .lit _ => False
  | _ => True

section
variable {sg oth : Nat → Bool} {E : PEnv} {X0 X : JS} {idx : Nat → Nat} {n l r d : Nat} {T Q : List Nat} {H : JHeap}

theorem new_fresh (al : AlOk E) {s : MSt} (J : JG sg E.eqv oth X s.H) (t : List Byte) :
    s.new E t ∉ X.x.s.D ∧ E.txt (s.new E t) = t := by
  obtain ⟨h1, h2⟩ := al s.n s.H.m.h.live X.x.s.D (fun x hx => (J.live x).1 hx) t
  refine ⟨fun h => ?_, h2⟩
  have := (J.live _).2 h
  rw [MSt.new, h1] at this
  cases this

theorem new2_fresh (al : AlOk E) {s : MSt} {X1 : JS} {H1 : JHeap} (J : JG sg E.eqv oth X1 H1)
    {t : List Byte} (h : H1.m.h.live = upd s.H.m.h.live (s.new E t) true) : s.new2 E t ∉ X1.x.s.D := by
  obtain ⟨h1, -⟩ := al (s.n + 1) H1.m.h.live X1.x.s.D (fun x hx => (J.live x).1 hx) []
  intro hn
  have := (J.live _).2 hn
  rw [MSt.new2, ← h, h1] at this
  cases this

/-- what is known of the value of a token -/
structure Made (sg : Nat → Bool) (X : JS) (idx : Nat → Nat) (n : Nat) (v : Nat) : Prop where
  mem : v ∈ X.x.s.D
  kind : ∃ t, X.kind v = .json t
  new : sg v = true ∨ n ≤ idx v

/-- not static -/
def dyn (sg : Nat → Bool) (v : Nat) : List Nat := if sg v then [] else [v]

theorem Own.cons_ne {t : Nat} (o : Own sg X0 X (t :: T) Q d) : (∀ x, x ∈ T ↔ x ∈ t :: T ∧ x ≠ t) ∧ ∀ x, x ∈ Q ↔ x ∈ Q ∧ x ≠ t := by
  obtain ⟨h1, -⟩ := List.nodup_cons.1 o.nodup
  refine ⟨fun x => ⟨fun h => ⟨List.mem_cons_of_mem _ h, by rintro rfl; exact h1 h⟩, fun ⟨h, h'⟩ => ?_⟩,
    fun x => ⟨fun h => ⟨h, ?_⟩, fun h => h.1⟩⟩
  · rcases List.mem_cons.1 h with h | h
    · exact absurd h h'
    · exact h
  · rintro rfl
    exact (o.roots x h).2.2.2 (o.temps x (by simp)).1.kind

theorem SameBut.any {X' : JS} {idx' : Nat → Nat} {c : Nat} (s : SameBut X X' idx idx' c) (h : c ∉ X.x.s.D) (c' : Nat) :
    SameBut X X' idx idx' c' :=
  ⟨s.keep, fun y hy _ => s.kids y hy (by rintro rfl; exact h hy), fun y hy _ => s.maps y hy (by rintro rfl; exact h hy), s.kind, s.idx⟩

theorem Core.more (k : Core sg E.eqv oth X0 X H idx n l r) {l' r' : Nat} (hl : l ≤ l') (hr : r ≤ r') :
    Core sg E.eqv oth X0 X H idx n l' r' := by
  obtain ⟨L, hL, hl0⟩ := k.old.dom
  exact ⟨k.J, ⟨⟨L, hL, by omega⟩, k.old.ext, k.old.kids, k.old.maps, k.old.kind,
      k.old.edges, fun y hy => by have := k.old.rcs y hy; omega, k.old.static, k.old.few⟩, k.rank, k.idx⟩

/-- a string or a number from its raw block -/
theorem tag_raw (al : AlOk E) {j t : Nat} {tg : Tag} (k : Core sg E.eqv oth X0 X H idx n l r) (o : Own sg X0 X (t :: T) Q d)
    (hj : j ∉ X.x.s.D) (ht : part tg = some .raw) (hi : idx t + 1 = n) (cc : Nat) :
    ∃ H' X', jsonMk H j tg t = .ok H' ∧ Core sg E.eqv oth X0 X' H' (upd idx j n) (n + 1) (l + 1) r ∧
      Own sg X0 X' T (dyn sg j ++ Q) d ∧ SameBut X X' idx (upd idx j n) cc ∧ Made sg X' (upd idx j n) n j ∧
      X'.kind j = .json tg ∧ X'.x.s.kids j = [(.rc, some t)] ∧ ∀ x, x ∈ Q ↔ x ∈ dyn sg j ++ Q ∧ x ≠ j := by
  obtain ⟨i, i0⟩ := o.temps t (by simp)
  obtain ⟨h1, h2⟩ := o.cons_ne
  obtain ⟨H2, X2, e2, k2, o2, s2, h3, h4, h5, -⟩ := op_tag (eqvE E) k o hj ht i.mem i0 i.kind i.rc hi T Q
    (List.nodup_cons.1 o.nodup).2 h1 h2 cc
  have hns : sg j = false := not_static k.J hj
  refine ⟨H2, X2, e2, k2, ?_, s2, ⟨h5, ⟨_, h3⟩, .inr (by simp [upd])⟩, h3, h4, fun x => ?_⟩
  · rw [dyn, hns]; exact o2
  · rw [dyn, hns]
    exact ⟨fun h => ⟨List.mem_cons_of_mem _ h, by rintro rfl; exact hj (o.roots _ h).1⟩,
      fun h => (List.mem_cons.1 h.1).resolve_left h.2⟩

theorem mkAtom_ok (al : AlOk E) (st : Statics E sg) {s : MSt} {c : Tok} {a : Atom} {str : Ptr} (hc : c.atom? = some a)
    (hok : TokOk c) (k : Core sg E.eqv oth X0 X s.H idx s.n l r) (o : Own sg X0 X (str.toList ++ T) Q d)
    (hs : ∀ t, c = .str t → ∃ b, str = some b ∧ E.txt b = t ∧ idx b + 1 = s.n) (hn : (∀ t, c ≠ .str t) → str = none) (cc : Nat) :
    ∃ H' n' v X' idx', mkAtom E s str c = .ok (some ({ s with H := H', n := n' }, v)) ∧
      Core sg E.eqv oth X0 X' H' idx' n' (l + 2) r ∧ Own sg X0 X' T (dyn sg v ++ Q) d ∧ SameBut X X' idx idx' cc ∧
      Made sg X' idx' s.n v ∧ atomAt E X' v a ∧ s.n ≤ n' ∧ ∀ x, x ∈ Q ↔ x ∈ dyn sg v ++ Q ∧ x ≠ v := by
  have stat : ∀ v, sg v = true → str = none → atomAt E X v a →
      mkAtom E s str c = .ok (some ({ s with H := Verif.Rc.singleton s.H v }, v)) →
      ∃ H' n' v X' idx', mkAtom E s str c = .ok (some ({ s with H := H', n := n' }, v)) ∧
      Core sg E.eqv oth X0 X' H' idx' n' (l + 2) r ∧ Own sg X0 X' T (dyn sg v ++ Q) d ∧ SameBut X X' idx idx' cc ∧
      Made sg X' idx' s.n v ∧ atomAt E X' v a ∧ s.n ≤ n' ∧ ∀ x, x ∈ Q ↔ x ∈ dyn sg v ++ Q ∧ x ≠ v := by
    rintro v hv rfl ha e
    obtain ⟨-, t, ht, -⟩ := k.J.typed.static v hv
    have k' := k.more (l' := l + 2) (by omega) (Nat.le_refl r)
    refine ⟨_, s.n, v, X, idx, e, ⟨single_ok k'.J hv, k'.old, k'.rank, k'.idx⟩, ?_, SameBut.refl _ _ _,
      ⟨k.J.staticIn hv, ⟨t, ht⟩, .inl hv⟩, ha, Nat.le_refl _, fun x => ?_⟩
    · rw [dyn, if_pos hv]
      exact o
    · rw [dyn, if_pos hv]
      exact ⟨fun h => ⟨h, by rintro rfl; exact (o.roots _ h).2.1 (k.old.static _ hv)⟩, fun h => h.1⟩
  have num : (∀ t, c ≠ .str t) → (∀ X v, (X.kind v = .json .number ∧ ∃ b, X.x.s.kids v = [(.rc, some b)] ∧ E.txt b = numName a) →
        atomAt E X v a) → mkAtom E s str c =
      (scalarMk s.H (s.new E (numName a)) (s.new2 E (numName a)) .number).map (fun H =>
        some ({ s with H := H, n := s.n + 2 }, s.new2 E (numName a))) →
      ∃ H' n' v X' idx', mkAtom E s str c = .ok (some ({ s with H := H', n := n' }, v)) ∧
      Core sg E.eqv oth X0 X' H' idx' n' (l + 2) r ∧ Own sg X0 X' T (dyn sg v ++ Q) d ∧ SameBut X X' idx idx' cc ∧
      Made sg X' idx' s.n v ∧ atomAt E X' v a ∧ s.n ≤ n' ∧ ∀ x, x ∈ Q ↔ x ∈ dyn sg v ++ Q ∧ x ≠ v := by
    intro hc ha e
    obtain rfl := hn hc
    obtain ⟨f1, ft⟩ := new_fresh al k.J (numName a)
    obtain ⟨X1, k1, o1, s1, s1'⟩ := op_raw (eqvE E) k o f1 cc
    have f2 : s.new2 E (numName a) ∉ X1.x.s.D := new2_fresh al k1.J rfl
    obtain ⟨H2, X2, e2, k2, o2, s2, m, h3, h4, qk⟩ := tag_raw al k1 o1 f2 (tg := .number) rfl (by simp [upd]) cc
    refine ⟨H2, s.n + 2, s.new2 E (numName a), X2, _, ?_, k2, o2, s1.trans s1' s2, ⟨m.mem, m.kind, m.new.imp id (by omega)⟩,
      ha _ _ ⟨h3, _, h4, ft⟩, by omega, qk⟩
    rw [e, scalarMk, e2, Res.map_ok']
  cases c with
  | str t =>
    obtain ⟨b, rfl, rfl, hb⟩ := hs t rfl
    obtain ⟨f1, -⟩ := new_fresh al k.J []
    obtain ⟨H2, X2, e2, k2, o2, s2, m, h3, h4, qk⟩ := tag_raw al k o f1 (tg := .string) rfl hb cc
    cases hc
    refine ⟨H2, s.n + 1, s.new E [], X2, _, ?_, k2.more (by omega) (Nat.le_refl _), o2, s2, m, ⟨h3, b, h4, rfl⟩, by omega, qk⟩
    rw [mkAtom, e2, Res.map_ok']
  | lit x =>
    cases hc
    have hne : ∀ t, Tok.lit a ≠ .str t := by simp
    cases a with
    | bool x => cases x with
      | true => exact stat _ st.yes (hn hne) rfl rfl
      | false => exact stat _ st.no (hn hne) rfl rfl
    | null => exact stat _ st.null (hn hne) rfl rfl
    | i64 x => exact num hne (fun _ _ h => h) rfl
    | u64 x => exact num hne (fun _ _ h => h) rfl
    | dbl x => exact num hne (fun _ _ h => h) rfl
    | _ => exact hok.elim
  | _ => cases hc

/-- the empty container -/
def box? : Tok → Option (Val × PState)
  | .lb => some (.arr [], .arrValueOrClose)
  | .lc => some (.obj [], .keyOrClose)
  | _ => none

theorem mkBox_ok (al : AlOk E) {s : MSt} {c : Tok} {v : Val} {bs : PState} (hc : box? c = some (v, bs))
    (k : Core sg E.eqv oth X0 X s.H idx s.n l r) (o : Own sg X0 X T Q d) (cc : Nat) :
    ∃ H' j b X' idx', mkBox E s c = .ok (some ({ s with H := H', n := s.n + 2, st := bs }, j)) ∧
      Core sg E.eqv oth X0 X' H' idx' (s.n + 2) (l + 2) r ∧ Own sg X0 X' T (j :: Q) d ∧ SameBut X X' idx idx' cc ∧
      j ∈ X'.x.s.D ∧ idx' b = s.n ∧ idx' j = s.n + 1 ∧ b ∉ X0.x.s.D ∧ j ∉ X0.x.s.D ∧ cont E X' idx' 0 v j b ∧
      ∀ x, x ∈ Q ↔ x ∈ j :: Q ∧ x ≠ j := by
  obtain ⟨f1, -⟩ := new_fresh al k.J []
  have f0 := k.fresh f1
  have aux : ∀ (X1 : JS) (H1 : JHeap) (tg : Tag) (kd : Kind), part tg = some kd → kd ≠ .raw →
      Core sg E.eqv oth X0 X1 H1 (upd idx (s.new E []) s.n) (s.n + 1) (l + 1) r → Own sg X0 X1 T (s.new E [] :: Q) d →
      SameBut X X1 idx (upd idx (s.new E []) s.n) cc → X1.kind (s.new E []) = kd → (∀ y ∈ X.x.s.D, y ∈ X1.x.s.D) →
      H1.m.h.live = upd s.H.m.h.live (s.new E []) true →
      ∃ H' X' idx', jsonMk H1 (s.new2 E) tg (s.new E []) = .ok H' ∧ Core sg E.eqv oth X0 X' H' idx' (s.n + 2) (l + 2) r ∧
        Own sg X0 X' T (s.new2 E :: Q) d ∧ SameBut X X' idx idx' cc ∧ s.new2 E ∈ X'.x.s.D ∧ idx' (s.new E []) = s.n ∧
        idx' (s.new2 E) = s.n + 1 ∧ s.new2 E ∉ X0.x.s.D ∧ s.new2 E ∉ X.x.s.D ∧ X'.kind (s.new2 E) = .json tg ∧
        X'.x.s.kids (s.new2 E) = [(.rc, some (s.new E []))] ∧ X'.kind (s.new E []) = kd ∧
        X'.x.s.kids (s.new E []) = X1.x.s.kids (s.new E []) ∧ X'.x.maps (s.new E []) = X1.x.maps (s.new E []) := by
    intro X1 H1 tg kd ht hkr k1 o1 s1 hk hsub hl
    have f2 : s.new2 E ∉ X1.x.s.D := new2_fresh al k1.J hl
    obtain ⟨m1, m2, m3, m4⟩ := o1.roots (s.new E []) (by simp)
    have hbj : s.new E [] ≠ s.new2 E := by intro e; rw [← e] at f2; exact f2 m1
    obtain ⟨H2, X2, e2, k2, o2, s2, h3, h4, h5, -⟩ := op_tag (eqvE E) k1 o1 f2 ht m1 m2 hk m3 (by simp [upd]) T Q
      o.nodup (fun x => ⟨fun h => ⟨h, by rintro rfl; exact f1 (o.temps _ h).1.mem⟩, fun h => h.1⟩)
      (fun x => ⟨fun h => ⟨List.mem_cons_of_mem _ h, by rintro rfl; exact f1 (o.roots _ h).1⟩,
        fun h => (List.mem_cons.1 h.1).resolve_left h.2⟩) (s.new2 E)
    exact ⟨H2, X2, _, e2, k2, o2, s1.trans hsub (s2.any f2 cc), h5, by simp [upd, hbj], by simp [upd], k1.fresh f2, fun h => f2 (hsub _ h), h3, h4,
          by rw [s2.kind _ m1]; exact hk, s2.kids _ m1 hbj, s2.maps _ m1 hbj⟩
  cases c with
  | lb =>
    cases hc
    obtain ⟨X1, k1, o1, s1, h1, h2, h3⟩ := op_list (eqvE E) k o f1 cc
    obtain ⟨H2, X2, idx', e, k2, o2, s2, a1, a2, a3, a4, qq, a5, a6, a7, a8, a9⟩ := aux X1 _ .array .list rfl (by simp) k1 o1 s1 h1 h3 rfl
    refine ⟨H2, s.new2 E, s.new E [], X2, idx', ?_, k2, o2, s2, a1, a2, a3, f0, a4, ⟨[], ⟨a5, a6, a7, by rw [a8, h2]; rfl⟩, ?_⟩,
      fun x => ⟨fun h => ⟨List.mem_cons_of_mem _ h, by rintro rfl; exact qq (o.roots _ h).1⟩,
        fun h => (List.mem_cons.1 h.1).resolve_left h.2⟩⟩
    · rw [mkBox, arrayMk, e, Res.map_ok']
    · rw [holdsL]; trivial
  | lc =>
    cases hc
    obtain ⟨X1, k1, o1, s1, h1, h2, h2o, h3⟩ := op_map (eqvE E) k o f1 cc
    obtain ⟨H2, X2, idx', e, k2, o2, s2, a1, a2, a3, a4, qq, a5, a6, a7, a8, a9⟩ := aux X1 _ .object .map rfl (by simp) k1 o1 s1 h1 h3 rfl
    refine ⟨H2, s.new2 E, s.new E [], X2, idx', ?_, k2, o2, s2, a1, a2, a3, f0, a4, ⟨[], ⟨a5, a6, a7, by rw [a9, h2]; rfl, by rw [a9, h2o]; rfl⟩, ?_⟩,
      fun x => ⟨fun h => ⟨List.mem_cons_of_mem _ h, by rintro rfl; exact qq (o.roots _ h).1⟩,
        fun h => (List.mem_cons.1 h.1).resolve_left h.2⟩⟩
    · rw [mkBox, objectMk, e, Res.map_ok']
    · rw [holdsF]; trivial
  | _ => cases hc

end

end Verif.Rc.ParseProps
