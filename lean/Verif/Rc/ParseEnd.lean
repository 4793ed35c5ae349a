import Verif.Rc.ParseRun

/-!
# The end of the parser, and the deletion of a document (lemmas for C106)
-/

namespace Verif.Rc.ParseProps
open Verif.Chain (upd)
open Verif.Json (Byte Tok Atom PState PFrame PSt Val insertKey PInv ChainOk pstep popFrame pstep_inv prun pinit Yields listNext
  Syn toksL toksF valL valF body)
open Verif.Rc.Props Verif.Rc.MapProps Verif.Rc.JsonProps

/-- what was in memory before is there, unchanged; the counts of static blocks are not looked at -/
structure Kept (sg : Nat → Bool) (H H' : JHeap) : Prop where
  live : ∀ x, H.m.h.live x = true → H'.m.h.live x = true
  kids : ∀ x, H.m.h.live x = true → H'.m.h.kids x = H.m.h.kids x
  maps : ∀ x, H.m.h.live x = true → H'.m.maps x = H.m.maps x
  tag : ∀ x, H.m.h.live x = true → H'.tag x = H.tag x
  deg : ∀ x, H.m.h.live x = true → sg x = false → H'.m.h.deg x = H.m.h.deg x
  ret : ∀ x, H.m.h.live x = true → sg x = false → H'.m.h.ret x = H.m.h.ret x

/-- a value without parts at `j`; the parser makes no others than these -/
def readsA (E : PEnv) (H : JHeap) (j : Nat) : Atom → Prop
  | .bool true => j = E.yes
  | .bool false => j = E.no
  | .null => j = E.null
  | .str t => H.tag j = some .string ∧ ∃ b, H.held j = some b ∧ H.m.h.live b = true ∧ E.txt b = t
  | .undef => False
  | .strn _ => False
  | .blob _ => False
  | a => H.tag j = some .number ∧ ∃ b, H.held j = some b ∧ H.m.h.live b = true ∧ E.txt b = numName a

mutual
/-- the value that is read in memory at `j` is `v` -/
def reads (E : PEnv) (H : JHeap) : Val → Nat → Prop
  | .atom a, j => H.m.h.live j = true ∧ readsA E H j a
  | .arr xs, j => H.m.h.live j = true ∧ H.tag j = some .array ∧ ∃ l vs, H.held j = some l ∧ H.m.h.live l = true ∧
      H.m.h.kids l = vs.map (fun v => (.rc, some v)) ∧ readsL E H xs vs
  | .obj kvs, j => H.m.h.live j = true ∧ H.tag j = some .object ∧ ∃ m ps, H.held j = some m ∧ H.m.h.live m = true ∧
      (H.m.maps m).pairs = ps.map (fun p => (p.1, some p.2)) ∧ (H.m.maps m).order = ps.map Prod.fst ∧ readsF E H kvs ps
/-- the elements of an array -/
def readsL (E : PEnv) (H : JHeap) : List Val → List Nat → Prop
  | [], [] => True
  | x :: xs, v :: vs => reads E H x v ∧ readsL E H xs vs
  | _, _ => False
/-- the entries of an object, in their order -/
def readsF (E : PEnv) (H : JHeap) : List (List Byte × Val) → List (Nat × Nat) → Prop
  | [], [] => True
  | (k, x) :: xs, p :: ps => H.m.h.live p.1 = true ∧ E.txt p.1 = k ∧ reads E H x p.2 ∧ readsF E H xs ps
  | _, _ => False
end

section
variable {sg oth : Nat → Bool} {eqv : Nat → Nat → Bool} {E : PEnv} {X0 X X' : JS} {H H0 : JHeap} {idx idx' : Nat → Nat}
  {n l r d hi hi' c : Nat} {T Q : List Nat}

theorem refs_congr {kids kids' : Nat → List Edge} {D : List Nat} (h : ∀ y ∈ D, kids y = kids' y) (pol : Policy) (x : Nat) :
    refs kids D pol x = refs kids' D pol x := by
  induction D with
  | nil => rfl
  | cons a D ih =>
    have := ih fun y hy => h y (List.mem_cons_of_mem _ hy)
    simp only [refs, List.map_cons, List.sum_cons] at this ⊢
    rw [h a (by simp), this]

theorem refs_append (kids : Nat → List Edge) (D L : List Nat) (pol : Policy) (x : Nat) :
    refs kids (D ++ L) pol x = refs kids D pol x + refs kids L pol x := by
  simp [refs]

theorem _root_.Verif.Rc.JsonProps.JG.fields (J : JG sg eqv oth X H) {x : Nat} (hx : x ∈ X.x.s.D) (hs : sg x = false) :
    H.m.h.deg x = X.x.s.rc x ∧ H.m.h.ret x = false := by
  obtain ⟨A, G, M⟩ := J.mem
  rw [M.h.ret x hs, M.h.deg x hs]
  refine ⟨G.rel.deg x hx, ?_⟩
  have := G.rel.own x hx
  rw [J.typed.own G x] at this
  cases h : A.h.ret x with
  | false => rfl
  | true => rw [h] at this; simp at this

theorem _root_.Verif.Rc.JsonProps.JG.maps (J : JG sg eqv oth X H) : H.m.maps = X.x.maps := by
  obtain ⟨A, G, M⟩ := J.mem
  rw [M.maps, G.maps]

theorem _root_.Verif.Rc.JsonProps.JG.nodup (J : JG sg eqv oth X H) : X.x.s.D.Nodup := by
  obtain ⟨A, G, M⟩ := J.mem
  exact G.rel.nodup

/-- the references to old blocks are as before -/
theorem Grown.rc (g : Grown sg X0 X l r) (hnd : X.x.s.D.Nodup) {x : Nat} (hx : x ∈ X0.x.s.D) (hs : sg x = false) :
    X.x.s.rc x = X0.x.s.rc x := by
  obtain ⟨L, hL, -⟩ := g.dom
  rw [Spec.rc, Spec.rc, g.ext, hL, refs_append, refs_congr (D := X0.x.s.D) g.kids]
  have : refs X.x.s.kids L .rc x = 0 := by
    have hno : ∀ y ∈ L, (Policy.rc, some x) ∉ X.x.s.kids y := by
      intro y hy he
      rw [hL] at hnd
      have hy0 : y ∉ X0.x.s.D := fun h => (List.nodup_append.1 hnd).2.2 y h y hy rfl
      rcases g.edges y (by rw [hL]; exact List.mem_append_right _ hy) hy0 x he with h | h
      · rw [hs] at h; cases h
      · exact h hx
    clear hL
    induction L with
    | nil => rfl
    | cons a L ih =>
      have h1 := ih fun y hy => hno y (List.mem_cons_of_mem _ hy)
      have h2 := List.count_eq_zero.2 (hno a (by simp))
      simp only [refs, List.map_cons, List.sum_cons] at h1 ⊢
      omega
  omega

theorem kept (J0 : JG sg eqv oth X0 H0) (J : JG sg eqv oth X H) (g : Grown sg X0 X l r) : Kept sg H0 H := by
  refine ⟨fun x hx => ?_, fun x hx => ?_, fun x hx => ?_, fun x hx => ?_, fun x hx hs => ?_, fun x hx hs => ?_⟩ <;>
    have hx0 := (J0.live x).1 hx <;> have hx1 := g.sub hx0
  · exact (J.live x).2 hx1
  · rw [J.kids, J0.kids, g.kids x hx0]
  · rw [J.maps, J0.maps, g.maps x hx0]
  · rw [J.tag x hx1, J0.tag x hx0, g.kind x hx0]
  · rw [(J.fields hx1 hs).1, (J0.fields hx0 hs).1, g.rc J.nodup hx0 hs]
  · rw [(J.fields hx1 hs).2, (J0.fields hx0 hs).2]

theorem held_of (J : JG sg eqv oth X H) {j b : Nat} (h : X.x.s.kids j = [(.rc, some b)]) : H.held j = some b := by
  rw [JHeap.held, J.kids, h]

theorem reads_of (J : JG sg eqv oth X H) (v : Val) : ∀ j ∈ X.x.s.D, holds E X idx hi v j → reads E H v j := by
  obtain ⟨A, G, -⟩ := J.mem
  induction v using Val.ind with
  | h0 a =>
    intro j hj h
    rw [holds] at h
    rw [reads]
    refine ⟨(J.live j).2 hj, ?_⟩
    cases a with
    | str t =>
      obtain ⟨h1, b, h2, h3⟩ := h
      have hb : b ∈ X.x.s.D := Good.tgt G hj (by rw [h2]; simp)
      exact ⟨by rw [J.tag j hj, h1]; rfl, b, held_of J h2, (J.live b).2 hb, h3⟩
    | bool b => cases b <;> exact h
    | null => exact h
    | undef => exact h
    | strn t => exact h
    | blob t => exact h
    | _ =>
      obtain ⟨h1, b, h2, h3⟩ := h
      have hb : b ∈ X.x.s.D := Good.tgt G hj (by rw [h2]; simp)
      exact ⟨by rw [J.tag j hj, h1]; rfl, b, held_of J h2, (J.live b).2 hb, h3⟩
  | ha xs ih =>
    intro j hj h
    rw [holds] at h
    rw [reads]
    obtain ⟨b, vs, -, h2, h3⟩ := h
    obtain ⟨hb, hvs⟩ := h2.mem J hj
    refine ⟨(J.live j).2 hj, by rw [J.tag j hj, h2.tag]; rfl, b, vs, held_of J h2.held, (J.live b).2 hb, by rw [J.kids]; exact h2.kids, ?_⟩
    clear h2
    induction xs generalizing vs with
    | nil => cases vs with
      | nil => rw [readsL]; trivial
      | cons v vs => simp [holdsL] at h3
    | cons x xs ihx => cases vs with
      | nil => simp [holdsL] at h3
      | cons v vs =>
        rw [holdsL] at h3
        rw [readsL]
        exact ⟨ih x (by simp) v (hvs v (by simp)).1 h3.1,
          ihx (fun y hy => ih y (List.mem_cons_of_mem _ hy)) vs h3.2 (fun w hw => hvs w (List.mem_cons_of_mem _ hw))⟩
  | ho xs ih =>
    intro j hj h
    rw [holds] at h
    rw [reads]
    obtain ⟨b, vs, -, h2, h3⟩ := h
    obtain ⟨hb, hvs⟩ := h2.mem J hj
    refine ⟨(J.live j).2 hj, by rw [J.tag j hj, h2.tag]; rfl, b, vs, held_of J h2.held, (J.live b).2 hb, by rw [J.maps]; exact h2.pairs,
      by rw [J.maps]; exact h2.order, ?_⟩
    clear h2
    induction xs generalizing vs with
    | nil => cases vs with
      | nil => rw [readsF]; trivial
      | cons v vs => simp [holdsF] at h3
    | cons x xs ihx => cases vs with
      | nil => simp [holdsF] at h3
      | cons v vs =>
        obtain ⟨k, x⟩ := x
        rw [holdsF] at h3
        rw [readsF]
        exact ⟨(J.live _).2 (hvs v (by simp)).1, h3.1, ih (k, x) (by simp) v.2 (hvs v (by simp)).2.1 h3.2.1,
          ihx (fun y hy => ih y (List.mem_cons_of_mem _ hy)) vs h3.2.2 (fun w hw => hvs w (List.mem_cons_of_mem _ hw))⟩

/-- `cee_del` of the document: all that is new is freed, and the counts are correct -/
theorem doc_del_good (J0 : JG sg E.eqv oth X0 H0) (k : Core sg E.eqv oth X0 X H idx n l r) {j : Nat} (hj : j ∈ X.x.s.D)
    (o : Own sg X0 X [] (dyn sg j) 0) {fuel : Nat} (hf : X0.x.s.D.length + l ≤ fuel) :
    ∃ H', jsonDel fuel H (some j) = .ok (some H') ∧ (∀ x, H'.m.h.live x = H0.m.h.live x) ∧ Kept sg H0 H' ∧
      ∃ X', JG sg E.eqv oth X' H' ∧ X'.x.s.D.length = X0.x.s.D.length := by
  obtain ⟨A, G, -⟩ := k.J.mem
  obtain ⟨A0, G0, -⟩ := J0.mem
  have rk : ∀ b, ∀ y ∈ X.x.s.D, Pts X.x.s.kids y b → (Policy.rc, some b) ∈ X.x.s.kids y := by
    rintro b y hy ⟨pol, -, hm⟩
    obtain ⟨v, hv⟩ := k.J.typed.edges G hy hm
    cases hv
    exact hm
  have oldn : ∀ b, b ∉ X0.x.s.D → ∀ y ∈ X.x.s.D, (Policy.rc, some b) ∈ X.x.s.kids y → y ∉ X0.x.s.D := by
    intro b hb y hy he h0
    rw [k.old.kids y h0] at he
    exact hb (Good.tgt G0 h0 he)
  have ext0 : ∀ b, b ∉ X0.x.s.D → X.x.s.ext b = 0 := by
    intro b hb
    rw [k.old.ext]
    rcases Nat.eq_zero_or_pos (X0.x.s.ext b) with h | h
    · exact h
    · exact absurd (G0.rel.ext b h) hb
  have fin : ∀ X' H', JG sg E.eqv oth X' H' → (∀ x, x ∈ X'.x.s.D ↔ x ∈ X0.x.s.D) → Kept sg H0 H' →
      (∀ x, H'.m.h.live x = H0.m.h.live x) ∧ Kept sg H0 H' ∧ ∃ X', JG sg E.eqv oth X' H' ∧ X'.x.s.D.length = X0.x.s.D.length := by
    intro X' H' J' hD kp
    refine ⟨fun x => ?_, kp, X', J', ((List.perm_ext_iff_of_nodup J'.nodup J0.nodup).2 hD).length_eq⟩
    rw [Bool.eq_iff_iff, J'.live, J0.live, hD]
  by_cases hs : sg j = true
  · refine ⟨H, ?_, fin X H k.J (fun x => ⟨fun hx => ?_, k.old.sub⟩) (kept J0 k.J k.old)⟩
    · rw [jsonDel, delWith, if_pos ((k.J.live j).2 hj), k.J.single]
      cases fuel <;> simp only [traceS, hs, if_true] <;> rfl
    · have hdyn : dyn sg j = [] := by simp [dyn, hs]
      rw [hdyn] at o
      have key : ∀ m b, rnk X idx b < m → b ∈ X.x.s.D → b ∈ X0.x.s.D := by
        intro m
        induction m with
        | zero => intro b hb; omega
        | succ m ih =>
          intro b hm hb
          by_contra hb0
          have hrc : X.x.s.rc b ≠ 0 := by
            intro h0
            rcases o.clean rfl b hb hb0 h0 with h | h <;> cases h
          have hr : ∃ y ∈ X.x.s.D, (Policy.rc, some b) ∈ X.x.s.kids y := by
            by_contra hno
            refine hrc ?_
            rw [Spec.rc, ext0 b hb0, refs_eq_zero_of (by decide) fun y hy hp => hno ⟨y, hy, rk b y hy hp⟩]
          obtain ⟨y, hy, he⟩ := hr
          have hy0 := oldn b hb0 y hy he
          have := k.rank y hy hy0 b he hb0
          exact hy0 (ih y (by omega) hy)
      exact key _ x (Nat.lt_succ_self _) hx
  · have hs : sg j = false := by simpa using hs
    have hdyn : dyn sg j = [j] := by simp [dyn, hs]
    rw [hdyn] at o
    obtain ⟨-, hj0, hjr, -⟩ := o.roots j (by simp)
    obtain ⟨L, hL, hl⟩ := k.old.dom
    obtain ⟨c, e, J'⟩ := (drop_ok k.J hj hs (fuel := fuel) (by rw [hL]; simp; omega)).2 hjr
    have he : X.x.s.ext j = 0 := ext0 j hj0
    have hext : upd X.x.s.ext j (X.x.s.ext j - 1) = X.x.s.ext := by
      funext y
      by_cases hy : y = j
      · subst hy; simp [upd, he]
      · simp [upd, hy]
    have new : ∀ m b, rnk X idx b < m → b ∈ X.x.s.D → b ∉ X0.x.s.D → Unref X.x.s.kids X.x.s.D X.x.s.ext j b := by
      intro m
      induction m with
      | zero => intro b hb; omega
      | succ m ih =>
        intro b hm hb hb0
        refine .intro b hb (ext0 b hb0) ?_ ?_
        · by_cases hrc : X.x.s.rc b = 0
          · rcases o.clean rfl b hb hb0 hrc with h | h
            · cases h
            · exact .inl (by simpa using h)
          · right
            by_contra hno
            refine hrc ?_
            rw [Spec.rc, ext0 b hb0, refs_eq_zero_of (by decide) fun y hy hp => hno ⟨y, hy, hp⟩]
        · intro y hy hp
          have he := rk b y hy hp
          have hy0 := oldn b hb0 y hy he
          have := k.rank y hy hy0 b he hb0
          exact ih y (by omega) hy hy0
    have old : ∀ b, Unref X.x.s.kids X.x.s.D X.x.s.ext j b → b ∉ X0.x.s.D := by
      intro b hu
      induction hu with
      | intro x hx he hs hp ih =>
        intro hx0
        rcases hs with rfl | ⟨y, hy, hyp⟩
        · exact hj0 hx0
        · rcases k.old.edges y hy (ih y hy hyp) x (rk x y hy hyp) with h | h
          · have := (k.J.typed.static x h).1
            omega
          · exact h hx0
    have hD : (stepDrop X j).x.s.D = X0.x.s.D := by
      classical
      simp only [stepDrop, Spec.drop, hext]
      rw [hL, List.filter_append]
      have h1 : X0.x.s.D.filter (fun x => ¬ Unref X.x.s.kids (X0.x.s.D ++ L) X.x.s.ext j x) = X0.x.s.D := by
        refine List.filter_eq_self.2 fun a ha => ?_
        rw [← hL]
        simp only [decide_eq_true_eq]
        exact fun h => old a h ha
      have h2 : L.filter (fun x => ¬ Unref X.x.s.kids (X0.x.s.D ++ L) X.x.s.ext j x) = [] := by
        refine List.filter_eq_nil_iff.2 fun a ha => ?_
        rw [← hL]
        simp only [decide_eq_true_eq, not_not]
        have hn := k.J.nodup
        rw [hL] at hn
        exact new _ a (Nat.lt_succ_self _) (by rw [hL]; exact List.mem_append_right _ ha)
          fun h => (List.nodup_append.1 hn).2.2 a h a ha rfl
      rw [h1, h2, List.append_nil]
    refine ⟨H.on c, by simp only [jsonDel, k.J.single, e, Res.map_ok', Option.map_some], fin _ _ J' (fun x => by rw [hD]) ?_⟩
    refine kept (l := 0) (r := r) J0 J' ⟨⟨[], by rw [hD]; simp, Nat.le_refl _⟩, ?_, k.old.kids, k.old.maps, k.old.kind, ?_, ?_, k.old.static,
      ?_⟩
    · exact hext.trans k.old.ext
    · intro y hy hn
      rw [hD] at hy
      exact absurd hy hn
    · intro s hs
      refine Nat.le_trans ?_ (k.old.rcs s hs)
      rw [Spec.rc, Spec.rc, hD, hL]
      simp only [stepDrop, Spec.drop, hext]
      rw [refs_append]
      omega
    · intro y hy
      refine Nat.le_trans ?_ (k.old.few y hy)
      rw [Spec.rc, Spec.rc, hD, hL]
      simp only [stepDrop, Spec.drop, hext]
      rw [refs_append]
      omega

/-- `cee_del` of the document: all that is new is freed -/
theorem doc_del (J0 : JG sg E.eqv oth X0 H0) (k : Core sg E.eqv oth X0 X H idx n l r) {j : Nat} (hj : j ∈ X.x.s.D)
    (o : Own sg X0 X [] (dyn sg j) 0) {fuel : Nat} (hf : X0.x.s.D.length + l ≤ fuel) :
    ∃ H', jsonDel fuel H (some j) = .ok (some H') ∧ (∀ x, H'.m.h.live x = H0.m.h.live x) ∧ Kept sg H0 H' := by
  obtain ⟨H', h1, h2, h3, -⟩ := doc_del_good J0 k hj o hf
  exact ⟨H', h1, h2, h3⟩

end
end Verif.Rc.ParseProps
