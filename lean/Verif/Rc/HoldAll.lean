import Verif.Rc.ServeAll

/-!
# C136: any number of documents at the same time

A program that reads all texts, keeps every document, and prints them only then.  The program is not in /repo: it is a caller assumed
here, near to cee-json/test/tester2.c:17-42, which is meant to read a second text while the document of the first is still there.
-/

namespace Verif.Rc
open Verif.Json (Byte Tok Atom Val Libc Syn Spells nextToken compact nsteps)

/-- For each text in turn: `cee_json_parsex` with `force_eof` (parser.c:32-261); the document is kept, and there is none if the answer
is `EINVAL`.  `none` in the outer `Option`: one of the bounds is too small. -/
def loadAll [Libc] (E : PEnv) (fuel N : Nat) : JHeap → List (List Byte) → Res (Option (JHeap × List (Option Nat)))
  | H, [] => .ok (some (H, []))
  | H, text :: texts =>
    bindO (memParse E fuel nextToken N true H ⟨text ++ [0], text.length, 0⟩) fun (r, s) =>
    match r with
    | some (some j) => bindO (loadAll E fuel N s.H texts) fun (H1, js) => .ok (some (H1, some j :: js))
    | _ => bindO (loadAll E fuel N s.H texts) fun (H1, js) => .ok (some (H1, none :: js))

/-- For each document in turn: `cee_json_asprint` (snprint.c:354-363), after which `cee_del` (cee-common.c:24-29) is called on the text,
and the document is kept.  The allocator starts anew at `n0` each time. -/
def printAll [Libc] (E : PEnv) (fuel n n0 : Nat) : JHeap → List (Option Nat) → Res (Option (JHeap × List (Option (List (Option Byte)))))
  | H, [] => .ok (some (H, []))
  | H, none :: js => bindO (printAll E fuel n n0 H js) fun (H1, rs) => .ok (some (H1, none :: rs))
  | H, some j :: js =>
    bindO (memAsprint E.printer fuel n false H n0 (some j)) fun (H1, p, b, len) =>
    bindO (mdel fuel H1 p) fun H2 =>
    bindO (printAll E fuel n n0 H2 js) fun (H3, rs) => .ok (some (H3, some (b.take len) :: rs))

/-- `cee_del` (cee-common.c:24-29) of each document in turn -/
def delAll (fuel : Nat) : JHeap → List Nat → Res (Option JHeap)
  | H, [] => .ok (some H)
  | H, j :: js => bindO (jsonDel fuel H (some j)) fun H1 => delAll fuel H1 js

namespace RoundProps
open Verif.Rc.Props Verif.Rc.MapProps Verif.Rc.JsonProps Verif.Rc.ParseProps
open Verif.Chain (upd)
open Verif.Rc.PrintProps (Over Sane AlFree Adds shows showsL showsF atomIn KeyOk blobs over_refl)

section
variable {sg oth : Nat → Bool} {eqv : Nat → Nat → Bool} {E : PEnv} {Q : QEnv} {X : JS} {H H' : JHeap}

theorem held_kept (k : Kept sg H H') {j : Nat} (hj : H.m.h.live j = true) : H'.held j = H.held j := by
  rw [JHeap.held, JHeap.held, k.kids j hj]

/-- a value that can be read can be read as long as its blocks are kept -/
theorem reads_kept (k : Kept sg H H') (v : Val) : ∀ j, reads E H v j → reads E H' v j := by
  induction v using Val.ind with
  | h0 a =>
    intro j h
    rw [reads] at h ⊢
    obtain ⟨hj, h⟩ := h
    refine ⟨k.live j hj, ?_⟩
    cases a with
    | bool b => cases b <;> exact h
    | null => exact h
    | undef => exact h
    | strn t => exact h
    | blob t => exact h
    | _ =>
      obtain ⟨h1, b, h2, h3, h4⟩ := h
      exact ⟨by rw [k.tag j hj]; exact h1, b, by rw [held_kept k hj]; exact h2, k.live b h3, h4⟩
  | ha xs ih =>
    intro j h
    rw [reads] at h ⊢
    obtain ⟨hj, h1, l, vs, h2, h3, h4, h5⟩ := h
    refine ⟨k.live j hj, by rw [k.tag j hj]; exact h1, l, vs, by rw [held_kept k hj]; exact h2, k.live l h3, by rw [k.kids l h3]; exact h4, ?_⟩
    clear h4
    induction xs generalizing vs with
    | nil => cases vs with
      | nil => rw [readsL]; trivial
      | cons v vs => simp [readsL] at h5
    | cons x xs ihx => cases vs with
      | nil => simp [readsL] at h5
      | cons v vs =>
        rw [readsL] at h5 ⊢
        exact ⟨ih x (by simp) v h5.1, ihx (fun y hy => ih y (List.mem_cons_of_mem _ hy)) vs h5.2⟩
  | ho xs ih =>
    intro j h
    rw [reads] at h ⊢
    obtain ⟨hj, h1, l, vs, h2, h3, h4, h4', h5⟩ := h
    refine ⟨k.live j hj, by rw [k.tag j hj]; exact h1, l, vs, by rw [held_kept k hj]; exact h2, k.live l h3, by rw [k.maps l h3]; exact h4,
      by rw [k.maps l h3]; exact h4', ?_⟩
    clear h4 h4'
    induction xs generalizing vs with
    | nil => cases vs with
      | nil => rw [readsF]; trivial
      | cons v vs => simp [readsF] at h5
    | cons x xs ihx => cases vs with
      | nil => simp [readsF] at h5
      | cons v vs =>
        obtain ⟨key, x⟩ := x
        rw [readsF] at h5 ⊢
        exact ⟨k.live _ h5.1, h5.2.1, ih (key, x) (by simp) v.2 h5.2.2.1,
          ihx (fun y hy => ih y (List.mem_cons_of_mem _ hy)) vs h5.2.2.2⟩

/-- the map of an object -/
theorem map_of (J : JG sg eqv oth X H) {j m : Nat} (hj : H.m.h.live j = true) (ht : H.tag j = some .object) (hm : H.held j = some m) :
    X.kind m = .map := by
  have hjD := (J.live j).1 hj
  have hk : X.kind j = .json .object := by
    have := J.tag j hjD
    rw [ht] at this
    cases h : X.kind j with
    | json t => rw [h] at this; simp only [Kind.tag, Option.some.injEq] at this; rw [← this]
    | _ => rw [h] at this; simp [Kind.tag] at this
  have sh := J.typed.shape j hjD
  rw [hk] at sh
  obtain ⟨q, hq, hqk⟩ := sh
  rw [held_of J hq] at hm
  cases hm
  exact hqk

/-- the keys of objects are not static -/
theorem keys_dynamic (J : JG sg eqv oth X H) {j m : Nat} (hj : H.m.h.live j = true) (ht : H.tag j = some .object) (hm : H.held j = some m)
    (hl : H.m.h.live m = true) {p : Nat × Ptr} (hp : p ∈ (H.m.maps m).pairs) : sg p.1 = false := by
  have shm := J.typed.shape m ((J.live m).1 hl)
  rw [map_of J hj ht hm] at shm
  rw [J.maps] at hp
  have hr := (shm.2.2 p hp).1
  cases h : sg p.1 with
  | false => rfl
  | true =>
    obtain ⟨t, h, -⟩ := (J.typed.static _ h).2
    rw [hr] at h
    cases h

/-- a value that can be printed can be printed as long as its blocks are kept -/
theorem shows_kept (J : JG sg eqv oth X H) (k : Kept sg H H') (v : Val) : ∀ j, shows Q H v j → shows Q H' v j := by
  induction v using Val.ind with
  | h0 a =>
    intro j h
    rw [shows] at h ⊢
    obtain ⟨hj, h⟩ := h
    refine ⟨k.live j hj, ?_⟩
    cases a with
    | bool b => exact ⟨by rw [k.tag j hj]; exact h.1, h.2⟩
    | null => exact (k.tag j hj).trans h
    | undef => exact (k.tag j hj).trans h
    | strn t => exact ⟨by rw [k.tag j hj]; exact h.1, h.2⟩
    | _ =>
      obtain ⟨h1, b, h2, h3, h4⟩ := h
      exact ⟨by rw [k.tag j hj]; exact h1, b, by rw [held_kept k hj]; exact h2, k.live b h3, h4⟩
  | ha xs ih =>
    intro j h
    rw [shows] at h ⊢
    obtain ⟨hj, h1, l, vs, h2, h3, h4, h5⟩ := h
    refine ⟨k.live j hj, by rw [k.tag j hj]; exact h1, l, vs, by rw [held_kept k hj]; exact h2, k.live l h3, by rw [k.kids l h3]; exact h4, ?_⟩
    clear h4
    induction xs generalizing vs with
    | nil => cases vs with
      | nil => rw [showsL]; trivial
      | cons v vs => simp [showsL] at h5
    | cons x xs ihx => cases vs with
      | nil => simp [showsL] at h5
      | cons v vs =>
        rw [showsL] at h5 ⊢
        exact ⟨ih x (by simp) v h5.1, ihx (fun y hy => ih y (List.mem_cons_of_mem _ hy)) vs h5.2⟩
  | ho xs ih =>
    intro j h
    rw [shows] at h ⊢
    obtain ⟨hj, h1, m, ps, h2, h3, h4, h4', hn, h5⟩ := h
    have dy : ∀ p ∈ ps, sg p.1 = false := fun p hp =>
      keys_dynamic J hj h1 h2 h3 (p := (p.1, some p.2)) (h4'.mem_iff.2 (List.mem_map.2 ⟨p, hp, rfl⟩))
    refine ⟨k.live j hj, by rw [k.tag j hj]; exact h1, m, ps, by rw [held_kept k hj]; exact h2, k.live m h3, by rw [k.maps m h3]; exact h4,
      by rw [k.maps m h3]; exact h4', hn, ?_⟩
    clear h4 h4' hn
    induction xs generalizing ps with
    | nil => cases ps with
      | nil => rw [showsF]; trivial
      | cons v vs => simp [showsF] at h5
    | cons x xs ihx => cases ps with
      | nil => simp [showsF] at h5
      | cons p ps =>
        obtain ⟨key, x⟩ := x
        rw [showsF] at h5 ⊢
        obtain ⟨⟨g1, g2, g3⟩, g4, g5⟩ := h5
        have hd := dy p (by simp)
        have he := k.deg p.1 g2.live hd
        exact ⟨⟨g1, ⟨k.live _ g2.live, by rw [k.ret p.1 g2.live hd]; exact g2.ret, by rw [he]; exact g2.pos⟩, by rw [he]; exact g3⟩,
          ih (key, x) (by simp) p.2 g4,
          ihx (fun y hy => ih y (List.mem_cons_of_mem _ hy)) ps g5 (fun q hq => dy q (List.mem_cons_of_mem _ hq))⟩

theorem kept_over (o : Over H H' [] []) : Kept sg H H' :=
  ⟨fun x hx => (o.live x).2 (.inl hx), o.kids, fun x _ => by rw [o.maps], o.tag, fun x hx _ => by simpa using o.deg x hx,
    fun x hx _ => o.ret x hx⟩

theorem refs_ex {kids : Nat → List Edge} {D : List Nat} {y : Nat} (h : 0 < refs kids D .rc y) : ∃ z ∈ D, (Policy.rc, some y) ∈ kids z := by
  by_contra hno
  push_neg at hno
  have : refs kids D .rc y = 0 := by
    rw [refs, List.sum_eq_zero]
    intro n hn
    obtain ⟨z, hz, rfl⟩ := List.mem_map.1 hn
    exact List.count_eq_zero.2 (hno z hz)
  omega

/-- there is no cycle among the new blocks -/
def Acyc (X0 X : JS) : Prop := ∃ f : Nat → Nat, ∀ y ∈ X.x.s.D, y ∉ X0.x.s.D → ∀ b, (Policy.rc, some b) ∈ X.x.s.kids y → b ∉ X0.x.s.D → f y < f b

/-- the program holds no references to new blocks -/
theorem new_ext {X0 : JS} {H0 : JHeap} {l r : Nat} (J0 : JG sg eqv oth X0 H0) (g : Grown sg X0 X l r) {b : Nat} (hb : b ∉ X0.x.s.D) :
    X.x.s.ext b = 0 := by
  obtain ⟨A0, G0, -⟩ := J0.mem
  rw [g.ext]
  rcases Nat.eq_zero_or_pos (X0.x.s.ext b) with h | h
  · exact h
  · exact absurd (G0.rel.ext b h) hb

/-- if something refers to each new block, then there is none -/
theorem none_new {X0 : JS} {H0 : JHeap} {l r : Nat} (J0 : JG sg eqv oth X0 H0) (g : Grown sg X0 X l r) (a : Acyc X0 X)
    (h : ∀ b ∈ X.x.s.D, b ∉ X0.x.s.D → X.x.s.rc b ≠ 0) : ∀ b ∈ X.x.s.D, b ∈ X0.x.s.D := by
  obtain ⟨A0, G0, -⟩ := J0.mem
  obtain ⟨f, hf⟩ := a
  suffices key : ∀ n b, f b = n → b ∈ X.x.s.D → b ∈ X0.x.s.D from fun b hb => key _ b rfl hb
  intro n
  induction n using Nat.strongRecOn with
  | _ n ih =>
    rintro b rfl hb
    by_contra hb0
    have h1 := h b hb hb0
    rw [Spec.rc, new_ext J0 g hb0] at h1
    obtain ⟨y, hy, hyb⟩ := refs_ex (Nat.pos_of_ne_zero (by simpa using h1))
    by_cases hy0 : y ∈ X0.x.s.D
    · rw [g.kids y hy0] at hyb
      exact hb0 (Good.tgt G0 hy0 hyb)
    · exact hy0 (ih (f y) (hf y hy hy0 b hyb hb0) y rfl hy)

theorem acyc_trans {X0 X1 X2 : JS} {H1 : JHeap} {l1 r1 l2 r2 : Nat} (J1 : JG sg eqv oth X1 H1) (g1 : Grown sg X0 X1 l1 r1)
    (g2 : Grown sg X1 X2 l2 r2) (a1 : Acyc X0 X1) (a2 : Acyc X1 X2) : Acyc X0 X2 := by
  obtain ⟨A, G, -⟩ := J1.mem
  obtain ⟨f1, h1⟩ := a1
  obtain ⟨f2, h2⟩ := a2
  classical
  refine ⟨fun y => if y ∈ X1.x.s.D then f1 y else f2 y, fun y hy hy0 b hb hb0 => ?_⟩
  by_cases hy1 : y ∈ X1.x.s.D
  · rw [g2.kids y hy1] at hb
    simp only [hy1, Good.tgt G hy1 hb, if_true]
    exact h1 y hy1 hy0 b hb hb0
  · rcases g2.edges y hy hy1 b hb with h | h
    · exact absurd (g1.static b h) hb0
    · simp only [hy1, h, if_false]
      exact h2 y hy hy1 b hb h

theorem grown_refl {X0 : JS} (J0 : JG sg eqv oth X0 H) : Grown sg X0 X0 0 0 := by
  obtain ⟨A, G, -⟩ := J0.mem
  refine ⟨⟨[], by simp, by simp⟩, rfl, fun _ _ => rfl, fun _ _ => rfl, fun _ _ => rfl, fun y hy hn => absurd hy hn, fun _ _ => Nat.le_refl _,
    fun s hs => J0.staticIn hs, fun y hy => ?_⟩
  have he : X0.x.s.ext y = 0 := by
    rcases Nat.eq_zero_or_pos (X0.x.s.ext y) with h | h
    · exact h
    · exact absurd (G.rel.ext y h) hy
  have hr : refs X0.x.s.kids X0.x.s.D .rc y = 0 := by
    rcases Nat.eq_zero_or_pos (refs X0.x.s.kids X0.x.s.D .rc y) with h | h
    · exact h
    · obtain ⟨z, hz, hzy⟩ := refs_ex h
      exact absurd (Good.tgt G hz hzy) hy
  rw [Spec.rc]
  omega

theorem _root_.Verif.Rc.ParseProps.Grown.more {X0 : JS} {l r l' r' : Nat} (g : Grown sg X0 X l r) (h : l ≤ l') (h' : r ≤ r') :
    Grown sg X0 X l' r' := by
  obtain ⟨L, hL, hl⟩ := g.dom
  exact ⟨⟨L, hL, by omega⟩, g.ext, g.kids, g.maps, g.kind, g.edges, fun s hs => by have := g.rcs s hs; omega, g.static, g.few⟩

theorem grown_trans {X0 X1 X2 : JS} {l1 r1 l2 r2 : Nat} (hn : X2.x.s.D.Nodup) (a : Grown sg X0 X1 l1 r1) (b : Grown sg X1 X2 l2 r2) :
    Grown sg X0 X2 (l1 + l2) (r1 + r2) := by
  obtain ⟨L1, hL1, hl1⟩ := a.dom
  obtain ⟨L2, hL2, hl2⟩ := b.dom
  refine ⟨⟨L1 ++ L2, by rw [hL2, hL1, List.append_assoc], by rw [List.length_append]; omega⟩, b.ext.trans a.ext,
    fun y hy => (b.kids y (a.sub hy)).trans (a.kids y hy), fun y hy => (b.maps y (a.sub hy)).trans (a.maps y hy),
    fun y hy => (b.kind y (a.sub hy)).trans (a.kind y hy), fun y hy h0 c hc => ?_, fun s hs => ?_, a.static, fun y hy => ?_⟩
  · by_cases h1 : y ∈ X1.x.s.D
    · rw [b.kids y h1] at hc
      exact a.edges y h1 h0 c hc
    · exact (b.edges y hy h1 c hc).imp id fun h h' => h (a.sub h')
  · have := a.rcs s hs
    have := b.rcs s hs
    omega
  · by_cases h1 : y ∈ X1.x.s.D
    · have hs : sg y = false := by
        cases h : sg y with
        | false => rfl
        | true => exact absurd (a.static y h) hy
      rw [b.rc hn h1 hs]
      exact a.few y hy
    · exact b.few y h1

/-- after `EINVAL`, too, nothing that is new refers to old blocks -/
theorem reject_core {σ : Type} {next : σ → Res (Tok × σ)} {fuel N : Nat} {forceEof : Bool} {X0 : JS} (al : AlOk E) (st : Statics E sg)
    (J0 : JG sg E.eqv oth X0 H) (t : σ) (hok : Lits next t) (hf : X0.x.s.D.length + (2 + 4 * N) ≤ fuel) {t9 : σ}
    (hp : Verif.Json.parseWith next N forceEof t = .ok (some (.einval, t9))) :
    ∃ s' X m, memParse E fuel next N forceEof H t = .ok (some (none, s')) ∧ JG sg E.eqv oth X s'.H ∧ Grown sg X0 X (3 + 4 * N) m := by
  have sim := run_sim (next := next) (fuel := fuel) al st N (memInit E H) Verif.Json.pinit t 2 0 0 hok (rel_init al J0) hf
  revert sim hp
  rw [Verif.Json.parseWith, memParse]
  cases hrun : Verif.Json.prun next N Verif.Json.pinit t with
  | ub => intro hp; cases hp
  | segv => intro hp; cases hp
  | ok o => cases o with
    | none => intro hp; cases hp
    | some q =>
      obtain ⟨p, t1⟩ := q
      rintro hp ⟨s, ts, d', e, R, -⟩
      simp only [Res.bind_ok, Verif.Json.pfinish] at hp
      simp only [e, bindO, Res.bind_ok]
      have hst : s.st = p.st := by
        obtain ⟨-, -, -, h, -⟩ := R
        exact h
      by_cases hd : p.st = .done
      · obtain ⟨H1, X1, H2, X2, idx, f, j, v, e1, k1, e2, e3, e4, e5, k2, o, hj, hh, ot⟩ := finish_done al R hd (fuel := fuel) (by omega)
        cases forceEof with
        | false => simp [hd, Res.map] at hp
        | true =>
          simp only [hd, if_true] at hp
          cases hn : next t1 with
          | ub => simp [hn, Res.map] at hp
          | segv => simp [hn, Res.map] at hp
          | ok ct =>
            obtain ⟨c, t2⟩ := ct
            by_cases hc : c = .eof
            · simp [hn, hc, Res.map] at hp
            · refine ⟨(readTok E { s with H := H1 } c).1, ?_⟩
              have e0 : memFinish E fuel next true s t1 = .ok (some (none, (readTok E { s with H := H1 } c).1)) := by
                simp only [memFinish, e1, bindO, Res.bind_ok, hst, hd, if_true, hn, hc, if_false]
              cases c with
              | str u =>
                obtain ⟨f1, -⟩ := new_fresh (s := { s with H := H1 }) al k1.J u
                obtain ⟨X3, k3, o3, -⟩ := op_raw (eqvE E) k1 ot f1 0
                exact ⟨X3, _, e0, k3.J, k3.old.more (by omega) (Nat.le_refl _)⟩
              | _ => exact ⟨X1, _, e0, k1.J, k1.old.more (by omega) (Nat.le_refl _)⟩
      · obtain ⟨H1, X1, idx1, u, e1, k1, o1⟩ := finish_stack R hd (fuel := fuel) (by omega)
        refine ⟨{ s with H := H1 }, X1, _, ?_, k1.J, k1.old.more (by omega) (Nat.le_refl _)⟩
        simp only [memFinish, e1, bindO, Res.bind_ok, hst, hd, if_false]

/-- nothing was changed but that blocks are gone -/
structure Fewer (H H' : JHeap) : Prop where
  live : ∀ x, H'.m.h.live x = true → H.m.h.live x = true
  kids : H'.m.h.kids = H.m.h.kids
  maps : H'.m.maps = H.m.maps
  tag : ∀ x, H'.m.h.live x = true → H'.tag x = H.tag x

theorem fewer_held (w : Fewer H H') (j : Nat) : H'.held j = H.held j := by
  rw [JHeap.held, JHeap.held, w.kids]

/-- a value whose root is still there can be read as before -/
theorem reads_fewer {X' : JS} (J' : JG sg E.eqv oth X' H') (w : Fewer H H') (v : Val) :
    ∀ j, H'.m.h.live j = true → reads E H v j → reads E H' v j := by
  obtain ⟨A, G, -⟩ := J'.mem
  have down : ∀ {y b : Nat}, H'.m.h.live y = true → (Policy.rc, some b) ∈ H'.m.h.kids y → H'.m.h.live b = true := fun hy hb => by
    rw [J'.kids] at hb
    exact (J'.live _).2 (Good.tgt G ((J'.live _).1 hy) hb)
  have part : ∀ {j b : Nat}, H'.m.h.live j = true → H'.held j = some b → H'.m.h.live b = true := fun {j b} hj hb => by
    rw [JHeap.held] at hb
    split at hb
    · next pol p h =>
      subst hb
      have hm : (pol, some b) ∈ X'.x.s.kids j := by rw [← J'.kids, h]; simp
      obtain ⟨v, hv⟩ := J'.typed.edges G ((J'.live _).1 hj) hm
      cases hv
      exact down hj (by rw [h]; simp)
    · cases hb
  induction v using Val.ind with
  | h0 a =>
    intro j hj h
    rw [reads] at h ⊢
    replace h := h.2
    refine ⟨hj, ?_⟩
    cases a with
    | bool b => cases b <;> exact h
    | null => exact h
    | undef => exact h
    | strn t => exact h
    | blob t => exact h
    | _ =>
      obtain ⟨h1, b, h2, -, h4⟩ := h
      rw [← fewer_held w] at h2
      exact ⟨by rw [w.tag j hj]; exact h1, b, h2, part hj h2, h4⟩
  | ha xs ih =>
    intro j hj h
    rw [reads] at h ⊢
    obtain ⟨-, h1, l, vs, h2, -, h4, h5⟩ := h
    rw [← fewer_held w] at h2
    rw [← w.kids] at h4
    have hl := part hj h2
    have hvs : ∀ v ∈ vs, H'.m.h.live v = true := fun v hv => down hl (by rw [h4]; exact List.mem_map.2 ⟨v, hv, rfl⟩)
    refine ⟨hj, by rw [w.tag j hj]; exact h1, l, vs, h2, hl, h4, ?_⟩
    clear h4
    induction xs generalizing vs with
    | nil => cases vs with
      | nil => rw [readsL]; trivial
      | cons v vs => simp [readsL] at h5
    | cons x xs ihx => cases vs with
      | nil => simp [readsL] at h5
      | cons v vs =>
        rw [readsL] at h5 ⊢
        exact ⟨ih x (by simp) v (hvs v (by simp)) h5.1,
          ihx (fun y hy => ih y (List.mem_cons_of_mem _ hy)) vs h5.2 (fun u hu => hvs u (List.mem_cons_of_mem _ hu))⟩
  | ho xs ih =>
    intro j hj h
    rw [reads] at h ⊢
    obtain ⟨-, h1, m, ps, h2, -, h4, h4', h5⟩ := h
    rw [← fewer_held w] at h2
    rw [← w.maps] at h4 h4'
    rw [← w.tag j hj] at h1
    have hm := part hj h2
    have hps : ∀ p ∈ ps, H'.m.h.live p.1 = true ∧ H'.m.h.live p.2 = true := fun p hp => by
      have := obj_edges J' ((J'.live m).1 hm) (map_of J' hj h1 h2) (p := (p.1, some p.2))
        (by rw [← J'.maps, h4]; exact List.mem_map.2 ⟨p, hp, rfl⟩)
      rw [← J'.kids] at this
      exact ⟨down hm this.1, down hm this.2⟩
    refine ⟨hj, h1, m, ps, h2, hm, h4, h4', ?_⟩
    clear h4 h4'
    induction xs generalizing ps with
    | nil => cases ps with
      | nil => rw [readsF]; trivial
      | cons v vs => simp [readsF] at h5
    | cons x xs ihx => cases ps with
      | nil => simp [readsF] at h5
      | cons p ps =>
        obtain ⟨key, x⟩ := x
        rw [readsF] at h5 ⊢
        exact ⟨(hps p (by simp)).1, h5.2.1, ih (key, x) (by simp) p.2 (hps p (by simp)).2 h5.2.2.1,
          ihx (fun y hy => ih y (List.mem_cons_of_mem _ hy)) ps h5.2.2.2 (fun q hq => hps q (List.mem_cons_of_mem _ hq))⟩

/-- deleting one of several roots to which nothing refers: the others are still there, and what is old is -/
theorem root_del {X0 : JS} {H0 : JHeap} {l m : Nat} (J0 : JG sg eqv oth X0 H0) (J : JG sg eqv oth X H) (g : Grown sg X0 X l m) {j : Nat}
    (hj : j ∈ X.x.s.D) (hs : sg j = false) (hj0 : j ∉ X0.x.s.D) (hjr : X.x.s.rc j = 0) {fuel : Nat} (hf : X0.x.s.D.length + l ≤ fuel) :
    ∃ H' X', jsonDel fuel H (some j) = .ok (some H') ∧ JG sg eqv oth X' H' ∧ Grown sg X0 X' l m ∧ Fewer H H' ∧ H'.m.h.live j = false ∧
      (∀ i ∈ X.x.s.D, i ≠ j → X.x.s.rc i = 0 → i ∈ X'.x.s.D ∧ X'.x.s.rc i = 0) ∧
      (∀ b ∈ X'.x.s.D, b ∉ X0.x.s.D → X'.x.s.rc b = 0 → X.x.s.rc b = 0) ∧ ∀ y, X'.x.s.rc y ≤ X.x.s.rc y := by
  obtain ⟨A, G, -⟩ := J.mem
  obtain ⟨L, hL, hl⟩ := g.dom
  have rk : ∀ b, ∀ y ∈ X.x.s.D, Pts X.x.s.kids y b → (Policy.rc, some b) ∈ X.x.s.kids y := by
    rintro b y hy ⟨pol, -, hm⟩
    obtain ⟨v, hv⟩ := J.typed.edges G hy hm
    cases hv
    exact hm
  obtain ⟨c, e, J'⟩ := (drop_ok J hj hs (fuel := fuel) (by rw [hL]; simp; omega)).2 hjr
  have he : X.x.s.ext j = 0 := by rw [Spec.rc] at hjr; omega
  have hext : upd X.x.s.ext j (X.x.s.ext j - 1) = X.x.s.ext := by
    funext y
    by_cases hy : y = j
    · subst hy; simp [upd, he]
    · simp [upd, hy]
  have old : ∀ b, Unref X.x.s.kids X.x.s.D X.x.s.ext j b → b ∉ X0.x.s.D := by
    intro b hu
    induction hu with
    | intro x hx he hs hp ih =>
      intro hx0
      rcases hs with rfl | ⟨y, hy, hyp⟩
      · exact hj0 hx0
      · rcases g.edges y hy (ih y hy hyp) x (rk x y hy hyp) with h | h
        · have := (J.typed.static x h).1
          omega
        · exact h hx0
  have alone : ∀ i, X.x.s.rc i = 0 → ∀ y ∈ X.x.s.D, ¬ Pts X.x.s.kids y i := fun i hi y hy hp => by
    have := refs_pos hy (rk i y hy hp)
    rw [Spec.rc] at hi
    omega
  have self : Unref X.x.s.kids X.x.s.D X.x.s.ext j j := .intro j hj he (.inl rfl) fun y hy hp => absurd hp (alone j hjr y hy)
  have hsubD : ∀ y, y ∈ (stepDrop X j).x.s.D ↔ y ∈ X.x.s.D ∧ ¬ Unref X.x.s.kids X.x.s.D X.x.s.ext j y := fun y => by
    simp only [stepDrop, Spec.drop, hext, List.mem_filter, decide_eq_true_eq]
  have hD : ∃ L', (stepDrop X j).x.s.D = X0.x.s.D ++ L' ∧ L'.Sublist L := by
    classical
    refine ⟨L.filter (fun x => ¬ Unref X.x.s.kids X.x.s.D X.x.s.ext j x), ?_, List.filter_sublist⟩
    simp only [stepDrop, Spec.drop, hext]
    have h1 : X0.x.s.D.filter (fun x => ¬ Unref X.x.s.kids X.x.s.D X.x.s.ext j x) = X0.x.s.D := by
      refine List.filter_eq_self.2 fun a ha => ?_
      simp only [decide_eq_true_eq]
      exact fun h => old a h ha
    conv_lhs => rw [hL]
    rw [List.filter_append, ← hL, h1]
  obtain ⟨L', hL', hsub⟩ := hD
  have rcle : ∀ y, (stepDrop X j).x.s.rc y ≤ X.x.s.rc y := by
    intro y
    rw [Spec.rc, Spec.rc, hL', hL]
    simp only [stepDrop, Spec.drop, hext]
    have := refs_sublist X.x.s.kids .rc y (List.Sublist.append (List.Sublist.refl X0.x.s.D) hsub)
    omega
  refine ⟨H.on c, _, by simp only [jsonDel, J.single, e, Res.map_ok', Option.map_some], J', ?_, ⟨fun x hx => ?_, ?_, ?_, fun x _ => rfl⟩, ?_,
    fun i hi hne hr => ⟨(hsubD i).2 ⟨hi, fun hu => ?_⟩, Nat.le_zero.1 (hr ▸ rcle i)⟩, fun b hb hb0 hr => ?_, rcle⟩
  · refine ⟨⟨L', hL', Nat.le_trans hsub.length_le hl⟩, hext.trans g.ext, g.kids, g.maps, g.kind, ?_, ?_, g.static, ?_⟩
    · intro y hy hn b hb
      exact g.edges y ((hsubD y).1 hy).1 hn b hb
    · intro s hs
      exact Nat.le_trans (rcle s) (g.rcs s hs)
    · intro y hy
      exact Nat.le_trans (rcle y) (g.few y hy)
  · exact (J.live x).2 ((hsubD x).1 ((J'.live x).1 hx)).1
  · rw [J'.kids, J.kids]; rfl
  · rw [J'.maps, J.maps]; rfl
  · cases h : (H.on c).m.h.live j with
    | false => rfl
    | true => exact absurd self ((hsubD j).1 ((J'.live j).1 h)).2
  · cases hu with
    | intro _ _ _ hs _ =>
      rcases hs with h | ⟨y, hy, hp⟩
      · exact hne h
      · exact alone i hr y hy hp
  · obtain ⟨hbD, hbu⟩ := (hsubD b).1 hb
    have hbe := new_ext J0 g hb0
    by_contra h
    rw [Spec.rc, hbe] at h
    obtain ⟨y, hy, hyb⟩ := refs_ex (Nat.pos_of_ne_zero (by simpa using h))
    refine hbu (.intro b hbD hbe (.inr ⟨y, hy, .rc, by simp, hyb⟩) fun z hz hp => ?_)
    by_contra hzu
    have := refs_pos ((hsubD z).2 ⟨hz, hzu⟩) (rk b z hz hp)
    rw [Spec.rc] at hr
    have h2 : refs X.x.s.kids (stepDrop X j).x.s.D .rc b = refs (stepDrop X j).x.s.kids (stepDrop X j).x.s.D .rc b := rfl
    omega

/-- deleting several of them, in any order -/
theorem roots_del {X0 : JS} {H0 : JHeap} {l m : Nat} {fuel : Nat} (J0 : JG sg eqv oth X0 H0) (hf : X0.x.s.D.length + l ≤ fuel) (ds : List Nat) :
    ∀ {X : JS} {H : JHeap}, JG sg eqv oth X H → Grown sg X0 X l m →
      (∀ d ∈ ds, d ∈ X.x.s.D ∧ (sg d = true ∨ d ∉ X0.x.s.D ∧ X.x.s.rc d = 0)) → ds.Pairwise (fun a b => a = b → sg a = true) →
    ∃ H' X', delAll fuel H ds = .ok (some H') ∧ JG sg eqv oth X' H' ∧ Grown sg X0 X' l m ∧ Fewer H H' ∧
      (∀ d ∈ ds, sg d = false → H'.m.h.live d = false) ∧
      (∀ i ∈ X.x.s.D, i ∉ ds → X.x.s.rc i = 0 → i ∈ X'.x.s.D) ∧ ∀ b ∈ X'.x.s.D, b ∉ X0.x.s.D → X'.x.s.rc b = 0 → X.x.s.rc b = 0 := by
  induction ds with
  | nil =>
    intro X H J g _ _
    exact ⟨H, X, rfl, J, g, ⟨fun _ h => h, rfl, rfl, fun _ _ => rfl⟩, by simp, fun i hi _ _ => hi, fun _ _ _ h => h⟩
  | cons d ds ih =>
    intro X H J g h hp
    obtain ⟨hp1, hp2⟩ := List.pairwise_cons.1 hp
    obtain ⟨hd, hd'⟩ := h d (by simp)
    cases hs : sg d with
    | true =>
      obtain ⟨H', X', e, J', g', w, dead, rest, cl⟩ := ih J g (fun a ha => h a (List.mem_cons_of_mem _ ha)) hp2
      refine ⟨H', X', ?_, J', g', w, fun a ha hsa => ?_, fun i hi hn hr => rest i hi (fun h => hn (List.mem_cons_of_mem _ h)) hr, cl⟩
      · have e1 : jsonDel fuel H (some d) = .ok (some H) := by
          rw [jsonDel, delWith, if_pos ((J.live d).2 hd), J.single]
          cases fuel <;> simp only [traceS, hs, if_true] <;> rfl
        rw [delAll, e1]
        exact e
      · rcases List.mem_cons.1 ha with rfl | ha
        · rw [hs] at hsa; cases hsa
        · exact dead a ha hsa
    | false =>
      have hd' := hd'.resolve_left (by rw [hs]; simp)
      obtain ⟨H1, X1, e1, J1, g1, w1, dead1, rest1, cl1, -⟩ := root_del J0 J g hd hs hd'.1 hd'.2 hf
      obtain ⟨H', X', e, J', g', w, dead, rest, cl⟩ := ih J1 g1 (fun a ha => by
        obtain ⟨q1, q2⟩ := h a (List.mem_cons_of_mem _ ha)
        by_cases hsa : sg a = true
        · exact ⟨J1.staticIn hsa, .inl hsa⟩
        · have q2 := q2.resolve_left hsa
          have hne : a ≠ d := fun h => by
            have := hp1 a ha h.symm
            rw [hs] at this; cases this
          obtain ⟨r1, r2⟩ := rest1 a q1 hne q2.2
          exact ⟨r1, .inr ⟨q2.1, r2⟩⟩) hp2
      refine ⟨H', X', by rw [delAll, e1]; exact e, J', g', ⟨fun x hx => w1.live x (w.live x hx), w.kids.trans w1.kids, w.maps.trans w1.maps,
        fun x hx => (w.tag x hx).trans (w1.tag x (w.live x hx))⟩, fun a ha hsa => ?_, fun i hi hn hr => ?_,
        fun b hb hb0 hr => cl1 b ((J1.live b).1 (w.live b ((J'.live b).2 hb))) hb0 (cl b hb hb0 hr)⟩
      · rcases List.mem_cons.1 ha with rfl | ha
        · cases h : H'.m.h.live a with
          | false => rfl
          | true => rw [w.live a h] at dead1; cases dead1
        · exact dead a ha hsa
      · obtain ⟨r1, r2⟩ := rest1 i hi (fun h => hn (by simp [h])) hr
        exact rest i r1 (fun h => hn (List.mem_cons_of_mem _ h)) r2

end

/-- what is held for a text: its value, at a block that is in memory, or nothing if the text is no document -/
def Held [Libc] (E : PEnv) (H : JHeap) (text : List Byte) : Option Nat → Prop
  | some j => ∃ x, Reads text x ∧ reads E H x.val j
  | none => ¬ ∃ x, Reads text x

/-- what is held for a text can be printed -/
def Ready [Libc] (E : PEnv) (H : JHeap) (text : List Byte) : Option Nat → Prop
  | some j => ∃ x, Reads text x ∧ reads E H x.val j ∧ shows E.printer H x.val j ∧ blobs x.val = 0
  | none => ¬ ∃ x, Reads text x

section
variable [Libc] {sg oth : Nat → Bool} {E : PEnv} {X0 : JS} {H : JHeap} {fuel n N : Nat}

/-- what a text says is unique -/
theorem reads_unique {text : List Byte} (hl : text.length < 2 ^ 31) {x y : Syn} (hx : Reads text x) (hy : Reads text y) : x.val = y.val := by
  obtain ⟨_, h1, -⟩ := text_source hx.1 hl []
  obtain ⟨_, h2, -⟩ := text_source hy.1 hl []
  rcases yields_prefix h1 h2 with ⟨r, h⟩ | ⟨r, h⟩
  · exact (Verif.Json.uniq x y r [] (by rw [h, List.append_nil])).1
  · exact (Verif.Json.uniq y x r [] (by rw [h, List.append_nil])).1.symm

theorem Ready.held {text : List Byte} {r : Option Nat} (h : Ready E H text r) : Held E H text r := by
  cases r with
  | none => exact h
  | some j => obtain ⟨x, h1, h2, -⟩ := h; exact ⟨x, h1, h2⟩

theorem Ready.kept {H' : JHeap} (J : JG sg E.eqv oth X0 H) (k : Kept sg H H') {text : List Byte} {r : Option Nat} (h : Ready E H text r) :
    Ready E H' text r := by
  cases r with
  | none => exact h
  | some j => obtain ⟨x, h1, h2, h3, h4⟩ := h; exact ⟨x, h1, reads_kept k _ j h2, shows_kept J k _ j h3, h4⟩

/-- one text -/
theorem load_one (al : AlOk E) (st : Statics E sg) (J0 : JG sg E.eqv oth X0 H) (c : Consts E H) {text : List Byte} (h0 : 0 ∉ text)
    (hs : text.length + 1 < 2 ^ 31) (hb : text.length + 1 ≤ N) (hf : X0.x.s.D.length + (2 + 4 * N) ≤ fuel) :
    ∃ H1 X1 r m, JG sg E.eqv oth X1 H1 ∧ Grown sg X0 X1 (3 + 4 * N) m ∧ Consts E H1 ∧ Ready E H1 text r ∧
      (∀ j, r = some j → j ∈ X1.x.s.D ∧ (sg j = true ∨ j ∉ X0.x.s.D ∧ X1.x.s.rc j = 0)) ∧
      (¬ Wasteful text → Acyc X0 X1 ∧ ∀ b ∈ X1.x.s.D, b ∉ X0.x.s.D → X1.x.s.rc b = 0 → r = some b) ∧
      ((¬ ∃ x, Reads text x) → ∃ b ∈ X1.x.s.D, b ∉ X0.x.s.D ∧ X1.x.s.rc b = 0) ∧
      ∀ texts, loadAll E fuel N H (text :: texts) = bindO (loadAll E fuel N H1 texts) fun (H4, js) => .ok (some (H4, r :: js)) := by
  by_cases hx : ∃ x, Reads text x
  · obtain ⟨x, hx, hxd⟩ : ∃ x, Reads text x ∧ (¬ Wasteful text → distinct x) := by
      by_cases h : ∃ x, Reads text x ∧ distinct x
      · obtain ⟨x, h1, h2⟩ := h
        exact ⟨x, h1, fun _ => h2⟩
      · obtain ⟨x, hx⟩ := hx
        exact ⟨x, hx, fun hw => absurd h hw⟩
    have hshort : text.length < 2 ^ 31 := by omega
    have hlen := Verif.Json.spells_length hx.1
    obtain ⟨t', hy, he⟩ := text_source hx.1 hshort []
    obtain ⟨j, s', X, idx, l, r, e, k, hl, hj, hjn, hh', d, o, hd⟩ := parse_core_any (forceEof := true) al st J0 x (lits_text _) hy hx.2
      (fun _ => he) (by omega) hf
    have c' := consts_kept J0 st c k
    refine ⟨s'.H, X, some j, r, k.J, k.old.more (by omega) (Nat.le_refl _), c',
      ⟨x, hx, reads_of k.J x.val j hj hh', shows_of k c' x.val j hj hjn hh', no_blobs x.val j hh'⟩, ?_, fun hw => ⟨⟨_, k.rank⟩, fun b hb hb0 hr => ?_⟩,
      fun h => absurd ⟨x, hx⟩ h, fun texts => ?_⟩
    · rintro _ ⟨⟩
      refine ⟨hj, ?_⟩
      by_cases hsj : sg j = true
      · exact .inl hsj
      · obtain ⟨-, h1, h2, -⟩ := o.roots j (by simp [dyn, hsj])
        exact .inr ⟨h1, h2⟩
    · have := (o.clean (hd (hxd hw)) b hb hb0 hr).resolve_left (by simp)
      rw [dyn] at this
      split at this
      · cases this
      · rw [List.mem_singleton.1 this]
    · rw [loadAll, e]
      rfl
  · obtain ⟨t, e⟩ := Verif.Json.Props.C92_rejects text [] h0 (by simpa using hs) N (by simpa using hb) hx
    rw [Verif.Json.parsex] at e
    have safe := C106_safe (forceEof := true) al st J0 ⟨text ++ [0], text.length, 0⟩ (lits_text _) hf
    rw [e] at safe
    obtain ⟨s0, e0, -, -, lf⟩ := safe
    obtain ⟨s, X3, m, e, J3, g⟩ := reject_core (forceEof := true) al st J0 ⟨text ++ [0], text.length, 0⟩ (lits_text _) hf e
    have hk := kept J0 J3 g
    have key : ∀ z, sg z = true → s.H.tag z = H.tag z := fun z hz => hk.tag z ((J0.live z).2 (J0.staticIn hz))
    refine ⟨s.H, X3, none, m, J3, g,
      ⟨by rw [key _ st.yes]; exact c.yes, by rw [key _ st.no]; exact c.no, by rw [key _ st.null]; exact c.null, c.ne⟩, hx,
      (fun j h => by cases h), fun hw => absurd (fun ⟨x, h1, _⟩ => hx ⟨x, h1⟩) hw, fun _ => ?_, fun texts => ?_⟩
    · rw [e] at e0
      cases e0
      obtain ⟨new, -, n1, n2, -, u, hu, hd⟩ := lf
      have hu0 : u ∉ X0.x.s.D := fun h => by
        have := n1 u hu
        rw [(J0.live u).2 h] at this; cases this
      have hsu : sg u = false := by
        cases h : sg u with
        | false => rfl
        | true => exact absurd (J0.staticIn h) hu0
      have hu1 := (J3.live u).1 ((n2 u).2 (.inr hu))
      exact ⟨u, hu1, hu0, (J3.fields hu1 hsu).1.symm.trans hd⟩
    rw [loadAll, e]
    rfl

/-- two results are not the same block, unless it is static -/
def Apart (sg : Nat → Bool) (a b : Option Nat) : Prop := ∀ j, a = some j → b = some j → sg j = true

theorem load_all (al : AlOk E) (st : Statics E sg) (texts : List (List Byte)) : ∀ {X0 : JS} {H : JHeap}, JG sg E.eqv oth X0 H → Consts E H →
    (∀ t ∈ texts, 0 ∉ t ∧ t.length + 1 < 2 ^ 31 ∧ t.length + 1 ≤ N) →
    X0.x.s.D.length + texts.length * (3 + 4 * N) + (2 + 4 * N) ≤ fuel →
    ∃ H' js X m, loadAll E fuel N H texts = .ok (some (H', js)) ∧ List.Forall₂ (Ready E H') texts js ∧
      Grown sg X0 X (texts.length * (3 + 4 * N)) m ∧ Consts E H' ∧
      js.Pairwise (Apart sg) ∧ (∀ j, some j ∈ js → j ∈ X.x.s.D ∧ (sg j = true ∨ j ∉ X0.x.s.D ∧ X.x.s.rc j = 0)) ∧
      ((∀ t ∈ texts, ¬ Wasteful t) → Acyc X0 X ∧ ∀ b ∈ X.x.s.D, b ∉ X0.x.s.D → X.x.s.rc b = 0 → some b ∈ js) ∧ JG sg E.eqv oth X H' := by
  induction texts with
  | nil =>
    intro X0 H J0 c _ _
    exact ⟨H, [], X0, 0, rfl, .nil, (grown_refl J0).more (by simp) (Nat.le_refl _), c, .nil, by simp,
      fun _ => ⟨⟨id, fun y hy hn => absurd hy hn⟩, fun b hb hn => absurd hb hn⟩, J0⟩
  | cons text texts ih =>
    intro X0 H J0 c hr hf
    rw [List.length_cons, Nat.succ_mul] at hf
    obtain ⟨a1, a2, a3⟩ := hr text (by simp)
    obtain ⟨H1, X1, r, m1, J1, g1, c1, h1, h2, h4, -, e⟩ := load_one (fuel := fuel) al st J0 c a1 a2 a3 (by omega)
    obtain ⟨L, hL, hLl⟩ := g1.dom
    obtain ⟨H', js, X, m2, e', f, g2, c2, p, h3, h5, J'⟩ := ih J1 c1 (fun t ht => hr t (List.mem_cons_of_mem _ ht))
      (by rw [hL, List.length_append]; omega)
    refine ⟨H', r :: js, X, m1 + m2, ?_, .cons (h1.kept J1 (kept J1 J' g2)) f,
      (grown_trans J'.nodup g1 g2).more (Nat.le_of_eq (by rw [List.length_cons, Nat.succ_mul texts.length]; exact Nat.add_comm _ _)) (Nat.le_refl _), c2,
      List.pairwise_cons.2 ⟨?_, p⟩, ?_, fun hw => ?_, J'⟩
    · rw [e, e']
      simp only [bindO, Res.bind_ok]
    · rintro b hb j rfl rfl
      rcases (h3 j hb).2 with h | h
      · exact h
      · exact absurd (h2 j rfl).1 h.1
    · intro j hj
      rcases List.mem_cons.1 hj with hj | hj
      · obtain ⟨q1, q2⟩ := h2 j hj.symm
        refine ⟨g2.sub q1, ?_⟩
        cases hsj : sg j with
        | true => exact .inl rfl
        | false =>
          rcases q2 with q2 | q2
          · rw [hsj] at q2; cases q2
          · exact .inr ⟨q2.1, by rw [g2.rc J'.nodup q1 hsj]; exact q2.2⟩
      · obtain ⟨q1, q2⟩ := h3 j hj
        exact ⟨q1, q2.imp id fun h => ⟨fun h' => h.1 (g1.sub h'), h.2⟩⟩
    · obtain ⟨b1, b2⟩ := h4 (hw text (by simp))
      obtain ⟨b3, b4⟩ := h5 fun t ht => hw t (List.mem_cons_of_mem _ ht)
      refine ⟨acyc_trans J1 g1 g2 b1 b3, fun b hb hb0 hr => ?_⟩
      by_cases hb1 : b ∈ X1.x.s.D
      · have hs : sg b = false := by
          cases h : sg b with
          | false => rfl
          | true => exact absurd (g1.static b h) hb0
        rw [g2.rc J'.nodup hb1 hs] at hr
        rw [b2 b hb1 hb0 hr]
        simp
      · exact List.mem_cons_of_mem _ (b4 b hb hb1 hr)

/-- **C136**.  Let any texts without NUL be read that are not too long, and every document be kept.  Then at the end all documents are
in memory at the same time, each with the value that its text has; there is none for a text that is no document.  No two of them have
the same root, except the static blocks for `true`, `false` and `null`, and no root was in memory at the start.  What was there at the start is
unchanged, and nothing undefined happens. -/
theorem C136_hold (al : AlOk E) (st : Statics E sg) (J0 : JG sg E.eqv oth X0 H) (c : Consts E H) (texts : List (List Byte))
    (hr : ∀ t ∈ texts, 0 ∉ t ∧ t.length + 1 < 2 ^ 31 ∧ t.length + 1 ≤ N)
    (hf : X0.x.s.D.length + texts.length * (3 + 4 * N) + (2 + 4 * N) ≤ fuel) :
    ∃ H' js, loadAll E fuel N H texts = .ok (some (H', js)) ∧ List.Forall₂ (Held E H') texts js ∧ Kept sg H H' ∧
      js.Pairwise (Apart sg) ∧ (∀ j, some j ∈ js → sg j = true ∨ H.m.h.live j = false) ∧ ∃ X, JG sg E.eqv oth X H' := by
  obtain ⟨H', js, X, m, e, f, g, -, p, h, -, J⟩ := load_all (fuel := fuel) al st texts J0 c hr hf
  refine ⟨H', js, e, f.imp fun _ _ h => h.held, kept J0 J g, p, fun j hj => (h j hj).2.imp id fun h => ?_, X, J⟩
  cases h' : H.m.h.live j with
  | false => rfl
  | true => exact absurd ((J0.live j).1 h') h.1

theorem print_all (al : AlOk E) {texts : List (List Byte)} {js : List (Option Nat)} {X : JS} (J : JG sg E.eqv oth X H)
    (hr : ∀ t ∈ texts, Servable N t) (hn : N ≤ n) (hf : 2 ≤ fuel) (f : List.Forall₂ (Ready E H) texts js) (n0 : Nat) :
    ∃ H' rs X', printAll E fuel n n0 H js = .ok (some (H', rs)) ∧ List.Forall₂ Answers texts rs ∧ Kept sg H H' ∧
      (∀ y, H'.m.h.live y = H.m.h.live y) ∧ JG sg E.eqv oth X' H' := by
  induction texts generalizing js X H with
  | nil => cases f; exact ⟨H, [], X, rfl, .nil, kept_refl, fun _ => rfl, J⟩
  | cons text texts ih =>
    cases f with
    | @cons _ r _ js f0 f =>
    cases r with
    | none =>
      obtain ⟨H', rs, X', e, g, k, l, J'⟩ := ih J (fun t ht => hr t (List.mem_cons_of_mem _ ht)) f
      exact ⟨H', none :: rs, X', by rw [printAll, e]; rfl, .cons f0 g, k, l, J'⟩
    | some j =>
      obtain ⟨x, hx, -, hsh, hbl⟩ := f0
      have ht := hr text (by simp)
      have hshort : text.length < 2 ^ 31 := by have := ht.short; omega
      have hh : x.val.height < 500 := by
        have := ht.prints x hx
        have := Verif.Json.height_le_depth x
        omega
      have hst : nsteps x.val ≤ n := by
        have := Verif.Json.nsteps_le_toks x
        have := Verif.Json.spells_length hx.1
        have := ht.bound
        omega
      have sn := sane_of J
      obtain ⟨H1, p, b, T, h1, h2, h3, h4⟩ := Verif.Rc.PrintProps.asprint_over (free_of al) sn (fuel := fuel) hf hsh hh
        (Verif.Json.Props.C33_compact _ hh (read_short hx.1 hshort) n hst) n0
      rw [hbl] at h4
      obtain rfl : T = [] := List.length_eq_zero_iff.1 h4
      obtain ⟨H2, h5, h6⟩ := h3.delRaw sn (fuel := fuel) (by omega)
      have hb : b.take (compact x.val).length = (compact x.val).map some := by
        have := congrArg (List.take (compact x.val).length) h2
        rw [List.take_take, Nat.min_eq_left (by omega)] at this
        rw [this]; simp
      have k2 : Kept sg H H2 := kept_over h6
      obtain ⟨H', rs, X', e, g, k, l, J'⟩ := ih (same_good J h6).2 (fun t ht => hr t (List.mem_cons_of_mem _ ht))
        (f.imp fun _ _ h => h.kept J k2)
      refine ⟨H', some ((compact x.val).map some) :: rs, X', ?_, .cons ⟨x, hx, rfl⟩ g, kept_trans k2 k, fun y => ?_, J'⟩
      · rw [printAll, h1]
        simp only [bindO, Res.bind_ok, h5, e, hb]
      · rw [l, Bool.eq_iff_iff, h6.live]
        simp

/-- **C136**: if none of the documents is nested 499 to 511 deep, printing all of them after all have been read gives each one the
compact text of its own value, and no more blocks are in memory than before the printing, where everything is unchanged. -/
theorem C136_print (al : AlOk E) (st : Statics E sg) (J0 : JG sg E.eqv oth X0 H) (c : Consts E H) (texts : List (List Byte))
    (hr : ∀ t ∈ texts, Servable N t) (hn : N ≤ n) (hf : X0.x.s.D.length + texts.length * (3 + 4 * N) + (2 + 4 * N) ≤ fuel) (n0 : Nat) :
    ∃ H1 js H2 rs, loadAll E fuel N H texts = .ok (some (H1, js)) ∧ printAll E fuel n n0 H1 js = .ok (some (H2, rs)) ∧
      List.Forall₂ Answers texts rs ∧ List.Forall₂ (Held E H2) texts js ∧ Kept sg H1 H2 ∧ (∀ y, H2.m.h.live y = H1.m.h.live y) ∧
      Kept sg H H2 ∧ ∃ X, JG sg E.eqv oth X H2 := by
  obtain ⟨H1, js, X, m, e, f, k, -, -, -, -, J⟩ := load_all (fuel := fuel) al st texts J0 c
    (fun t ht => ⟨(hr t ht).nul, (hr t ht).short, (hr t ht).bound⟩) hf
  obtain ⟨H2, rs, X', e2, g, k2, l, J2⟩ := print_all (fuel := fuel) al J hr hn (by omega) f n0
  exact ⟨H1, js, H2, rs, e, e2, g, f.imp fun _ _ h => (h.kept J k2).held, k2, l, kept_trans (kept J0 J k) k2, X', J2⟩

/-- **C136**: then any of the documents may be deleted, in any order, each one once.  Their roots are gone, unless they are static; every
other document still has the value of its text; and what was in memory at the start is unchanged.  If all texts are documents, no key
is given twice, and all documents are deleted, then no other block is in memory than at the start. -/
theorem C136_delete (al : AlOk E) (st : Statics E sg) (J0 : JG sg E.eqv oth X0 H) (c : Consts E H) (texts : List (List Byte))
    (hr : ∀ t ∈ texts, 0 ∉ t ∧ t.length + 1 < 2 ^ 31 ∧ t.length + 1 ≤ N)
    (hf : X0.x.s.D.length + texts.length * (3 + 4 * N) + (2 + 4 * N) ≤ fuel) :
    ∃ H1 js, loadAll E fuel N H texts = .ok (some (H1, js)) ∧ ∀ ds : List Nat, (∀ d ∈ ds, some d ∈ js) → ds.Nodup →
      ∃ H2, delAll fuel H1 ds = .ok (some H2) ∧ (∀ d ∈ ds, sg d = false → H2.m.h.live d = false) ∧
        List.Forall₂ (fun text r => (∀ j, r = some j → j ∉ ds ∨ sg j = true) → Held E H2 text r) texts js ∧ Kept sg H H2 ∧
        ((∀ t ∈ texts, ¬ Wasteful t) → (∀ j, some j ∈ js → j ∈ ds) → ∀ y, H2.m.h.live y = H.m.h.live y) ∧
        ∃ X, JG sg E.eqv oth X H2 := by
  obtain ⟨H1, js, X, m, e, f, g, -, -, h, hcl, J⟩ := load_all (fuel := fuel) al st texts J0 c hr hf
  refine ⟨H1, js, e, fun ds hds hn => ?_⟩
  obtain ⟨H2, X2, e2, J2, g2, w, dead, rest, cl⟩ := roots_del (fuel := fuel) J0 (by omega) ds J g (fun d hd => h d (hds d hd))
    (hn.imp fun hab h => absurd h hab)
  refine ⟨H2, e2, dead, ?_, kept J0 J2 g2, fun hw hall y => ?_, X2, J2⟩
  rotate_left
  · obtain ⟨⟨f, hf⟩, hcl⟩ := hcl hw
    have sub : ∀ b ∈ X2.x.s.D, b ∈ X.x.s.D := fun b hb => (J.live b).1 (w.live b ((J2.live b).2 hb))
    have hD := none_new J0 g2 ⟨f, fun y hy hy0 b hb hb0 => hf y (sub y hy) hy0 b (by rw [← J.kids, ← w.kids, J2.kids]; exact hb) hb0⟩
      fun b hb hb0 hr => by
        have h1 := hcl b (sub b hb) hb0 (cl b hb hb0 hr)
        have hs : sg b = false := by
          cases h : sg b with
          | false => rfl
          | true => exact absurd (g.static b h) hb0
        have := dead b (hall b h1) hs
        rw [(J2.live b).2 hb] at this
        cases this
    rw [Bool.eq_iff_iff, J2.live, J0.live]
    exact ⟨hD y, fun h => g2.sub h⟩
  have key : ∀ j, some j ∈ js → (j ∉ ds ∨ sg j = true) → H2.m.h.live j = true := fun j hj hd => by
    by_cases hs : sg j = true
    · exact (J2.live j).2 (J2.staticIn hs)
    · obtain ⟨q1, q2⟩ := h j hj
      exact (J2.live j).2 (rest j q1 (hd.resolve_right hs) (q2.resolve_left hs).2)
  clear e h hds g g2 hr hf hcl cl
  induction f with
  | nil => exact .nil
  | @cons text r texts js f0 f ih =>
    refine .cons (fun hd => ?_) (ih fun j hj => key j (List.mem_cons_of_mem _ hj))
    cases r with
    | none => exact f0
    | some j =>
      obtain ⟨x, h1, h2, -⟩ := f0
      exact ⟨x, h1, reads_fewer J2 w _ j (key j (by simp) (hd j rfl)) h2⟩

end

/-! ## examples -/

/-- the hypotheses of `C136_hold` and `C136_print` are met by any texts without NUL of at most 20 bytes -/
example [Libc] (texts : List (List Byte)) (h : ∀ t ∈ texts, 0 ∉ t ∧ t.length ≤ 20) : ∃ H1 js H2 rs,
    loadAll envD (100 + texts.length * 87) 21 stD texts = .ok (some (H1, js)) ∧ List.Forall₂ (Held envD H1) texts js ∧
      js.Pairwise (Apart sgD) ∧ printAll envD (100 + texts.length * 87) 21 0 H1 js = .ok (some (H2, rs)) ∧
      List.Forall₂ Answers texts rs := by
  have hr : ∀ t ∈ texts, Servable 21 t := fun t ht => servable_short (h t ht).1 (by have := (h t ht).2; omega) (by have := (h t ht).2; omega)
  obtain ⟨H1, js, e, f, -, p, -⟩ := C136_hold (fuel := 100 + texts.length * 87) alD_ok statics_envD stD_good consts_stD texts
    (fun t ht => ⟨(hr t ht).nul, (hr t ht).short, (hr t ht).bound⟩) (by simp [specJ]; omega)
  obtain ⟨H1', js', H2, rs, e', e2, g, -⟩ := C136_print (fuel := 100 + texts.length * 87) alD_ok statics_envD stD_good consts_stD texts hr (Nat.le_refl _)
    (by simp [specJ]; omega) 0
  rw [e] at e'
  cases e'
  exact ⟨H1, js, H2, rs, e, f, p, e2, g⟩

/-- the hypotheses of `C136_delete` are met by the texts `[]`, `]`, `[]`; the first document is deleted, and the second is still there -/
example [Libc] : ∃ H1 a b H2, loadAll envD 400 21 stD [[91, 93], [93], [91, 93]] = .ok (some (H1, [some a, none, some b])) ∧ a ≠ b ∧
    delAll 400 H1 [a] = .ok (some H2) ∧ H2.m.h.live a = false ∧ reads envD H2 (.arr []) b := by
  have hr : ∀ t ∈ ([[91, 93], [93], [91, 93]] : List (List Byte)), 0 ∉ t ∧ t.length + 1 < 2 ^ 31 ∧ t.length + 1 ≤ 21 := by decide
  obtain ⟨H1, js, e, h⟩ := C136_delete (fuel := 400) alD_ok statics_envD stD_good consts_stD [[91, 93], [93], [91, 93]] hr (by simp [specJ])
  obtain ⟨H1', js', e', f, k, p, -⟩ := C136_hold (fuel := 400) alD_ok statics_envD stD_good consts_stD [[91, 93], [93], [91, 93]] hr
    (by simp [specJ])
  rw [e] at e'
  cases e'
  have yes : Reads [91, 93] (.arr [] false) := ⟨.tok .lb (.tok .rb .nil), by decide⟩
  have val : ∀ x, Reads [91, 93] x → x.val = .arr [] := fun x hx => reads_unique (by decide) hx yes
  obtain _ | ⟨f1, _ | ⟨f2, _ | ⟨f3, f4⟩⟩⟩ := f
  cases f4
  next r1 r2 r3 =>
  cases r1 with
  | none => exact absurd ⟨_, yes⟩ f1
  | some a =>
  cases r3 with
  | none => exact absurd ⟨_, yes⟩ f3
  | some b =>
  cases r2 with
  | some j => obtain ⟨x, hx, -⟩ := f2; exact absurd ⟨x, hx⟩ Verif.Json.Props.close_no_doc
  | none =>
  obtain ⟨x, hx, hxa⟩ := f1
  rw [val x hx, reads] at hxa
  have hs : sgD a = false := by
    cases hs : sgD a with
    | false => rfl
    | true =>
      have := k.tag a ((stD_good.live a).2 (stD_good.staticIn hs))
      rw [hxa.2.1] at this
      have ha : a = 1 ∨ a = 3 ∨ a = 5 := by simpa [sgD] using hs
      rcases ha with rfl | rfl | rfl <;> exact absurd this (by decide)
  have hab : a ≠ b := fun hab => by
    have := (List.pairwise_cons.1 p).1 (some b) (by simp) a rfl (by rw [hab])
    rw [hs] at this; cases this
  obtain ⟨H2, e2, dead, g, -⟩ := h [a] (by simp) (by simp)
  obtain _ | ⟨-, _ | ⟨-, _ | ⟨g3, -⟩⟩⟩ := g
  obtain ⟨y, hy, hyb⟩ := g3 (by rintro _ ⟨⟩; exact .inl (by simpa using hab.symm))
  rw [val y hy] at hyb
  exact ⟨H1, a, b, H2, e, hab, e2, dead a (by simp) hs, hyb⟩

/-- the hypotheses of the last part of `C136_delete` are met by the texts `[]` and `[]`: both are deleted, and memory is as at the start -/
example [Libc] : ∃ H1 a b H2, loadAll envD 400 21 stD [[91, 93], [91, 93]] = .ok (some (H1, [some a, some b])) ∧
    (a ≠ b → delAll 400 H1 [b, a] = .ok (some H2) ∧ ∀ y, H2.m.h.live y = stD.m.h.live y) := by
  have hr : ∀ t ∈ ([[91, 93], [91, 93]] : List (List Byte)), 0 ∉ t ∧ t.length + 1 < 2 ^ 31 ∧ t.length + 1 ≤ 21 := by decide
  obtain ⟨H1, js, e, h⟩ := C136_delete (fuel := 400) alD_ok statics_envD stD_good consts_stD [[91, 93], [91, 93]] hr (by simp [specJ])
  obtain ⟨H1', js', e', f, -⟩ := C136_hold (fuel := 400) alD_ok statics_envD stD_good consts_stD [[91, 93], [91, 93]] hr (by simp [specJ])
  rw [e] at e'
  cases e'
  have yes : Reads [91, 93] (.arr [] false) := ⟨.tok .lb (.tok .rb .nil), by decide⟩
  obtain _ | ⟨f1, _ | ⟨f2, f3⟩⟩ := f
  cases f3
  next r1 r2 =>
  cases r1 with
  | none => exact absurd ⟨_, yes⟩ f1
  | some a =>
  cases r2 with
  | none => exact absurd ⟨_, yes⟩ f2
  | some b =>
  by_cases hab : a = b
  · exact ⟨H1, a, b, H1, e, fun h => absurd hab h⟩
  · obtain ⟨H2, e2, -, -, -, g, -⟩ := h [b, a] (by simp) (by simp [Ne.symm hab])
    refine ⟨H1, a, b, H2, e, fun _ => ⟨e2, g (fun t ht hw => ?_) (by simp)⟩⟩
    obtain rfl : t = [91, 93] := by simpa using ht
    exact hw ⟨_, yes, by simp [distinct, distinctL]⟩

end RoundProps
end Verif.Rc
