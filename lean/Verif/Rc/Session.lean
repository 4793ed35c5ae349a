import Verif.Rc.HoldAll

/-!
# C137: any session

A program that reads, prints and deletes documents in any order, as many as it likes.  The program is not in /repo: it is a caller assumed
here; C134, C135 and C136 are about particular orders.
-/

namespace Verif.Rc
open Verif.Json (Byte Tok Atom Val Libc Syn Spells nextToken compact render nsteps)

/-- what the program does: read a text, print the document of the `i`-th text (`f`: readable, with `CEE_JSON_FMT_PRETTY`), delete it -/
inductive Cmd where
  | read (text : List Byte)
  | print (f : Bool) (i : Nat)
  | del (i : Nat)

/-- `cee_json_asprint` (snprint.c:354-363) of a document, if there is one, and `cee_del` (cee-common.c:24-29) of the text -/
def printOne [Libc] (E : PEnv) (fuel n : Nat) (f : Bool) (n0 : Nat) (H : JHeap) : Option Nat → Res (Option (JHeap × Option (List (Option Byte))))
  | none => .ok (some (H, none))
  | some j =>
    bindO (memAsprint E.printer fuel n f H n0 (some j)) fun (H1, p, b, len) =>
    bindO (mdel fuel H1 p) fun H2 => .ok (some (H2, some (b.take len)))

/-- A session: `cee_json_parsex` with `force_eof` (parser.c:32-261), `cee_json_asprint` (snprint.c:354-363) and `cee_del` of its result,
`cee_del` (cee-common.c:24-29) of a document.  `docs` has a place for each text that was read, with the document, or nothing if there is
none (any more); nothing is called for such places.  The result has what was printed. -/
def session [Libc] (E : PEnv) (fuel n N n0 : Nat) : JHeap → List (Option Nat) → List Cmd →
    Res (Option (JHeap × List (Option Nat) × List (Option (List (Option Byte)))))
  | H, docs, [] => .ok (some (H, docs, []))
  | H, docs, .read text :: cs => bindO (loadAll E fuel N H [text]) fun (H1, js) => session E fuel n N n0 H1 (docs ++ js) cs
  | H, docs, .print f i :: cs =>
    bindO (printOne E fuel n f n0 H docs[i]?.join) fun (H1, r) =>
    bindO (session E fuel n N n0 H1 docs cs) fun (H2, docs', rs) => .ok (some (H2, docs', r :: rs))
  | H, docs, .del i :: cs =>
    bindO (delAll fuel H docs[i]?.join.toList) fun H1 => session E fuel n N n0 H1 (docs.set i none) cs

namespace RoundProps
open Verif.Rc.Props Verif.Rc.MapProps Verif.Rc.JsonProps Verif.Rc.ParseProps
open Verif.Rc.PrintProps (Over Sane AlFree Adds shows showsL showsF atomIn KeyOk blobs over_refl)

/-- the text that is right: the compact or the readable text of the value, or none if there is no document -/
def Shown [Libc] (f : Bool) (text : List Byte) : Option (List (Option Byte)) → Prop
  | some b => ∃ x, Reads text x ∧ b = (if f then render true 0 x.val else compact x.val).map some
  | none => ¬ ∃ x, Reads text x

/-- texts for this: of at most 127 levels if `pr`, that is if documents are printed in readable form -/
structure Fits [Libc] (N : Nat) (pr : Prop) (text : List Byte) : Prop where
  servable : Servable N text
  shallow : pr → ∀ x, Reads text x → x.depth ≤ 127

/-- what must be printed: `s` has the texts that were read, without those whose documents were deleted -/
def Right [Libc] : List (Option (List Byte)) → List Cmd → List (Option (List (Option Byte))) → Prop
  | _, [], outs => outs = []
  | s, .read t :: cs, outs => Right (s ++ [some t]) cs outs
  | s, .del i :: cs, outs => Right (s.set i none) cs outs
  | s, .print f i :: cs, outs => ∃ r rest, outs = r :: rest ∧ (∀ t, s[i]? = some (some t) → Shown f t r) ∧
      ((∀ t, s[i]? ≠ some (some t)) → r = none) ∧ Right s cs rest

/-- the texts at the end of a session, without those whose documents were deleted -/
def remaining : List (Option (List Byte)) → List Cmd → List (Option (List Byte))
  | s, [] => s
  | s, .read t :: cs => remaining (s ++ [some t]) cs
  | s, .del i :: cs => remaining (s.set i none) cs
  | s, .print _ _ :: cs => remaining s cs

/-- the texts of a session -/
def textsOf : List Cmd → List (List Byte)
  | [] => []
  | .read t :: cs => t :: textsOf cs
  | .print _ _ :: cs => textsOf cs
  | .del _ :: cs => textsOf cs

section
variable {sg oth : Nat → Bool} {E : PEnv} {Q : QEnv} {X X' : JS} {H H' : JHeap}

/-- a value whose root is still there can be printed as before -/
theorem shows_fewer (J : JG sg E.eqv oth X H) (J' : JG sg E.eqv oth X' H') (w : Fewer H H') (hrc : ∀ y, X'.x.s.rc y ≤ X.x.s.rc y) (v : Val) :
    ∀ j, H'.m.h.live j = true → shows Q H v j → shows Q H' v j := by
  obtain ⟨A, G, -⟩ := J'.mem
  have down : ∀ {y b : Nat}, H'.m.h.live y = true → (Policy.rc, some b) ∈ H'.m.h.kids y → H'.m.h.live b = true := fun hy hb => by
    rw [J'.kids] at hb
    exact (J'.live _).2 (Good.tgt G ((J'.live _).1 hy) hb)
  have part : ∀ {j b : Nat}, H'.m.h.live j = true → H'.held j = some b → H'.m.h.live b = true := fun {j b} hj hb => by
    rw [JHeap.held] at hb
    split at hb
    · next pol p h =>
      subst hb
      have hm : (pol, some b) ∈ X'.x.s.kids j := by rw [← J'.kids, h]; simp
      obtain ⟨v, hv⟩ := J'.typed.edges G ((J'.live _).1 hj) hm
      cases hv
      exact down hj (by rw [h]; simp)
    · cases hb
  induction v using Val.ind with
  | h0 a =>
    intro j hj h
    rw [shows] at h ⊢
    replace h := h.2
    refine ⟨hj, ?_⟩
    cases a with
    | bool b => exact ⟨by rw [w.tag j hj]; exact h.1, h.2⟩
    | null => exact (w.tag j hj).trans h
    | undef => exact (w.tag j hj).trans h
    | strn t => exact ⟨by rw [w.tag j hj]; exact h.1, h.2⟩
    | _ =>
      obtain ⟨h1, b, h2, -, h4⟩ := h
      rw [← fewer_held w] at h2
      exact ⟨by rw [w.tag j hj]; exact h1, b, h2, part hj h2, h4⟩
  | ha xs ih =>
    intro j hj h
    rw [shows] at h ⊢
    obtain ⟨-, h1, l, vs, h2, -, h4, h5⟩ := h
    rw [← fewer_held w] at h2
    rw [← w.kids] at h4
    have hl := part hj h2
    have hvs : ∀ v ∈ vs, H'.m.h.live v = true := fun v hv => down hl (by rw [h4]; exact List.mem_map.2 ⟨v, hv, rfl⟩)
    refine ⟨hj, by rw [w.tag j hj]; exact h1, l, vs, h2, hl, h4, ?_⟩
    clear h4
    induction xs generalizing vs with
    | nil => cases vs with
      | nil => rw [showsL]; trivial
      | cons v vs => simp [showsL] at h5
    | cons x xs ihx => cases vs with
      | nil => simp [showsL] at h5
      | cons v vs =>
        rw [showsL] at h5 ⊢
        exact ⟨ih x (by simp) v (hvs v (by simp)) h5.1,
          ihx (fun y hy => ih y (List.mem_cons_of_mem _ hy)) vs h5.2 (fun u hu => hvs u (List.mem_cons_of_mem _ hu))⟩
  | ho xs ih =>
    intro j hj h
    rw [shows] at h ⊢
    obtain ⟨-, h1, m, ps, h2, -, h4, h4', hn, h5⟩ := h
    rw [← fewer_held w] at h2
    rw [← w.maps] at h4 h4'
    rw [← w.tag j hj] at h1
    have hm := part hj h2
    have hps : ∀ p ∈ ps, (H'.m.h.live p.1 = true ∧ H'.m.h.live p.2 = true) ∧ H'.m.h.ret p.1 = false ∧ 0 < H'.m.h.deg p.1 ∧
        (H.m.h.live p.1 = true → H'.m.h.deg p.1 ≤ H.m.h.deg p.1) := fun p hp => by
      have hpp : (p.1, some p.2) ∈ (H'.m.maps m).pairs := h4'.mem_iff.2 (List.mem_map.2 ⟨p, hp, rfl⟩)
      have he := obj_edges J' ((J'.live m).1 hm) (map_of J' hj h1 h2) (p := (p.1, some p.2)) (by rw [← J'.maps]; exact hpp)
      have hs : sg p.1 = false := keys_dynamic J' hj h1 h2 hm hpp
      have hr := refs_pos ((J'.live m).1 hm) he.1
      rw [← J'.kids] at he
      have hk := down hm he.1
      obtain ⟨f1, f2⟩ := J'.fields ((J'.live _).1 hk) hs
      refine ⟨⟨hk, down hm he.2⟩, f2, ?_, fun hl => ?_⟩
      · rw [f1, Spec.rc]
        omega
      · rw [f1, (J.fields ((J.live _).1 hl) hs).1]
        exact hrc _
    refine ⟨hj, h1, m, ps, h2, hm, h4, h4', hn, ?_⟩
    clear h4 h4' hn
    induction xs generalizing ps with
    | nil => cases ps with
      | nil => rw [showsF]; trivial
      | cons v vs => simp [showsF] at h5
    | cons x xs ihx => cases ps with
      | nil => simp [showsF] at h5
      | cons p ps =>
        obtain ⟨key, x⟩ := x
        rw [showsF] at h5 ⊢
        obtain ⟨⟨g1, g2, g3⟩, g4, g5⟩ := h5
        obtain ⟨q1, q2, q3, q4⟩ := hps p (by simp)
        exact ⟨⟨g1, ⟨q1.1, q2, q3⟩, by have := q4 g2.live; omega⟩, ih (key, x) (by simp) p.2 q1.2 g4,
          ihx (fun y hy => ih y (List.mem_cons_of_mem _ hy)) ps g5 (fun q hq => hps q (List.mem_cons_of_mem _ hq))⟩

theorem get_append {α : Type} {l : List α} {x y : α} {i : Nat} (h : (l ++ [x])[i]? = some y) : l[i]? = some y ∨ i = l.length ∧ y = x := by
  rcases Nat.lt_trichotomy i l.length with hi | hi | hi
  · rw [List.getElem?_append_left hi] at h
    exact .inl h
  · subst hi
    rw [List.getElem?_append_right (Nat.le_refl _)] at h
    simp at h
    exact .inr ⟨rfl, h.symm⟩
  · rw [List.getElem?_eq_none (by rw [List.length_append, List.length_singleton]; omega)] at h
    cases h

theorem get_set {α : Type} {l : List α} {x y : α} {i k : Nat} (h : (l.set i x)[k]? = some y) : k = i ∧ y = x ∨ k ≠ i ∧ l[k]? = some y := by
  by_cases hk : k = i
  · subst hk
    have hlt : k < l.length := by
      by_contra hlt
      rw [List.getElem?_eq_none (by rw [List.length_set]; omega)] at h
      cases h
    rw [List.getElem?_set_self hlt] at h
    cases h
    exact .inl ⟨rfl, rfl⟩
  · rw [List.getElem?_set_ne (Ne.symm hk)] at h
    exact .inr ⟨hk, h⟩

end

section
variable [Libc] {sg oth : Nat → Bool} {E : PEnv} {X0 X : JS} {H0 H : JHeap} {fuel n N l : Nat}

open Classical in
/-- the number of texts that are no documents -/
noncomputable def rejected (texts : List (List Byte)) : Nat := texts.countP fun t => decide (¬ ∃ x, Reads t x)

/-- what holds at any time; `k`: number of texts that were no documents; `cl`: no text so far was without document or with a key given twice -/
structure Sess (sg : Nat → Bool) (oth : Nat → Bool) (E : PEnv) (N : Nat) (pr : Prop) (X0 X : JS) (H : JHeap) (l : Nat) (cl : Prop) (k : Nat)
    (s : List (Option (List Byte))) (docs : List (Option Nat)) : Prop where
  J : JG sg E.eqv oth X H
  g : ∃ m, Grown sg X0 X l m
  c : Consts E H
  len : s.length = docs.length
  fit : ∀ (i : Nat) t, s[i]? = some (some t) → Fits N pr t
  ready : ∀ (i : Nat) t r, s[i]? = some (some t) → docs[i]? = some r → Ready E H t r
  gone : ∀ (i : Nat) r, s[i]? = some none → docs[i]? = some r → r = none
  uniq : ∀ (a b : Nat) j, docs[a]? = some (some j) → docs[b]? = some (some j) → a = b ∨ sg j = true
  roots : ∀ (i : Nat) j, docs[i]? = some (some j) → j ∈ X.x.s.D ∧ (sg j = true ∨ j ∉ X0.x.s.D ∧ X.x.s.rc j = 0)
  clean : cl → Acyc X0 X ∧ ∀ b ∈ X.x.s.D, b ∉ X0.x.s.D → X.x.s.rc b = 0 → ∃ i : Nat, docs[i]? = some (some b)
  lost : ∃ dead : List Nat, dead.Nodup ∧ dead.length = k ∧
    ∀ b ∈ dead, b ∈ X.x.s.D ∧ b ∉ X0.x.s.D ∧ X.x.s.rc b = 0 ∧ ∀ i : Nat, docs[i]? ≠ some (some b)

variable {cl pr : Prop} {k : Nat} {s : List (Option (List Byte))} {docs : List (Option Nat)}

/-- a text is read -/
theorem sess_read (al : AlOk E) (st : Statics E sg) (S : Sess sg oth E N pr X0 X H l cl k s docs) {text : List Byte}
    (ht : Fits N pr text) (hf : X0.x.s.D.length + l + (2 + 4 * N) ≤ fuel) :
    ∃ H1 X1 r, loadAll E fuel N H [text] = .ok (some (H1, [r])) ∧
      Sess sg oth E N pr X0 X1 H1 (l + (3 + 4 * N)) (cl ∧ ¬ Wasteful text) (k + rejected [text]) (s ++ [some text]) (docs ++ [r]) := by
  obtain ⟨m, g⟩ := S.g
  obtain ⟨L, hL, hl⟩ := g.dom
  obtain ⟨H1, X1, r, m1, J1, g1, c1, h1, h2, h3, h4, e⟩ := load_one (fuel := fuel) al st S.J S.c ht.servable.nul ht.servable.short ht.servable.bound
    (by rw [hL, List.length_append]; omega)
  have kp := kept S.J J1 g1
  refine ⟨H1, X1, r, by rw [e]; rfl, J1, ⟨_, grown_trans J1.nodup g g1⟩, c1, by simp [S.len], fun i t hi => ?_, fun i t q hi hq => ?_,
    fun i q hi hq => ?_, fun a b j ha hb => ?_, fun i j hi => ?_, fun hc => ?_, ?_⟩
  · rcases get_append hi with hi | ⟨-, hi⟩
    · exact S.fit i t hi
    · cases hi; exact ht
  · rcases get_append hi with hi | ⟨hi, ht⟩
    · rcases get_append hq with hq | ⟨hq, -⟩
      · exact (S.ready i t q hi hq).kept S.J kp
      · have := (List.getElem?_eq_some_iff.1 hi).1
        have := S.len
        omega
    · cases ht
      rcases get_append hq with hq | ⟨-, rfl⟩
      · have := (List.getElem?_eq_some_iff.1 hq).1
        have := S.len
        omega
      · exact h1
  · rcases get_append hi with hi | ⟨hi, ht⟩
    · rcases get_append hq with hq | ⟨hq, -⟩
      · exact S.gone i q hi hq
      · have := (List.getElem?_eq_some_iff.1 hi).1
        have := S.len
        omega
    · cases ht
  · have key : ∀ a : Nat, docs[a]? = some (some j) → r = some j → sg j = true := fun a ha hr => by
      rcases (h2 j hr).2 with h | h
      · exact h
      · exact absurd (S.roots a j ha).1 h.1
    rcases get_append ha with ha | ⟨ha, ha'⟩
    · rcases get_append hb with hb | ⟨-, hb⟩
      · exact S.uniq a b j ha hb
      · exact .inr (key a ha hb.symm)
    · rcases get_append hb with hb | ⟨hb, -⟩
      · exact .inr (key b hb ha'.symm)
      · exact .inl (ha.trans hb.symm)
  · rcases get_append hi with hi | ⟨-, hi⟩
    · obtain ⟨q1, q2⟩ := S.roots i j hi
      refine ⟨g1.sub q1, ?_⟩
      cases hs : sg j with
      | true => exact .inl rfl
      | false =>
        rcases q2 with q2 | q2
        · rw [hs] at q2; cases q2
        · exact .inr ⟨q2.1, by rw [g1.rc J1.nodup q1 hs]; exact q2.2⟩
    · obtain ⟨q1, q2⟩ := h2 j hi.symm
      exact ⟨q1, q2.imp id fun h => ⟨fun h' => h.1 (g.sub h'), h.2⟩⟩
  · obtain ⟨b1, b2⟩ := S.clean hc.1
    obtain ⟨b3, b4⟩ := h3 hc.2
    refine ⟨acyc_trans S.J g g1 b1 b3, fun b hb hb0 hr => ?_⟩
    by_cases hb1 : b ∈ X.x.s.D
    · have hs : sg b = false := by
        cases h : sg b with
        | false => rfl
        | true => exact absurd (g.static b h) hb0
      rw [g1.rc J1.nodup hb1 hs] at hr
      obtain ⟨i, hi⟩ := b2 b hb1 hb0 hr
      exact ⟨i, by rw [List.getElem?_append_left (List.getElem?_eq_some_iff.1 hi).1]; exact hi⟩
    · exact ⟨docs.length, by rw [List.getElem?_append_right (Nat.le_refl _), b4 b hb hb1 hr]; simp⟩
  · obtain ⟨dead, d1, d2, d3⟩ := S.lost
    have old : ∀ b ∈ dead, b ∈ X1.x.s.D ∧ b ∉ X0.x.s.D ∧ X1.x.s.rc b = 0 ∧ ∀ i : Nat, (docs ++ [r])[i]? ≠ some (some b) := fun b hb => by
      obtain ⟨b1, b2, b3, b4⟩ := d3 b hb
      have hs : sg b = false := by
        cases h : sg b with
        | false => rfl
        | true => exact absurd (g.static b h) b2
      refine ⟨g1.sub b1, b2, by rw [g1.rc J1.nodup b1 hs]; exact b3, fun i hi => ?_⟩
      rcases get_append hi with hi | ⟨-, hi⟩
      · exact b4 i hi
      · rcases (h2 b hi.symm).2 with h | h
        · rw [hs] at h; cases h
        · exact h.1 b1
    by_cases hx : ∃ x, Reads text x
    · exact ⟨dead, d1, by simp [rejected, hx, d2], old⟩
    · obtain ⟨u, u1, u2, u3⟩ := h4 hx
      refine ⟨u :: dead, List.nodup_cons.2 ⟨fun h => u2 (d3 u h).1, d1⟩, by simp [rejected, hx, d2], fun b hb => ?_⟩
      rcases List.mem_cons.1 hb with rfl | hb
      · refine ⟨u1, fun h => u2 (g.sub h), u3, fun i hi => ?_⟩
        rcases get_append hi with hi | ⟨-, hi⟩
        · exact u2 (S.roots i b hi).1
        · rw [← hi] at h1
          obtain ⟨x, h, -⟩ := h1
          exact hx ⟨x, h⟩
      · exact old b hb

/-- one document is printed -/
theorem print_one (al : AlOk E) (J : JG sg E.eqv oth X H) {text : List Byte} (hp : Fits N pr text) (hn : N ≤ n) (hf : 2 ≤ fuel)
    {r : Option Nat} (h : Ready E H text r) {f : Bool} (hpr : f = true → pr) (n0 : Nat) :
    ∃ H' q, printOne E fuel n f n0 H r = .ok (some (H', q)) ∧ Shown f text q ∧ Over H H' [] [] := by
  have ht := hp.servable
  cases r with
  | none => exact ⟨H, none, rfl, h, over_refl H⟩
  | some j =>
    obtain ⟨x, hx, -, hsh, hbl⟩ := h
    have hshort : text.length < 2 ^ 31 := by have := ht.short; omega
    have hh : x.val.height < 500 := by
      have := ht.prints x hx
      have := Verif.Json.height_le_depth x
      omega
    have hst : nsteps x.val ≤ n := by
      have := Verif.Json.nsteps_le_toks x
      have := Verif.Json.spells_length hx.1
      have := ht.bound
      omega
    have sn := sane_of J
    have ha : ∃ b, Verif.Json.asprint n f x.val = .ok (some (b, (if f then render true 0 x.val else compact x.val).length)) ∧
        b.take ((if f then render true 0 x.val else compact x.val).length + 1) =
          ((if f then render true 0 x.val else compact x.val) ++ [0]).map some := by
      cases f with
      | false => exact Verif.Json.Props.C33_compact _ hh (read_short hx.1 hshort) n hst
      | true =>
        have := hp.shallow (hpr rfl) x hx
        have := Verif.Json.height_le_depth x
        exact Verif.Json.Props.C33_pretty _ (by omega) n hst
    obtain ⟨H1, p, b, T, h1, h2, h3, h4⟩ := Verif.Rc.PrintProps.asprint_over (free_of al) sn (fuel := fuel) hf hsh hh ha n0
    rw [hbl] at h4
    obtain rfl : T = [] := List.length_eq_zero_iff.1 h4
    obtain ⟨H2, h5, h6⟩ := h3.delRaw sn (fuel := fuel) (by omega)
    generalize hc : (if f then render true 0 x.val else compact x.val) = out at h1 h2
    have hb : b.take out.length = out.map some := by
      have := congrArg (List.take out.length) h2
      rw [List.take_take, Nat.min_eq_left (by omega)] at this
      rw [this]; simp
    refine ⟨H2, some (out.map some), ?_, ⟨x, hx, by rw [hc]⟩, h6⟩
    rw [printOne, h1]
    simp only [bindO, Res.bind_ok, h5, hb]

/-- memory is the same where something is -/
theorem sess_over (st : Statics E sg) (S : Sess sg oth E N pr X0 X H l cl k s docs) {H' : JHeap} (o : Over H H' [] []) :
    ∃ X', Sess sg oth E N pr X0 X' H' l cl k s docs := by
  obtain ⟨m, g⟩ := S.g
  obtain ⟨hk, J'⟩ := same_good S.J o
  have key : ∀ z, sg z = true → H'.tag z = H.tag z := fun z hz => o.tag z ((S.J.live z).2 (S.J.staticIn hz))
  have c := S.c
  refine ⟨_, J', ⟨m, g.dom, g.ext, fun y hy => ?_, g.maps, g.kind, fun y hy hn b hb => ?_, fun z hz => ?_, g.static, fun y hy => ?_⟩,
    ⟨by rw [key _ st.yes]; exact c.yes, by rw [key _ st.no]; exact c.no, by rw [key _ st.null]; exact c.null, c.ne⟩, S.len, S.fit,
    fun i t r h1 h2 => (S.ready i t r h1 h2).kept S.J (kept_over (sg := sg) o), S.gone, S.uniq, fun i j hi => ?_, fun hc => ?_, ?_⟩
  · exact (hk y (g.sub hy)).symm.trans (g.kids y hy)
  · exact g.edges y hy hn b (by rw [hk y hy]; exact hb)
  · rw [rc_kids hk]; exact g.rcs z hz
  · rw [rc_kids hk]; exact g.few y hy
  · rw [rc_kids hk]; exact S.roots i j hi
  · obtain ⟨⟨f, hf⟩, h2⟩ := S.clean hc
    refine ⟨⟨f, fun y hy hn b hb hb0 => hf y hy hn b (by rw [hk y hy]; exact hb) hb0⟩, fun b hb hb0 hr => ?_⟩
    rw [rc_kids hk] at hr
    exact h2 b hb hb0 hr
  · obtain ⟨dead, d1, d2, d3⟩ := S.lost
    exact ⟨dead, d1, d2, fun b hb => by rw [rc_kids hk]; exact d3 b hb⟩

theorem same' (S : Sess sg oth E N pr X0 X H l cl k s docs) (i : Nat) :
    (∀ (k : Nat) t, (s.set i none)[k]? = some (some t) → Fits N pr t) ∧
    (∀ (k : Nat) r, (s.set i none)[k]? = some none → (docs.set i none)[k]? = some r → r = none) ∧
    ∀ (a b : Nat) j, (docs.set i none)[a]? = some (some j) → (docs.set i none)[b]? = some (some j) → a = b ∨ sg j = true := by
  refine ⟨fun k t hk => ?_, fun k r h1 h2 => ?_, fun a b j ha hb => ?_⟩
  · rcases get_set hk with ⟨-, h⟩ | ⟨-, h⟩
    · cases h
    · exact S.fit k t h
  · rcases get_set h2 with ⟨-, h'⟩ | ⟨hne, h'⟩
    · exact h'
    · rcases get_set h1 with ⟨h, -⟩ | ⟨-, h⟩
      · exact absurd h hne
      · exact S.gone k r h h'
  · rcases get_set ha with ⟨-, h⟩ | ⟨-, h⟩
    · cases h
    · rcases get_set hb with ⟨-, h'⟩ | ⟨-, h'⟩
      · cases h'
      · exact S.uniq a b j h h'

/-- a document is deleted -/
theorem sess_del (st : Statics E sg) (J0 : JG sg E.eqv oth X0 H0) (S : Sess sg oth E N pr X0 X H l cl k s docs) (i : Nat)
    (hf : X0.x.s.D.length + l ≤ fuel) :
    ∃ H' X', delAll fuel H docs[i]?.join.toList = .ok (some H') ∧ Sess sg oth E N pr X0 X' H' l cl k (s.set i none) (docs.set i none) := by
  -- nothing happens to memory
  have same : (∀ j, docs[i]? = some (some j) → sg j = true) → Sess sg oth E N pr X0 X H l cl k (s.set i none) (docs.set i none) := fun hst => by
    refine ⟨S.J, S.g, S.c, by simp [S.len], (same' S i).1, fun k t r h1 h2 => ?_, (same' S i).2.1, (same' S i).2.2, fun k j hk => ?_,
      fun hc => ⟨(S.clean hc).1, fun b hb hb0 hr => ?_⟩, ?_⟩
    · rcases get_set h1 with ⟨-, h⟩ | ⟨hne, h⟩
      · cases h
      · rcases get_set h2 with ⟨h', -⟩ | ⟨-, h'⟩
        · exact absurd h' hne
        · exact S.ready k t r h h'
    · rcases get_set hk with ⟨-, h⟩ | ⟨-, h⟩
      · cases h
      · exact S.roots k j h
    · obtain ⟨k, hk⟩ := (S.clean hc).2 b hb hb0 hr
      by_cases hki : k = i
      · subst hki
        obtain ⟨m, g⟩ := S.g
        exact absurd (g.static b (hst b hk)) hb0
      · exact ⟨k, by rw [List.getElem?_set_ne (Ne.symm hki)]; exact hk⟩
    · obtain ⟨dead, d1, d2, d3⟩ := S.lost
      refine ⟨dead, d1, d2, fun b hb => ⟨(d3 b hb).1, (d3 b hb).2.1, (d3 b hb).2.2.1, fun k hk => ?_⟩⟩
      rcases get_set hk with ⟨-, h⟩ | ⟨-, h⟩
      · cases h
      · exact (d3 b hb).2.2.2 k h
  cases hd : docs[i]? with
  | none => exact ⟨H, X, rfl, same fun j h => by rw [hd] at h; cases h⟩
  | some r => cases r with
    | none => exact ⟨H, X, rfl, same fun j h => by rw [hd] at h; cases h⟩
    | some j =>
      obtain ⟨hj, hj'⟩ := S.roots i j hd
      cases hs : sg j with
      | true =>
        refine ⟨H, X, ?_, same fun k h => by rw [hd] at h; cases h; exact hs⟩
        have e1 : jsonDel fuel H (some j) = .ok (some H) := by
          rw [jsonDel, delWith, if_pos ((S.J.live j).2 hj), S.J.single]
          cases fuel <;> simp only [traceS, hs, if_true] <;> rfl
        show delAll fuel H [j] = _
        rw [delAll, e1]
        rfl
      | false =>
        have hj' := hj'.resolve_left (by rw [hs]; simp)
        obtain ⟨m, g⟩ := S.g
        obtain ⟨H', X', e, J', g', w, dead, rest, clr, rcle⟩ := root_del J0 S.J g hj hs hj'.1 hj'.2 hf
        have other : ∀ (k : Nat) q, k ≠ i → docs[k]? = some (some q) → q ≠ j := fun k q hk hq hqj => by
          subst hqj
          rcases S.uniq k i q hq hd with h | h
          · exact hk h
          · rw [hs] at h; cases h
        have stays : ∀ (k : Nat) q, k ≠ i → docs[k]? = some (some q) → q ∈ X'.x.s.D ∧ (sg q = true ∨ q ∉ X0.x.s.D ∧ X'.x.s.rc q = 0) :=
          fun k q hk hq => by
            by_cases hsq : sg q = true
            · exact ⟨J'.staticIn hsq, .inl hsq⟩
            · obtain ⟨q1, q2⟩ := S.roots k q hq
              have q2 := q2.resolve_left hsq
              obtain ⟨r1, r2⟩ := rest q q1 (other k q hk hq) q2.2
              exact ⟨r1, .inr ⟨q2.1, r2⟩⟩
        have key : ∀ z, sg z = true → H'.tag z = H.tag z := fun z hz => w.tag z ((J'.live z).2 (J'.staticIn hz))
        have c := S.c
        refine ⟨H', X', ?_, J', ⟨m, g'⟩,
          ⟨by rw [key _ st.yes]; exact c.yes, by rw [key _ st.no]; exact c.no, by rw [key _ st.null]; exact c.null, c.ne⟩, by simp [S.len],
          (same' S i).1, fun k t r h1 h2 => ?_, (same' S i).2.1, (same' S i).2.2, fun k q hk => ?_, fun hc => ?_, ?_⟩
        · show delAll fuel H [j] = _
          rw [delAll, e]
          rfl
        · rcases get_set h1 with ⟨-, h⟩ | ⟨hne, h⟩
          · cases h
          · rcases get_set h2 with ⟨h', -⟩ | ⟨-, h'⟩
            · exact absurd h' hne
            · have rd := S.ready k t r h h'
              cases r with
              | none => exact rd
              | some q =>
                have hq := (J'.live q).2 (stays k q hne h').1
                obtain ⟨x, x1, x2, x3, x4⟩ := rd
                exact ⟨x, x1, reads_fewer J' w _ q hq x2, shows_fewer S.J J' w rcle _ q hq x3, x4⟩
        · rcases get_set hk with ⟨-, h⟩ | ⟨hne, h⟩
          · cases h
          · exact stays k q hne h
        · obtain ⟨⟨f, hf⟩, h2⟩ := S.clean hc
          have sub : ∀ b ∈ X'.x.s.D, b ∈ X.x.s.D := fun b hb => (S.J.live b).1 (w.live b ((J'.live b).2 hb))
          refine ⟨⟨f, fun y hy hy0 b hb hb0 => hf y (sub y hy) hy0 b (by rw [← S.J.kids, ← w.kids, J'.kids]; exact hb) hb0⟩,
            fun b hb hb0 hr => ?_⟩
          obtain ⟨k, hk⟩ := h2 b (sub b hb) hb0 (clr b hb hb0 hr)
          have hki : k ≠ i := by
            rintro rfl
            rw [hd] at hk
            cases hk
            rw [(J'.live j).2 hb] at dead
            cases dead
          exact ⟨k, by rw [List.getElem?_set_ne (Ne.symm hki)]; exact hk⟩
        · obtain ⟨lost, d1, d2, d3⟩ := S.lost
          refine ⟨lost, d1, d2, fun b hb => ?_⟩
          obtain ⟨b1, b2, b3, b4⟩ := d3 b hb
          obtain ⟨r1, r2⟩ := rest b b1 (fun h => b4 i (by rw [hd, h])) b3
          refine ⟨r1, b2, r2, fun k hk => ?_⟩
          rcases get_set hk with ⟨-, h⟩ | ⟨-, h⟩
          · cases h
          · exact b4 k h

theorem sess_run {pr : Prop} (al : AlOk E) (st : Statics E sg) (J0 : JG sg E.eqv oth X0 H0) (hn : N ≤ n) (n0 : Nat) (cmds : List Cmd) :
    ∀ {X : JS} {H : JHeap} {l : Nat} {cl : Prop} {k : Nat} {s : List (Option (List Byte))} {docs : List (Option Nat)},
      Sess sg oth E N pr X0 X H l cl k s docs → (∀ t ∈ textsOf cmds, Fits N pr t) → (∀ i, Cmd.print true i ∈ cmds → pr) →
      X0.x.s.D.length + l + (textsOf cmds).length * (3 + 4 * N) + (2 + 4 * N) ≤ fuel →
    ∃ H' docs' outs X', session E fuel n N n0 H docs cmds = .ok (some (H', docs', outs)) ∧ Right s cmds outs ∧
      Sess sg oth E N pr X0 X' H' (l + (textsOf cmds).length * (3 + 4 * N)) (cl ∧ ∀ t ∈ textsOf cmds, ¬ Wasteful t)
        (k + rejected (textsOf cmds)) (remaining s cmds) docs' := by
  induction cmds with
  | nil =>
    intro X H l cl k s docs S _ _ _
    refine ⟨H, docs, [], X, rfl, rfl, ?_⟩
    simpa [textsOf, remaining, rejected] using S
  | cons c cmds ih =>
    intro X H l cl k s docs S hr hp hf
    have hp' : ∀ i, Cmd.print true i ∈ cmds → pr := fun i hi => hp i (List.mem_cons_of_mem _ hi)
    cases c with
    | read text =>
      rw [textsOf] at hr hf
      rw [List.length_cons, Nat.succ_mul (textsOf cmds).length] at hf
      obtain ⟨H1, X1, r, e, S1⟩ := sess_read (fuel := fuel) al st S (hr text (by simp)) (by omega)
      obtain ⟨H', docs', outs, X', e', h, S'⟩ := ih S1 (fun t ht => hr t (List.mem_cons_of_mem _ ht)) hp' (by omega)
      refine ⟨H', docs', outs, X', by rw [session, e]; exact e', h, ?_⟩
      have e1 : (textsOf (.read text :: cmds)).length * (3 + 4 * N) = (textsOf cmds).length * (3 + 4 * N) + (3 + 4 * N) := by
        rw [textsOf, List.length_cons, Nat.succ_mul (textsOf cmds).length]
      rw [e1, Nat.add_comm _ (3 + 4 * N), ← Nat.add_assoc]
      have e2 : (cl ∧ ∀ t ∈ textsOf (.read text :: cmds), ¬ Wasteful t) = ((cl ∧ ¬ Wasteful text) ∧ ∀ t ∈ textsOf cmds, ¬ Wasteful t) := by
        rw [textsOf, List.forall_mem_cons, and_assoc]
      have e3 : k + rejected (textsOf (.read text :: cmds)) = k + rejected [text] + rejected (textsOf cmds) := by
        rw [textsOf, rejected, rejected, rejected, ← List.singleton_append, List.countP_append, Nat.add_assoc]
      rw [e2, e3]
      exact S'
    | del i =>
      rw [textsOf] at hr hf
      obtain ⟨H1, X1, e, S1⟩ := sess_del (fuel := fuel) st J0 S i (by omega)
      obtain ⟨H', docs', outs, X', e', h, S'⟩ := ih S1 hr hp' hf
      exact ⟨H', docs', outs, X', by rw [session, e]; exact e', h, S'⟩
    | print f i =>
      rw [textsOf] at hr hf
      obtain ⟨H1, X1, q, e, S1, h1, h2⟩ : ∃ H1 X1 q, printOne E fuel n f n0 H docs[i]?.join = .ok (some (H1, q)) ∧
          Sess sg oth E N pr X0 X1 H1 l cl k s docs ∧ (∀ t, s[i]? = some (some t) → Shown f t q) ∧ ((∀ t, s[i]? ≠ some (some t)) → q = none) := by
        cases hs : s[i]? with
        | none =>
          have hd : docs[i]? = none := List.getElem?_eq_none (by rw [← S.len]; exact List.getElem?_eq_none_iff.1 hs)
          exact ⟨H, X, none, by rw [hd]; rfl, S, fun t h => by (cases h), fun _ => rfl⟩
        | some t =>
          obtain ⟨r, hd⟩ : ∃ r, docs[i]? = some r :=
            ⟨_, List.getElem?_eq_getElem (by rw [← S.len]; exact (List.getElem?_eq_some_iff.1 hs).1)⟩
          cases t with
          | none =>
            obtain rfl := S.gone i r hs hd
            exact ⟨H, X, none, by rw [hd]; rfl, S, fun t h => by (cases h), fun _ => rfl⟩
          | some t =>
            obtain ⟨H1, q, e, ha, o⟩ := print_one (n := n) (fuel := fuel) (f := f) al S.J (S.fit i t hs) hn (by omega) (S.ready i t r hs hd)
              (fun hf => hp i (by rw [hf]; simp)) n0
            obtain ⟨X1, S1⟩ := sess_over st S o
            exact ⟨H1, X1, q, by rw [hd]; exact e, S1, fun t' h => by (cases h; exact ha), fun h => absurd rfl (h t)⟩
      obtain ⟨H', docs', outs, X', e', h, S'⟩ := ih S1 hr hp' hf
      refine ⟨H', docs', q :: outs, X', ?_, ⟨q, outs, rfl, h1, h2, h⟩, S'⟩
      rw [session, e]
      show bindO (session E fuel n N n0 H1 docs cmds) _ = _
      rw [e']
      rfl

/-- at the start -/
theorem sess_init (J0 : JG sg E.eqv oth X0 H) (c : Consts E H) (pr : Prop) : Sess sg oth E N pr X0 X0 H 0 True 0 [] [] :=
  ⟨J0, ⟨0, grown_refl J0⟩, c, rfl, by simp, by simp, by simp, by simp, by simp,
    fun _ => ⟨⟨id, fun y hy hy0 => absurd hy hy0⟩, fun b hb hb0 => absurd hb hb0⟩, ⟨[], by simp, rfl, by simp⟩⟩

/-- **C137**: a program reads texts and prints and deletes documents in any order, as often as it likes.  Nothing undefined happens; each
time a document is printed that was not deleted before, this gives the compact or the readable text of the value of its own text; at the end
each document that was not deleted still has this value; and what was in memory at the start is unchanged. -/
theorem C137_session (al : AlOk E) (st : Statics E sg) (J0 : JG sg E.eqv oth X0 H) (c : Consts E H) (cmds : List Cmd)
    (hr : ∀ t ∈ textsOf cmds, Fits N (∃ i, .print true i ∈ cmds) t) (hn : N ≤ n)
    (hf : X0.x.s.D.length + (textsOf cmds).length * (3 + 4 * N) + (2 + 4 * N) ≤ fuel) (n0 : Nat) :
    ∃ H' docs outs, session E fuel n N n0 H [] cmds = .ok (some (H', docs, outs)) ∧ Right [] cmds outs ∧
      docs.length = (remaining [] cmds).length ∧
      (∀ (i : Nat) t r, (remaining [] cmds)[i]? = some (some t) → docs[i]? = some r → Held E H' t r) ∧
      (∀ i : Nat, (remaining [] cmds)[i]? = some none → docs[i]? = some none) ∧
      Kept sg H H' ∧ ∃ X, JG sg E.eqv oth X H' := by
  obtain ⟨H', docs, outs, X', e, h, S⟩ := sess_run (fuel := fuel) al st J0 hn n0 cmds
    (sess_init J0 c (∃ i, .print true i ∈ cmds)) hr (fun i hi => ⟨i, hi⟩) (by omega)
  obtain ⟨m, g⟩ := S.g
  refine ⟨H', docs, outs, e, h, S.len.symm, fun i t r h1 h2 => (S.ready i t r h1 h2).held, fun i hi => ?_, kept J0 S.J g, X', S.J⟩
  obtain ⟨r, hd⟩ : ∃ r, docs[i]? = some r :=
    ⟨_, List.getElem?_eq_getElem (by rw [← S.len]; exact (List.getElem?_eq_some_iff.1 hi).1)⟩
  rw [hd, S.gone i r hi hd]

/-- **C137**: if all texts are documents, no key is given twice in them, and every document was deleted, whenever, then no other block
is in memory than at the start. -/
theorem C137_clean (al : AlOk E) (st : Statics E sg) (J0 : JG sg E.eqv oth X0 H) (c : Consts E H) (cmds : List Cmd)
    (hr : ∀ t ∈ textsOf cmds, Fits N (∃ i, .print true i ∈ cmds) t) (hn : N ≤ n)
    (hf : X0.x.s.D.length + (textsOf cmds).length * (3 + 4 * N) + (2 + 4 * N) ≤ fuel) (n0 : Nat)
    (hw : ∀ t ∈ textsOf cmds, ¬ Wasteful t) (hall : ∀ r ∈ remaining [] cmds, r = none) :
    ∃ H' docs outs, session E fuel n N n0 H [] cmds = .ok (some (H', docs, outs)) ∧ ∀ y, H'.m.h.live y = H.m.h.live y := by
  obtain ⟨H', docs, outs, X', e, h, S⟩ := sess_run (fuel := fuel) al st J0 hn n0 cmds
    (sess_init J0 c (∃ i, .print true i ∈ cmds)) hr (fun i hi => ⟨i, hi⟩) (by omega)
  obtain ⟨m, g⟩ := S.g
  obtain ⟨a, hcl⟩ := S.clean ⟨trivial, hw⟩
  refine ⟨H', docs, outs, e, fun y => ?_⟩
  have hD := none_new J0 g a fun b hb hb0 hr => by
    obtain ⟨i, hi⟩ := hcl b hb hb0 hr
    have hlt : i < (remaining [] cmds).length := by rw [S.len]; exact (List.getElem?_eq_some_iff.1 hi).1
    have := S.gone i _ (by rw [List.getElem?_eq_getElem hlt, hall _ (List.getElem_mem hlt)]) hi
    cases this
  rw [Bool.eq_iff_iff, S.J.live, J0.live]
  exact ⟨hD y, fun h => g.sub h⟩

/-- **C137**: for each text that is no document a block stays in memory for good, in every session, whatever is deleted: it was not
there at the start, nothing refers to it, and it is none of the documents that the program has. -/
theorem C137_lost (al : AlOk E) (st : Statics E sg) (J0 : JG sg E.eqv oth X0 H) (c : Consts E H) (cmds : List Cmd)
    (hr : ∀ t ∈ textsOf cmds, Fits N (∃ i, .print true i ∈ cmds) t) (hn : N ≤ n)
    (hf : X0.x.s.D.length + (textsOf cmds).length * (3 + 4 * N) + (2 + 4 * N) ≤ fuel) (n0 : Nat) :
    ∃ H' docs outs, session E fuel n N n0 H [] cmds = .ok (some (H', docs, outs)) ∧
      ∃ dead : List Nat, dead.Nodup ∧ dead.length = rejected (textsOf cmds) ∧
        ∀ b ∈ dead, H'.m.h.live b = true ∧ H.m.h.live b = false ∧ H'.m.h.deg b = 0 ∧ some b ∉ docs := by
  obtain ⟨H', docs, outs, X', e, h, S⟩ := sess_run (fuel := fuel) al st J0 hn n0 cmds
    (sess_init J0 c (∃ i, .print true i ∈ cmds)) hr (fun i hi => ⟨i, hi⟩) (by omega)
  obtain ⟨m, g⟩ := S.g
  obtain ⟨dead, d1, d2, d3⟩ := S.lost
  refine ⟨H', docs, outs, e, dead, d1, by rw [d2, Nat.zero_add], fun b hb => ?_⟩
  obtain ⟨b1, b2, b3, b4⟩ := d3 b hb
  have hs : sg b = false := by
    cases h : sg b with
    | false => rfl
    | true => exact absurd (g.static b h) b2
  refine ⟨(S.J.live b).2 b1, ?_, (S.J.fields b1 hs).1.trans b3, fun h => ?_⟩
  · cases h : H.m.h.live b with
    | false => rfl
    | true => exact absurd ((J0.live b).1 h) b2
  · obtain ⟨i, hi⟩ := List.mem_iff_getElem?.1 h
    exact b4 i hi

/-- **C137**: and there are no more blocks than those of the start and `3 + 4 * N` for each text, whatever was printed and deleted -/
theorem C137_bound (al : AlOk E) (st : Statics E sg) (J0 : JG sg E.eqv oth X0 H) (c : Consts E H) (cmds : List Cmd)
    (hr : ∀ t ∈ textsOf cmds, Fits N (∃ i, .print true i ∈ cmds) t) (hn : N ≤ n)
    (hf : X0.x.s.D.length + (textsOf cmds).length * (3 + 4 * N) + (2 + 4 * N) ≤ fuel) (n0 : Nat) :
    ∃ H' docs outs, session E fuel n N n0 H [] cmds = .ok (some (H', docs, outs)) ∧
      ∃ new : List Nat, new.length ≤ (textsOf cmds).length * (3 + 4 * N) ∧ new.Nodup ∧ (∀ y ∈ new, H.m.h.live y = false) ∧
        ∀ y, H'.m.h.live y = true ↔ H.m.h.live y = true ∨ y ∈ new := by
  obtain ⟨H', docs, outs, X', e, h, S⟩ := sess_run (fuel := fuel) al st J0 hn n0 cmds
    (sess_init J0 c (∃ i, .print true i ∈ cmds)) hr (fun i hi => ⟨i, hi⟩) (by omega)
  obtain ⟨m, g⟩ := S.g
  obtain ⟨L, hL, hl⟩ := g.dom
  have hnd := S.J.nodup
  rw [hL, List.nodup_append] at hnd
  refine ⟨H', docs, outs, e, L, by omega, hnd.2.1, fun y hy => ?_, fun y => by rw [S.J.live, J0.live, hL, List.mem_append]⟩
  cases hy' : H.m.h.live y with
  | false => rfl
  | true => exact absurd rfl (hnd.2.2 y ((J0.live y).1 hy') y hy)

end

/-! ## examples -/

/-- any text without NUL of at most 127 bytes fits -/
theorem fits_short [Libc] {N : Nat} {pr : Prop} {text : List Byte} (h0 : 0 ∉ text) (hl : text.length ≤ 127) (hN : text.length + 1 ≤ N) : Fits N pr text :=
  ⟨servable_short h0 (by omega) hN, fun _ x hx => by
    have := Verif.Json.depth_lt_toks x
    have := Verif.Json.spells_length hx.1
    omega⟩

/-- the hypotheses of `C137_session` are met by any session with texts without NUL of at most 20 bytes -/
example [Libc] (cmds : List Cmd) (h : ∀ t ∈ textsOf cmds, 0 ∉ t ∧ t.length ≤ 20) : ∃ H docs outs,
    session envD (100 + (textsOf cmds).length * 87) 21 21 0 stD [] cmds = .ok (some (H, docs, outs)) ∧ Right [] cmds outs := by
  obtain ⟨H, docs, outs, e, f, -⟩ := C137_session (fuel := 100 + (textsOf cmds).length * 87) (n := 21) (N := 21) alD_ok statics_envD stD_good consts_stD
    cmds (fun t ht => fits_short (h t ht).1 (by have := (h t ht).2; omega) (by have := (h t ht).2; omega)) (Nat.le_refl _)
    (by simp [specJ]; omega) 0
  exact ⟨H, docs, outs, e, f⟩

/-- reads `[]` twice, and prints and deletes the documents -/
def cmdsD : List Cmd := [.read [91, 93], .read [91, 93], .print false 0, .del 0, .print true 1, .print true 0, .del 1, .del 0]

/-- the hypotheses of `C137_clean` are met by a session that reads `[]` twice and deletes the first between the prints: the first is
printed once, the second after that in readable form, and the first no more; and memory is as at the start -/
example [Libc] : ∃ H docs, session envD 400 21 21 0 stD [] cmdsD =
    .ok (some (H, docs, [some [some 91, some 93], some [some 91, some 10, some 10, some 93, some 10], none])) ∧ ∀ y, H.m.h.live y = stD.m.h.live y := by
  have yes : Reads [91, 93] (.arr [] false) := ⟨.tok .lb (.tok .rb .nil), by decide⟩
  have hs : ∀ pr, Fits 21 pr [91, 93] := fun pr => fits_short (by decide) (by decide) (by decide)
  have ht : ∀ t ∈ textsOf cmdsD, t = [91, 93] := by
    simp [textsOf, cmdsD]
  have hr := fun t h => (ht t h).symm ▸ hs (∃ i, Cmd.print true i ∈ cmdsD)
  obtain ⟨H, docs, outs, e, g⟩ := C137_clean (fuel := 400) (n := 21) (N := 21) alD_ok statics_envD stD_good consts_stD _ hr (Nat.le_refl _)
    (by simp [specJ, textsOf, cmdsD]) 0 (fun t h hw => hw ((ht t h).symm ▸ ⟨_, yes, by simp [distinct, distinctL]⟩)) (by simp [remaining, cmdsD])
  obtain ⟨H', docs', outs', e', f, -⟩ := C137_session (fuel := 400) (n := 21) (N := 21) alD_ok statics_envD stD_good consts_stD _ hr (Nat.le_refl _)
    (by simp [specJ, textsOf, cmdsD]) 0
  rw [e] at e'
  cases e'
  have ans : ∀ f q, Shown f [91, 93] q → q = some (if f then [some 91, some 10, some 10, some 93, some 10] else [some 91, some 93]) := fun f q hq => by
    cases q with
    | none => exact absurd ⟨_, yes⟩ hq
    | some b =>
      obtain ⟨x, hx, rfl⟩ := hq
      rw [reads_unique (by decide) hx yes]
      cases f <;> rfl
  obtain ⟨q1, r1, rfl, a1, -, q2, r2, rfl, a2, -, q3, r3, rfl, -, a3, f⟩ := f
  obtain rfl : r3 = [] := f
  rw [ans _ q1 (a1 _ rfl), ans _ q2 (a2 _ rfl), a3 (by simp)] at e
  exact ⟨H, docs, e, g⟩

/-- the hypotheses of `C137_lost` are met by a session that reads `[]` and `]` and deletes all there is: a block is left -/
example [Libc] : ∃ H docs outs, session envD 400 21 21 0 stD [] [.read [91, 93], .read [93], .del 0, .del 1] = .ok (some (H, docs, outs)) ∧
    ∃ b, H.m.h.live b = true ∧ stD.m.h.live b = false ∧ H.m.h.deg b = 0 := by
  obtain ⟨H, docs, outs, e, dead, -, h1, h2⟩ := C137_lost (fuel := 400) (n := 21) (N := 21) alD_ok statics_envD stD_good consts_stD
    [.read [91, 93], .read [93], .del 0, .del 1] (by
      intro t ht
      rcases (by simpa [textsOf] using ht : t = [91, 93] ∨ t = [93]) with rfl | rfl <;>
        exact fits_short (by decide) (by decide) (by decide)) (Nat.le_refl _) (by simp [specJ, textsOf]) 0
  have yes : Reads [91, 93] (.arr [] false) := ⟨.tok .lb (.tok .rb .nil), by decide⟩
  have hy : ∃ x, Reads [91, 93] x := ⟨_, yes⟩
  have hn : ¬ ∃ x, Reads [93] x := Verif.Json.Props.close_no_doc
  rw [show rejected (textsOf [.read [91, 93], .read [93], .del 0, .del 1]) = 1 by simp [rejected, textsOf, hy, hn]] at h1
  obtain ⟨b, rfl⟩ := List.length_eq_one_iff.1 h1
  obtain ⟨q1, q2, q3, -⟩ := h2 b (by simp)
  exact ⟨H, docs, outs, e, b, q1, q2, q3⟩

/-- the hypotheses of `C137_bound` are met by a session that reads `[]` and `]` and deletes nothing: at most 174 blocks are new -/
example [Libc] : ∃ H docs outs, session envD 400 21 21 0 stD [] [.read [91, 93], .read [93], .print true 0] = .ok (some (H, docs, outs)) ∧
    ∃ new : List Nat, new.length ≤ 174 ∧ ∀ y, H.m.h.live y = true ↔ stD.m.h.live y = true ∨ y ∈ new := by
  obtain ⟨H, docs, outs, e, new, h1, -, -, h2⟩ := C137_bound (fuel := 400) (n := 21) (N := 21) alD_ok statics_envD stD_good consts_stD
    [.read [91, 93], .read [93], .print true 0] (by
      intro t ht
      rcases (by simpa [textsOf] using ht : t = [91, 93] ∨ t = [93]) with rfl | rfl <;>
        exact fits_short (by decide) (by decide) (by decide)) (Nat.le_refl _) (by simp [specJ, textsOf]) 0
  exact ⟨H, docs, outs, e, new, by simpa [textsOf] using h1, h2⟩

end RoundProps
end Verif.Rc
