import Verif.Rc.SaveRc

/-!
# C134: any number of requests

A program that reads texts, and prints and deletes each document that it has read, with the functions of C132.  The program is not in
/repo: it is a caller assumed here.  The nearest thing in /repo is cee-json/test/tester2.c:17-42, which is meant to read and print two texts and to
delete only the state at the end (its test at line 19 takes the 0 that `cee_json_parsex` returns for success as an error).
-/

namespace Verif.Rc
open Verif.Json (Byte Tok Atom Val Libc Syn Spells nextToken compact nsteps)

/-- For each text in turn: `cee_json_parsex` with `force_eof` (parser.c:32-261); if it answers `EINVAL`, there is no response, and else
the response is what `cee_json_asprint` (snprint.c:354-363) makes, after which `cee_del` (cee-common.c:24-29) is called on the text and on
the document.  `none` in the outer `Option`: one of the bounds is too small. -/
def serve [Libc] (E : PEnv) (fuel n N : Nat) : JHeap → List (List Byte) → Res (Option (JHeap × List (Option (List (Option Byte)))))
  | H, [] => .ok (some (H, []))
  | H, text :: texts =>
    bindO (memParse E fuel nextToken N true H ⟨text ++ [0], text.length, 0⟩) fun (r, s) =>
    match r with
    | some (some j) =>
      bindO (memAsprint E.printer fuel n false s.H s.n (some j)) fun (H1, p, b, len) =>
      bindO (mdel fuel H1 p) fun H2 =>
      bindO (jsonDel fuel H2 (some j)) fun H3 =>
      bindO (serve E fuel n N H3 texts) fun (H4, rs) => .ok (some (H4, some (b.take len) :: rs))
    | _ => bindO (serve E fuel n N s.H texts) fun (H4, rs) => .ok (some (H4, none :: rs))

namespace RoundProps
open Verif.Rc.Props Verif.Rc.MapProps Verif.Rc.JsonProps Verif.Rc.ParseProps
open Verif.Rc.PrintProps (Over Sane AlFree Adds shows over_refl)

/-- a text that is the text of a document within the limits -/
structure Request [Libc] (N n : Nat) (text : List Byte) (x : Syn) : Prop where
  spells : Spells text x.toks
  short : text.length < 2 ^ 31
  bound : text.length ≤ N
  depth : x.depth ≤ 511
  height : x.val.height < 500
  steps : nsteps x.val ≤ n
  keys : distinct x

section
variable [Libc] {sg oth : Nat → Bool} {E : PEnv} {X0 : JS} {H : JHeap} {fuel n N : Nat}

theorem kept_trans {H1 H2 : JHeap} (a : Kept sg H H1) (b : Kept sg H1 H2) : Kept sg H H2 where
  live := fun x hx => b.live x (a.live x hx)
  kids := fun x hx => (b.kids x (a.live x hx)).trans (a.kids x hx)
  maps := fun x hx => (b.maps x (a.live x hx)).trans (a.maps x hx)
  tag := fun x hx => (b.tag x (a.live x hx)).trans (a.tag x hx)
  deg := fun x hx hs => (b.deg x (a.live x hx) hs).trans (a.deg x hx hs)
  ret := fun x hx hs => (b.ret x (a.live x hx) hs).trans (a.ret x hx hs)

theorem kept_refl : Kept sg H H := ⟨fun _ h => h, fun _ _ => rfl, fun _ _ => rfl, fun _ _ => rfl, fun _ _ _ => rfl, fun _ _ _ => rfl⟩

/-- one request -/
theorem request (al : AlOk E) (st : Statics E sg) (J0 : JG sg E.eqv oth X0 H) (c : Consts E H) {text : List Byte} {x : Syn}
    (hr : Request N n text x) (hf : X0.x.s.D.length + (2 + 4 * N) ≤ fuel) :
    ∃ H3 X3, JG sg E.eqv oth X3 H3 ∧ X3.x.s.D.length = X0.x.s.D.length ∧ Consts E H3 ∧ (∀ y, H3.m.h.live y = H.m.h.live y) ∧ Kept sg H H3 ∧
      ∀ texts, serve E fuel n N H (text :: texts) =
        bindO (serve E fuel n N H3 texts) fun (H4, rs) => .ok (some (H4, some ((compact x.val).map some) :: rs)) := by
  obtain ⟨t', hy, he⟩ := text_source hr.spells hr.short []
  obtain ⟨j, s', X, idx, l, r, e, k, hl, hj, hjn, hh', ho⟩ := parse_core (forceEof := true) al st J0 x (lits_text _) hy hr.depth
    (fun _ => he) (Nat.le_trans (Verif.Json.spells_length hr.spells) hr.bound) hf
  have sn := sane_of k.J
  have hsh := shows_of k (consts_kept J0 st c k) x.val j hj hjn hh'
  obtain ⟨H1, p, b, T, h1, h2, h3, h4⟩ := Verif.Rc.PrintProps.asprint_over (free_of al) sn (fuel := fuel) (by omega) hsh hr.height
    (Verif.Json.Props.C33_compact _ hr.height (read_short hr.spells hr.short) n hr.steps) s'.n
  rw [no_blobs x.val j hh'] at h4
  obtain rfl : T = [] := List.length_eq_zero_iff.1 h4
  obtain ⟨H2, h5, h6⟩ := h3.delRaw sn (fuel := fuel) (by omega)
  obtain ⟨k', own⟩ := same_core k h6
  obtain ⟨H3, h7, h8, h9, X3, J3, hD⟩ := doc_del_good J0 k' hj (own (ho hr.keys)) hl
  have key : ∀ s, sg s = true → H3.tag s = H.tag s := fun s hs => h9.tag s ((J0.live s).2 (J0.staticIn hs))
  refine ⟨H3, X3, J3, hD, ⟨by rw [key _ st.yes]; exact c.yes, by rw [key _ st.no]; exact c.no, by rw [key _ st.null]; exact c.null, c.ne⟩,
    h8, h9, fun texts => ?_⟩
  have hb : b.take (compact x.val).length = (compact x.val).map some := by
    have := congrArg (List.take (compact x.val).length) h2
    rw [List.take_take, Nat.min_eq_left (by omega)] at this
    rw [this]; simp
  rw [serve, e]
  simp only [bindO, Res.bind_ok, h1, h5, h7, hb]

/-- **C134** (partial): however many texts of documents are served, each gets the compact text of its value as the response, and at the end
there are exactly the blocks in memory that there were at the start, unchanged.  The recursion depth that is enough for the first
request is enough for all.  Missing: texts that are no documents, each of which leaves a block (`C134_error_false`), keys twice, and
values that are too high. -/
theorem C134_partial (al : AlOk E) (st : Statics E sg) (J0 : JG sg E.eqv oth X0 H) (c : Consts E H)
    (hf : X0.x.s.D.length + (2 + 4 * N) ≤ fuel) (reqs : List (List Byte × Syn)) (hr : ∀ q ∈ reqs, Request N n q.1 q.2) :
    ∃ H', serve E fuel n N H (reqs.map Prod.fst) = .ok (some (H', reqs.map fun q => some ((compact q.2.val).map some))) ∧
      (∀ y, H'.m.h.live y = H.m.h.live y) ∧ Kept sg H H' ∧ ∃ X, JG sg E.eqv oth X H' := by
  induction reqs generalizing X0 H with
  | nil => exact ⟨H, rfl, fun _ => rfl, kept_refl, X0, J0⟩
  | cons q reqs ih =>
    obtain ⟨H3, X3, J3, hD, c3, hl, hk, e⟩ := request al st J0 c (hr q (by simp)) hf
    obtain ⟨H', e', hl', hk', hg⟩ := ih J3 c3 (by omega) fun q hq => hr q (List.mem_cons_of_mem _ hq)
    refine ⟨H', ?_, fun y => (hl' y).trans (hl y), kept_trans hk hk', hg⟩
    rw [List.map_cons, e, e']
    simp only [bindO, Res.bind_ok, List.map_cons]

/-- a text that is no document because a value cannot start with its first token: nothing but white space, `]`, `}`, `:`, `,`, a string or
number that is not well-formed, a word that is no literal, and so on -/
def NoValue (text : List Byte) : Prop :=
  ∃ c t, nextToken ⟨text ++ [0], text.length, 0⟩ = .ok (c, t) ∧ c ∈ [Tok.eof, .err, .rb, .rc, .colon, .comma]

/-- the first tuple stays in memory -/
theorem bad_request (al : AlOk E) (sn : Sane H) (hf : 1 ≤ fuel) (hN : 1 ≤ N) {text : List Byte} (hb : NoValue text) : ∃ s a,
    memParse E fuel nextToken N true H ⟨text ++ [0], text.length, 0⟩ = .ok (some (none, s)) ∧ Over H s.H [(a, [])] [] ∧
      mdel fuel (memInit E H).H (memInit E H).sp = .ok (some s.H) := by
  obtain ⟨N, rfl⟩ : ∃ k, N = k + 1 := ⟨N - 1, by omega⟩
  have o1 := (over_refl H).raw sn (free_of al) 0
  have o2 := o1.raw sn (free_of al) 1
  have o3 := o2.perm (List.Perm.swap _ _ _) (List.Perm.refl _)
  obtain ⟨H', e, o⟩ := o3.delRaw sn hf
  obtain ⟨tk, t, ht, hc⟩ := hb
  refine ⟨{ memInit E H with H := H', st := .error }, _, ?_, o, e⟩
  have hrun : memRun E fuel nextToken (N + 1) (memInit E H) ⟨text ++ [0], text.length, 0⟩ =
      .ok (some ({ memInit E H with st := .error }, t)) := by
    rw [memRun]
    have hg : (memInit E H).goes = true := rfl
    simp only [hg, Bool.not_true, Bool.false_eq_true, if_false]
    have hd : delResult fuel (memInit E H) = .ok (some (memInit E H)) := rfl
    rw [hd]
    simp only [bindO, Res.bind_ok, ht]
    have hs : memStep E fuel (readTok E (memInit E H) tk).1 tk (readTok E (memInit E H) tk).2 =
        .ok (some { memInit E H with st := .error }) := by
      simp only [List.mem_cons, List.not_mem_nil, or_false] at hc
      rcases hc with rfl | rfl | rfl | rfl | rfl | rfl <;> rfl
    rw [hs]
    simp only [Res.bind_ok]
    have hg' : ({ memInit E H with st := .error } : MSt).goes = false := rfl
    cases N <;> rw [memRun] <;> simp only [hg', Bool.not_false, if_true]
  have e : mdel fuel (memInit E H).H (memInit E H).sp = .ok (some H') := e
  rw [memParse, hrun]
  simp only [bindO, Res.bind_ok, memFinish, e]
  rfl

/-- **C134**, negative: with each text in which no value starts memory grows by a block -/
theorem C134_error_false (al : AlOk E) (sn : Sane H) (hf : 1 ≤ fuel) (hN : 1 ≤ N) (texts : List (List Byte)) (hb : ∀ t ∈ texts, NoValue t) :
    ∃ H' new, serve E fuel n N H texts = .ok (some (H', texts.map fun _ => none)) ∧ Adds H H' new ∧ new.length = texts.length := by
  suffices h : ∃ H' T, serve E fuel n N H texts = .ok (some (H', texts.map fun _ => none)) ∧ Over H H' T [] ∧ T.length = texts.length by
    obtain ⟨H', T, h1, h2, h3⟩ := h
    exact ⟨H', T.map Prod.fst, h1, h2.adds, by simpa using h3⟩
  induction texts generalizing H with
  | nil => exact ⟨H, [], rfl, over_refl H, rfl⟩
  | cons text texts ih =>
    obtain ⟨s, a, e, o, -⟩ := bad_request (fuel := fuel) (N := N) al sn hf hN (hb text (by simp))
    obtain ⟨H', T, e', o', hl⟩ := ih (o.sane sn) fun t ht => hb t (List.mem_cons_of_mem _ ht)
    refine ⟨H', T ++ [(a, [])], ?_, (o.trans o').perm (List.Perm.refl _) (by simp), by simp [hl]⟩
    rw [serve, e]
    simp only [bindO, Res.bind_ok, e', List.map_cons]

/-- the memory that such a text leaves is good -/
theorem bad_good (al : AlOk E) (J : JG sg E.eqv oth X0 H) (hf : X0.x.s.D.length + 2 ≤ fuel) {H' : JHeap}
    (e : mdel fuel (memInit E H).H (memInit E H).sp = .ok (some H')) : ∃ X, JG sg E.eqv oth X H' := by
  have hb : (memInit E H).sp ∉ X0.x.s.D := fun h => by
    have : H.m.h.live (memInit E H).sp = false := (al 0 H.m.h.live X0.x.s.D (fun x hx => (J.live x).1 hx) []).1
    rw [(J.live _).2 h] at this; cases this
  obtain ⟨J1, a1, -, r1⟩ := grow_new (eqvE E) J hb (kd := .raw) (.inl rfl) 0
  have hfresh := (al 1 (rawMk H (memInit E H).sp).m.h.live _ (fun x hx => (J1.live x).1 hx) []).1
  have hc : E.al 1 (rawMk H (memInit E H).sp).m.h.live [] ∉ (stepNew E.eqv X0 (memInit E H).sp .raw).x.s.D := fun h => by
    rw [(J1.live _).2 h] at hfresh; cases hfresh
  obtain ⟨J2, a2, -, -⟩ := grow_new (eqvE E) J1 hc (kd := .raw) (.inl rfl) 0
  have i1 : Iso sg (stepNew E.eqv X0 (memInit E H).sp .raw) (memInit E H).sp :=
    ⟨(a1.mem _).2 (.inr rfl), by simp [stepNew, Chain.upd], r1, not_static J hb⟩
  have i2 := a2.iso i1 not_false not_false
  obtain ⟨C', e', J', -⟩ := iso_del J2 i2 (fuel := fuel) (by
    show ((_ ++ _) ++ _ : List Nat).length ≤ fuel
    simp; omega) 0
  have e : mdel fuel (rawMk (rawMk H (memInit E H).sp) (E.al 1 (rawMk H (memInit E H).sp).m.h.live [])) (memInit E H).sp = .ok (some H') := e
  rw [e] at e'
  cases e'
  exact ⟨_, J'⟩

/-- **C134** (partial), with texts that are no documents: let the texts of documents within the limits and texts in which no value starts
(`none`) come in any order.  Then each document gets its response and the other texts get none, what was in memory at the start is
unchanged, and there are exactly as many further blocks as there were such texts.  Missing: texts that are no documents though a value
starts in them, and what is missing in `C134_partial`. -/
theorem C134_mixed_partial (al : AlOk E) (st : Statics E sg) (J0 : JG sg E.eqv oth X0 H) (c : Consts E H) (hN : 1 ≤ N)
    (reqs : List (List Byte × Option Syn)) (hf : X0.x.s.D.length + reqs.length + (2 + 4 * N) ≤ fuel)
    (hr : ∀ q ∈ reqs, match q.2 with | some x => Request N n q.1 x | none => NoValue q.1) :
    ∃ (H' : JHeap) (new : List Nat), serve E fuel n N H (reqs.map Prod.fst) =
        .ok (some (H', reqs.map fun q => q.2.map fun x => (compact x.val).map some)) ∧
      Kept sg H H' ∧ new.Nodup ∧ (∀ y ∈ new, H.m.h.live y = false) ∧
      (∀ y, H'.m.h.live y = true ↔ H.m.h.live y = true ∨ y ∈ new) ∧ new.length = reqs.countP fun q => q.2.isNone := by
  induction reqs generalizing X0 H with
  | nil => exact ⟨H, [], rfl, kept_refl, List.nodup_nil, by simp, by simp, rfl⟩
  | cons q reqs ih =>
    rw [List.length_cons] at hf
    have hr' := fun q hq => hr q (List.mem_cons_of_mem _ hq)
    have hq := hr q (by simp)
    obtain ⟨text, o⟩ := q
    cases o with
    | some x =>
      obtain ⟨H3, X3, J3, hD, c3, hl, hk, e⟩ := request (fuel := fuel) al st J0 c hq (by omega)
      obtain ⟨H', new, e', hk', h1, h2, h3, h4⟩ := ih J3 c3 (by omega) hr'
      refine ⟨H', new, ?_, kept_trans hk hk', h1, fun y hy => (hl y).symm.trans (h2 y hy), fun y => by rw [h3, hl], by simpa using h4⟩
      rw [List.map_cons, e, e']
      simp only [bindO, Res.bind_ok, List.map_cons, Option.map_some]
    | none =>
      obtain ⟨s, a, e, o, em⟩ := bad_request (fuel := fuel) (N := N) al (sane_of J0) (by omega) hN hq
      obtain ⟨X3, J3⟩ := bad_good al J0 (by omega) em
      have hk : Kept sg H s.H := ⟨fun y hy => (o.live y).2 (.inl hy), fun y hy => o.kids y hy, fun y _ => by rw [o.maps],
        fun y hy => o.tag y hy, fun y hy _ => by rw [o.deg y hy]; simp, fun y hy _ => o.ret y hy⟩
      have ha : H.m.h.live a = false := o.fresh (a, []) (by simp)
      have hD : X3.x.s.D.length = X0.x.s.D.length + 1 := by
        have : X3.x.s.D.Perm (a :: X0.x.s.D) := (List.perm_ext_iff_of_nodup J3.nodup
          (List.nodup_cons.2 ⟨fun h => (by rw [(J0.live a).2 h] at ha; cases ha), J0.nodup⟩)).2 fun y => by
            rw [← J3.live, o.live, J0.live]; simp [or_comm]
        simpa using this.length_eq
      have key : ∀ z, sg z = true → s.H.tag z = H.tag z := fun z hz => hk.tag z ((J0.live z).2 (J0.staticIn hz))
      obtain ⟨H', new, e', hk', h1, h2, h3, h4⟩ := ih J3
        ⟨by rw [key _ st.yes]; exact c.yes, by rw [key _ st.no]; exact c.no, by rw [key _ st.null]; exact c.null, c.ne⟩ (by omega) hr'
      have hl : ∀ y, s.H.m.h.live y = true ↔ H.m.h.live y = true ∨ y = a := fun y => by rw [o.live]; simp
      refine ⟨H', a :: new, ?_, kept_trans hk hk', List.nodup_cons.2 ⟨fun h => ?_, h1⟩, fun y hy => ?_, fun y => ?_, by simp [h4]⟩
      · rw [List.map_cons, serve, e]
        simp only [bindO, Res.bind_ok, e', List.map_cons, Option.map_none]
      · have := h2 a h
        rw [(hl a).2 (.inr rfl)] at this; cases this
      · rcases List.mem_cons.1 hy with rfl | hy
        · exact ha
        · have := h2 y hy
          cases hy' : H.m.h.live y with
          | false => rfl
          | true => rw [(hl y).2 (.inl hy')] at this; cases this
      · rw [h3, hl, List.mem_cons, or_assoc]

/-- a text that is no document, or one that is nested too deep for the parser -/
structure Rejected (N : Nat) (text : List Byte) : Prop where
  nul : 0 ∉ text
  short : text.length + 1 < 2 ^ 31
  bound : text.length + 1 ≤ N
  none : ¬ ∃ x : Syn, Spells text x.toks ∧ x.depth ≤ 511

/-- **C134** (partial), with all texts that are no documents: let the texts of documents within the limits and texts that are rejected
(`none`) come in any order.  Then each document gets its response and the other texts get none, what was in memory at the start is
unchanged, and of the further blocks there is one for each rejected text at least (`dead`) to which nothing refers, and there are at most
`3 + 4 * N` for each.  Missing: what is missing in `C134_partial`. -/
theorem C134_all_partial (al : AlOk E) (st : Statics E sg) (J0 : JG sg E.eqv oth X0 H) (c : Consts E H)
    (reqs : List (List Byte × Option Syn)) (hf : X0.x.s.D.length + reqs.length * (3 + 4 * N) + (2 + 4 * N) ≤ fuel)
    (hr : ∀ q ∈ reqs, match q.2 with | some x => Request N n q.1 x | none => Rejected N q.1) :
    ∃ (H' : JHeap) (new dead : List Nat), serve E fuel n N H (reqs.map Prod.fst) =
        .ok (some (H', reqs.map fun q => q.2.map fun x => (compact x.val).map some)) ∧
      Kept sg H H' ∧ new.Nodup ∧ (∀ y ∈ new, H.m.h.live y = false) ∧
      (∀ y, H'.m.h.live y = true ↔ H.m.h.live y = true ∨ y ∈ new) ∧ new.length ≤ (reqs.countP fun q => q.2.isNone) * (3 + 4 * N) ∧
      dead.Nodup ∧ (∀ y ∈ dead, y ∈ new ∧ H'.m.h.deg y = 0) ∧ dead.length = reqs.countP fun q => q.2.isNone := by
  induction reqs generalizing X0 H with
  | nil => exact ⟨H, [], [], rfl, kept_refl, List.nodup_nil, by simp, by simp, by simp, List.nodup_nil, by simp, rfl⟩
  | cons q reqs ih =>
    rw [List.length_cons, Nat.succ_mul] at hf
    have hr' := fun q hq => hr q (List.mem_cons_of_mem _ hq)
    have hq := hr q (by simp)
    obtain ⟨text, o⟩ := q
    cases o with
    | some x =>
      obtain ⟨H3, X3, J3, hD, c3, hl, hk, e⟩ := request (fuel := fuel) al st J0 c hq (by omega)
      obtain ⟨H', new, dead, e', hk', h1, h2, h3, h4, h5, h6, h7⟩ := ih J3 c3 (by omega) hr'
      refine ⟨H', new, dead, ?_, kept_trans hk hk', h1, fun y hy => (hl y).symm.trans (h2 y hy), fun y => by rw [h3, hl],
        by simpa using h4, h5, h6, by simpa using h7⟩
      rw [List.map_cons, e, e']
      simp only [bindO, Res.bind_ok, List.map_cons, Option.map_some]
    | none =>
      have hq : Rejected N text := hq
      obtain ⟨s, e, hk, ⟨X3, J3⟩, new1, n1, n2, n3, n4, u, n5, n6⟩ := C106_text_rejects (fuel := fuel) al st J0 text [] hq.nul
        (by have := hq.short; simpa using this) hq.none (by have := hq.bound; simpa using this) (by omega)
      have ne : ∀ y, H.m.h.live y = true → y ∉ new1 := fun y hy h => by rw [n2 y h] at hy; cases hy
      have hD : X3.x.s.D.length = X0.x.s.D.length + new1.length := by
        have : X3.x.s.D.Perm (X0.x.s.D ++ new1) := (List.perm_ext_iff_of_nodup J3.nodup (List.nodup_append.2
          ⟨J0.nodup, n1, fun y hy z hz hyz => ne y ((J0.live y).2 hy) (hyz ▸ hz)⟩)).2 fun y => by
            rw [← J3.live, n3, J0.live, List.mem_append]
        simpa using this.length_eq
      have key : ∀ z, sg z = true → s.H.tag z = H.tag z := fun z hz => hk.tag z ((J0.live z).2 (J0.staticIn hz))
      obtain ⟨H', new, dead, e', hk', h1, h2, h3, h4, h5, h6, h7⟩ := ih J3
        ⟨by rw [key _ st.yes]; exact c.yes, by rw [key _ st.no]; exact c.no, by rw [key _ st.null]; exact c.null, c.ne⟩ (by omega) hr'
      have hu : u ∉ dead := fun h => by
        have := h2 u (h6 u h).1
        rw [(n3 u).2 (.inr n5)] at this; cases this
      have hsu : sg u = false := by
        cases h : sg u with
        | false => rfl
        | true => exact absurd n5 (ne u ((J0.live u).2 (J0.staticIn h)))
      refine ⟨H', new1 ++ new, u :: dead, ?_, kept_trans hk hk', List.nodup_append.2 ⟨n1, h1, fun y hy z hz hyz => ?_⟩, fun y hy => ?_,
        fun y => by rw [h3, n3, List.mem_append, or_assoc], ?_, List.nodup_cons.2 ⟨hu, h5⟩, fun y hy => ?_, by simp [h7]⟩
      · rw [List.map_cons, serve, e]
        simp only [bindO, Res.bind_ok, e', List.map_cons, Option.map_none]
      · have := h2 z hz
        rw [← hyz, (n3 y).2 (.inr hy)] at this; cases this
      · rcases List.mem_append.1 hy with hy | hy
        · exact n2 y hy
        · have := h2 y hy
          cases hy' : H.m.h.live y with
          | false => rfl
          | true => rw [(n3 y).2 (.inl hy')] at this; cases this
      · rw [List.countP_cons_of_pos (by rfl), Nat.succ_mul, List.length_append]; omega
      · rcases List.mem_cons.1 hy with rfl | hy
        · exact ⟨List.mem_append_left _ n5, (hk'.deg y ((n3 y).2 (.inr n5)) hsu).trans n6⟩
        · exact ⟨List.mem_append_right _ (h6 y hy).1, (h6 y hy).2⟩

end

/-! ## examples -/

/-- the hypotheses of `C134_partial` are met by any number of times ` ["x"]` -/
example [Libc] (k : Nat) : ∃ H', serve envD 100 100 6 stD (List.replicate k [32, 91, 34, 120, 34, 93]) =
      .ok (some (H', List.replicate k (some (([91, 34, 120, 34, 93] : List Byte).map some)))) ∧ ∀ y, H'.m.h.live y = stD.m.h.live y := by
  have e : compact (.arr [.atom (.str [120])]) = [91, 34, 120, 34, 93] := by rfl
  have e' : (Syn.arr [.str [120]] false).val = .arr [.atom (.str [120])] := rfl
  have hr : Request 6 100 [32, 91, 34, 120, 34, 93] (.arr [.str [120]] false) :=
    ⟨.ws (Or.inl rfl) (.tok .lb (.tok (w := [34, 120, 34]) (.str (s := [120]) (.raw (by decide) (by decide) (by decide) .nil)
      (Or.inl ⟨by decide, by decide, rfl⟩)) (.tok .rb .nil))), by decide, by decide, by decide, by decide +kernel, by decide +kernel,
      by simp [distinct, distinctL]⟩
  obtain ⟨H', h1, h2, -⟩ := C134_partial (fuel := 100) (n := 100) (N := 6) alD_ok statics_envD stD_good consts_stD (by simp [specJ])
    (List.replicate k ([32, 91, 34, 120, 34, 93], .arr [.str [120]] false)) fun q hq => by
      rw [List.eq_of_mem_replicate hq]; exact hr
  refine ⟨H', ?_, h2⟩
  simpa [e', e] using h1

theorem noValue_bracket [Libc] : NoValue [93] := ⟨.rb, ⟨[0], 0, 0⟩, rfl, by simp⟩

theorem noValue_nil [Libc] : NoValue [] := ⟨.eof, ⟨[0], 0, 0⟩, rfl, by simp⟩

/-- those of `C134_mixed_partial`, by `]`, `[]` and the empty text -/
example [Libc] : ∃ (H' : JHeap) (new : List Nat), serve envD 100 100 6 stD [[93], [91, 93], []] =
      .ok (some (H', [none, some ((compact (.arr [])).map some), none])) ∧
    Kept sgD stD H' ∧ new.Nodup ∧ (∀ y ∈ new, stD.m.h.live y = false) ∧
    (∀ y, H'.m.h.live y = true ↔ stD.m.h.live y = true ∨ y ∈ new) ∧ new.length = 2 :=
  C134_mixed_partial (n := 100) alD_ok statics_envD stD_good consts_stD (by omega)
    [([93], none), ([91, 93], some (.arr [] false)), ([], none)] (by simp [specJ]) fun q hq => by
      simp only [List.mem_cons, List.not_mem_nil, or_false] at hq
      rcases hq with rfl | rfl | rfl
      · exact noValue_bracket
      · exact ⟨.tok .lb (.tok .rb .nil), by decide, by decide, by decide, by decide +kernel, by decide +kernel, by simp [distinct, distinctL]⟩
      · exact noValue_nil

/-- those of `C134_all_partial`, by `]` and `[]` -/
example [Libc] : ∃ (H' : JHeap) (new dead : List Nat), serve envD 200 100 6 stD [[93], [91, 93]] =
      .ok (some (H', [none, some ((compact (.arr [])).map some)])) ∧
    Kept sgD stD H' ∧ new.Nodup ∧ (∀ y ∈ new, stD.m.h.live y = false) ∧
    (∀ y, H'.m.h.live y = true ↔ stD.m.h.live y = true ∨ y ∈ new) ∧ new.length ≤ 27 ∧
    dead.Nodup ∧ (∀ y ∈ dead, y ∈ new ∧ H'.m.h.deg y = 0) ∧ dead.length = 1 :=
  C134_all_partial (n := 100) (N := 6) alD_ok statics_envD stD_good consts_stD
    [([93], none), ([91, 93], some (.arr [] false))] (by simp [specJ]) fun q hq => by
      simp only [List.mem_cons, List.not_mem_nil, or_false] at hq
      rcases hq with rfl | rfl
      · exact ⟨by decide, by decide, by decide, Verif.Json.Props.close_no_doc⟩
      · exact ⟨.tok .lb (.tok .rb .nil), by decide, by decide, by decide, by decide +kernel, by decide +kernel, by simp [distinct, distinctL]⟩

/-- those of `C134_error_false`, by any number of times `]` -/
example [Libc] (k : Nat) : ∃ H' new, serve envD 100 100 6 stD (List.replicate k [93]) = .ok (some (H', List.replicate k none)) ∧
    Adds stD H' new ∧ new.length = k := by
  simpa using C134_error_false (n := 100) (fuel := 100) (N := 6) alD_ok (sane_of stD_good) (by omega) (by omega) (List.replicate k [93])
    fun t ht => by rw [List.eq_of_mem_replicate ht]; exact noValue_bracket

end RoundProps
end Verif.Rc
