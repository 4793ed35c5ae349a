import Verif.Rc.RoundRc
import Verif.Json.ReformatProps

/-!
# C132: a document is read, printed and deleted

`cee_json_parsex` (parser.c:32-261), `cee_json_asprint` (snprint.c:354-363), `cee_del` of the text and of the document, on memory
-/

namespace Verif.Rc.RoundProps
open Verif.Json (Byte Tok Atom Val Libc Syn Yields Spells Number nextToken listNext compact render nsteps asprint shortAtom shortKey)
open Verif.Json.Props (numEnd_nul)
open Verif.Rc.Props Verif.Rc.MapProps Verif.Rc.JsonProps Verif.Rc.ParseProps
open Verif.Rc.PrintProps (Over Sane AlFree shows blobs)

section
variable {sg oth : Nat → Bool} {E : PEnv} {X0 : JS} {H : JHeap}

theorem consts_kept {H' : JHeap} {X : JS} {idx : Nat → Nat} {n l r : Nat} (J0 : JG sg E.eqv oth X0 H) (st : Statics E sg) (c : Consts E H)
    (k : Core sg E.eqv oth X0 X H' idx n l r) : Consts E H' := by
  have key : ∀ s, sg s = true → H'.tag s = H.tag s := fun s hs => by
    have h0 := J0.staticIn hs
    rw [k.J.tag s (k.old.sub h0), J0.tag s h0, k.old.kind s h0]
  exact ⟨by rw [key _ st.yes]; exact c.yes, by rw [key _ st.no]; exact c.no, by rw [key _ st.null]; exact c.null, c.ne⟩

/-- The text `text` of the value at `j` in `H'` is printed in the format `f`, and deleted, and then the value is deleted: the text is
in a block `p` that was not live, without it memory has the blocks of `H'`, and without the value those of `H`, in which all is as
it was -/
def Cycle [Libc] (sg : Nat → Bool) (E : PEnv) (fuel n n0 : Nat) (f : Bool) (H H' : JHeap) (j : Nat) (text : List Byte) (P : JHeap → Prop) : Prop :=
  ∃ H1 p b, memAsprint E.printer fuel n f H' n0 (some j) = .ok (some (H1, p, b, text.length)) ∧
    b.take (text.length + 1) = (text ++ [0]).map some ∧ H'.m.h.live p = false ∧
    ∃ H2, mdel fuel H1 p = .ok (some H2) ∧ (∀ y, H2.m.h.live y = H'.m.h.live y) ∧ P H2 ∧
      ∃ H3, jsonDel fuel H2 (some j) = .ok (some H3) ∧ (∀ y, H3.m.h.live y = H.m.h.live y) ∧ Kept sg H H3

theorem Cycle.mono [Libc] {fuel n n0 : Nat} {f : Bool} {H' : JHeap} {j : Nat} {text : List Byte} {P P' : JHeap → Prop}
    (h : Cycle sg E fuel n n0 f H H' j text P) (hp : ∀ H2, P H2 → P' H2) : Cycle sg E fuel n n0 f H H' j text P' := by
  obtain ⟨H1, p, b, h1, h2, h3, H2, h4, h5, h6, h7⟩ := h
  exact ⟨H1, p, b, h1, h2, h3, H2, h4, h5, hp H2 h6, h7⟩

theorem cycle [Libc] {σ : Type} {next : σ → Res (Tok × σ)} {fuel N n : Nat} {forceEof f : Bool} (al : AlOk E) (st : Statics E sg)
    (J0 : JG sg E.eqv oth X0 H) (c : Consts E H) (x : Syn) {t t' : σ} (hok : Lits next t)
    (hy : Yields next t x.toks t') (hd : x.depth ≤ 511) (he : forceEof = true → ∃ t'', next t' = .ok (.eof, t''))
    (hN : x.toks.length ≤ N) (hf : X0.x.s.D.length + (2 + 4 * N) ≤ fuel) (hx : distinct x) (hh : x.val.height < 500) {text : List Byte}
    (ha : ∃ b, asprint n f x.val = .ok (some (b, text.length)) ∧ b.take (text.length + 1) = (text ++ [0]).map some) :
    ∃ j s', memParse E fuel next N forceEof H t = .ok (some (some (some j), s')) ∧
      Cycle sg E fuel n s'.n f H s'.H j text fun H2 => ∃ X, JG sg E.eqv oth X H2 := by
  obtain ⟨j, s', X, idx, l, r, e, k, hl, hj, hjn, hh', ho⟩ := parse_core al st J0 x hok hy hd he hN hf
  have sn := sane_of k.J
  have hsh := shows_of k (consts_kept J0 st c k) x.val j hj hjn hh'
  obtain ⟨H1, p, b, T, h1, h2, h3, h4⟩ := Verif.Rc.PrintProps.asprint_over (free_of al) sn (fuel := fuel) (by omega) hsh hh ha s'.n
  rw [no_blobs x.val j hh'] at h4
  obtain rfl : T = [] := List.length_eq_zero_iff.1 h4
  obtain ⟨H2, h5, h6⟩ := h3.delRaw sn (fuel := fuel) (by omega)
  obtain ⟨k', own⟩ := same_core k h6
  obtain ⟨H3, h7, h8, h9⟩ := doc_del J0 k' hj (own (ho hx)) hl
  refine ⟨j, s', e, H1, p, b, h1, h2, ?_, H2, h5, fun y => ?_, ⟨_, k'.J⟩, H3, h7, h8, h9⟩
  · exact h3.fresh (p, []) (by simp)
  · rw [Bool.eq_iff_iff, h6.live]; simp

/-- **C132** (partial): let a document without an object that has a key twice and of height below 500 be parsed (C106).  Then
`cee_json_asprint` gives its compact text; after that text was deleted, `cee_del` of the document frees all that the parser
allocated, and what was in memory before the parsing is as it was, so that no block of the printer stays and the counts of the keys
are back.  Missing: higher values, of which the printer leaves frames (`C131_deep_false`), and objects with a key twice, of which the
parser leaves blocks (`C106_twice_false`). -/
theorem C132_partial [Libc] {σ : Type} {next : σ → Res (Tok × σ)} {fuel N n : Nat} {forceEof : Bool} (al : AlOk E) (st : Statics E sg)
    (J0 : JG sg E.eqv oth X0 H) (c : Consts E H) (x : Syn) {t t' : σ} (hok : Lits next t)
    (hy : Yields next t x.toks t') (hd : x.depth ≤ 511) (he : forceEof = true → ∃ t'', next t' = .ok (.eof, t''))
    (hN : x.toks.length ≤ N) (hf : X0.x.s.D.length + (2 + 4 * N) ≤ fuel) (hx : distinct x) (hh : x.val.height < 500)
    (hs : x.val.All shortAtom shortKey) (hn : nsteps x.val ≤ n) :
    ∃ j s', memParse E fuel next N forceEof H t = .ok (some (some (some j), s')) ∧
      Cycle sg E fuel n s'.n false H s'.H j (compact x.val) fun H2 => ∃ X, JG sg E.eqv oth X H2 :=
  cycle al st J0 c x hok hy hd he hN hf hx hh (Verif.Json.Props.C33_compact _ hh hs n hn)

/-- **C132** (partial), the pretty format, of values of height up to 128.  Missing: as for `C132_partial`, and more indented values
(the tabs are counted in a `char`). -/
theorem C132_pretty_partial [Libc] {σ : Type} {next : σ → Res (Tok × σ)} {fuel N n : Nat} {forceEof : Bool} (al : AlOk E)
    (st : Statics E sg) (J0 : JG sg E.eqv oth X0 H) (c : Consts E H) (x : Syn) {t t' : σ} (hok : Lits next t)
    (hy : Yields next t x.toks t') (hd : x.depth ≤ 511) (he : forceEof = true → ∃ t'', next t' = .ok (.eof, t''))
    (hN : x.toks.length ≤ N) (hf : X0.x.s.D.length + (2 + 4 * N) ≤ fuel) (hx : distinct x) (hh : x.val.height ≤ 128)
    (hn : nsteps x.val ≤ n) :
    ∃ j s', memParse E fuel next N forceEof H t = .ok (some (some (some j), s')) ∧
      Cycle sg E fuel n s'.n true H s'.H j (render true 0 x.val) fun H2 => ∃ X, JG sg E.eqv oth X H2 :=
  cycle al st J0 c x hok hy hd he hN hf hx (by omega) (Verif.Json.Props.C33_pretty _ hh n hn)

/-- strings that were read are short -/
theorem read_short [Libc] {text : List Byte} {x : Syn} (hx : Spells text x.toks) (hlen : text.length < 2 ^ 31) :
    x.val.All shortAtom shortKey := by
  have h := Verif.Json.spells_kept hx hlen
  have hs : ∀ s, Tok.str s ∈ x.toks → s.length < 2 ^ 32 := fun s hs => by
    have := ((h _ hs).1 s rfl).2
    omega
  refine Verif.Json.toks_all x (fun a ha => ?_) (fun s hs' => ⟨hs s hs', hs s hs'⟩)
  rcases (h _ ha).2 a rfl with h | ⟨d, rfl⟩
  · cases a with
    | str s => have := h.2; show s.length < 2 ^ 32; omega
    | strn s => cases h
    | _ => trivial
  · trivial

/-- a text is a source of tokens -/
theorem text_source [Libc] {text : List Byte} {x : Syn} (ht : Spells text x.toks) (hlen : text.length < 2 ^ 31) (extra : List Byte) :
    ∃ t', Yields nextToken ⟨text ++ 0 :: extra, text.length, 0⟩ x.toks t' ∧ ∃ t'', nextToken t' = .ok (.eof, t'') := by
  obtain ⟨ws, line1, hws, hy⟩ := (Verif.Json.spells_lexes ht (Verif.Json.plain_doc x) hlen).1 (0 :: extra) 0 0 (numEnd_nul extra)
  obtain ⟨line2, e⟩ := Verif.Json.skip_ws ws hws (0 :: extra) 0 line1
  exact ⟨_, hy, ⟨0 :: extra, 0, line2⟩, by rw [e]; exact Verif.Json.nextToken_step (by rw [Verif.Json.tokenStep, if_pos rfl])⟩

/-- **C132** (partial) for texts: a text of the lexemes of a document with any white space is read, and its value printed in compact
form, with the deletions as in `C132_partial`.  If each double is printed as a number that is read as this double, the printed text can
be read into memory again, which gives a second document with the same value.  Missing: as for `C132_partial`, and other doubles
(`C125_inf_false`). -/
theorem C132_text_partial [Libc] {fuel N n : Nat} (al : AlOk E) (st : Statics E sg) (J0 : JG sg E.eqv oth X0 H) (c : Consts E H)
    (text extra : List Byte) (hlen : text.length < 2 ^ 31) (x : Syn) (ht : Spells text x.toks) (hd : x.depth ≤ 511)
    (hN : text.length ≤ N) (hf : X0.x.s.D.length + (2 + 4 * N) ≤ fuel) (hx : distinct x) (hh : x.val.height < 500)
    (hn : nsteps x.val ≤ n) :
    ∃ j s', memParse E fuel nextToken N true H ⟨text ++ 0 :: extra, text.length, 0⟩ = .ok (some (some (some j), s')) ∧
      Cycle sg E fuel n s'.n false H s'.H j (compact x.val) fun H2 =>
        x.val.All (fun a => ∀ d, a = .dbl d → Number (Libc.lg d) (.dbl d)) (fun _ => True) → (compact x.val).length < 2 ^ 31 →
        ∀ extra' N', (compact x.val).length ≤ N' → ∃ F, ∀ fuel' ≥ F, ∃ j2 s2,
          memParse E fuel' nextToken N' true H2 ⟨compact x.val ++ 0 :: extra', (compact x.val).length, 0⟩ =
            .ok (some (some (some j2), s2)) ∧ Parsed sg E oth H2 s2.H j2 x.val := by
  obtain ⟨t', hy, he⟩ := text_source ht hlen extra
  obtain ⟨j, s', h1, h2⟩ := C132_partial (forceEof := true) al st J0 c x (lits_text _) hy hd (fun _ => he)
    (Nat.le_trans (Verif.Json.spells_length ht) hN) hf hx hh (read_short ht hlen) hn
  refine ⟨j, s', h1, h2.mono fun H2 ⟨X, J⟩ hdbl hl extra' N' hN' => ⟨X.x.s.D.length + (2 + 4 * N'), fun fuel' hf' => ?_⟩⟩
  have hk := Verif.Json.Props.read_kept ht hlen hdbl
  have sp := Verif.Json.kept_spells false hk
  rw [Verif.Json.render_compact _ (Verif.Json.kept_short hk)] at sp
  have hdep := Verif.Json.depth_le_height x.val
  obtain ⟨j2, s2, h3, h4, -⟩ := C106_text_partial al st J (compact x.val) extra' hl (Verif.Json.synOf x.val) sp
    (by rw [Verif.Json.synOf_depth]; omega) hN' hf'
  rw [Verif.Json.synOf_val _ (Verif.Json.syn_distinct x)] at h4
  exact ⟨j2, s2, h3, h4⟩

end

/-! ## examples -/

theorem consts_stD : Consts envD stD := ⟨rfl, rfl, rfl, by decide⟩

/-- the hypotheses of `C132_partial` are met by `{"a": [null, "x", 1], "b": {}}` -/
example [Libc] : ∃ j s', memParse envD 100 listNext 20 true stD docD.toks = .ok (some (some (some j), s')) ∧
    Cycle sgD envD 100 100 s'.n false stD s'.H j (compact docD.val) fun H2 => ∃ X, JG sgD envD.eqv (fun _ => false) X H2 :=
  C132_partial alD_ok statics_envD stD_good consts_stD docD
    (lits_list (by simp [docD, Syn.toks, Verif.Json.toksL, Verif.Json.toksF, Verif.Json.body, Verif.Json.bodyTail, TokOk]))
    (by have := yields_list docD.toks []; rwa [List.append_nil] at this)
    (by simp [docD, Syn.depth, Verif.Json.depthL, Verif.Json.depthF]) (fun _ => ⟨[], rfl⟩)
    (by simp [docD, Syn.toks, Verif.Json.toksL, Verif.Json.toksF, Verif.Json.body, Verif.Json.bodyTail]) (by simp [specJ])
    (by simp [docD, distinct, distinctF, distinctL]) (by decide +kernel)
    (by simp [docD, Syn.val, Verif.Json.valL, Verif.Json.valF, Val.All, Verif.Json.AllL, Verif.Json.AllF, Verif.Json.insertKey, shortAtom, shortKey])
    (by decide +kernel)

/-- those of `C132_pretty_partial` -/
example [Libc] : ∃ j s', memParse envD 100 listNext 20 true stD docD.toks = .ok (some (some (some j), s')) ∧
    Cycle sgD envD 100 100 s'.n true stD s'.H j (render true 0 docD.val) fun H2 => ∃ X, JG sgD envD.eqv (fun _ => false) X H2 :=
  C132_pretty_partial alD_ok statics_envD stD_good consts_stD docD
    (lits_list (by simp [docD, Syn.toks, Verif.Json.toksL, Verif.Json.toksF, Verif.Json.body, Verif.Json.bodyTail, TokOk]))
    (by have := yields_list docD.toks []; rwa [List.append_nil] at this)
    (by simp [docD, Syn.depth, Verif.Json.depthL, Verif.Json.depthF]) (fun _ => ⟨[], rfl⟩)
    (by simp [docD, Syn.toks, Verif.Json.toksL, Verif.Json.toksF, Verif.Json.body, Verif.Json.bodyTail]) (by simp [specJ])
    (by simp [docD, distinct, distinctF, distinctL]) (by decide +kernel) (by decide +kernel)

/-- those of `C132_text_partial`, by ` ["x"]`, which is printed as `["x"]`; this can be read again -/
example [Libc] : ∃ j s', memParse envD 100 nextToken 6 true stD ⟨[32, 91, 34, 120, 34, 93] ++ 0 :: [], 6, 0⟩ =
      .ok (some (some (some j), s')) ∧
    Cycle sgD envD 100 100 s'.n false stD s'.H j [91, 34, 120, 34, 93] fun H2 => ∃ F, ∀ fuel' ≥ F, ∃ j2 s2,
      memParse envD fuel' nextToken 5 true H2 ⟨[91, 34, 120, 34, 93, 0], 5, 0⟩ = .ok (some (some (some j2), s2)) ∧
        Parsed sgD envD (fun _ => false) H2 s2.H j2 (.arr [.atom (.str [120])]) := by
  have e : compact (.arr [.atom (.str [120])]) = [91, 34, 120, 34, 93] := by rfl
  have e' : (Syn.arr [.str [120]] false).val = .arr [.atom (.str [120])] := rfl
  obtain ⟨j, s', h1, h2⟩ := C132_text_partial (fuel := 100) (N := 6) (n := 100) alD_ok statics_envD stD_good consts_stD
    [32, 91, 34, 120, 34, 93] [] (by decide) (.arr [.str [120]] false)
    (.ws (Or.inl rfl) (.tok .lb (.tok (w := [34, 120, 34]) (.str (s := [120]) (.raw (by decide) (by decide) (by decide) .nil)
      (Or.inl ⟨by decide, by decide, rfl⟩)) (.tok .rb .nil))))
    (by decide) (by decide) (by simp [specJ]) (by simp [distinct, distinctL]) (by decide +kernel) (by decide +kernel)
  rw [e', e] at h2
  exact ⟨j, s', h1, h2.mono fun H2 h => h (by simp [Val.All, Verif.Json.AllL]) (by decide) [] 5 (by decide)⟩

end Verif.Rc.RoundProps
