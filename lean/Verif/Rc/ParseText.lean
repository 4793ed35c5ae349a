import Verif.Rc.ParseRcProps
import Verif.Json.LexemeProps

/-!
# C106 for texts
-/

namespace Verif.Rc.ParseProps
open Verif.Json (Byte Tok Atom Val Libc Lexeme Number Spells Tz nextToken nextTokenN tokenStep tokenStep_sound Yields Syn
  parsex parseWith PResult plain_doc spells_lexes spells_length skip_ws nextToken_step)
open Verif.Json.Props (numEnd_nul)
open Verif.Rc.Props Verif.Rc.JsonProps

theorem lexeme_tok [Libc] {w : List Byte} {c : Tok} (h : Lexeme w c) : TokOk c := by
  cases h with
  | num h => cases h <;> trivial
  | _ => trivial

theorem step_tok [Libc] {t t' : Tz} {c : Tok} (h : tokenStep t = .ok (some (c, t'))) : TokOk c := by
  rcases tokenStep_sound h with ⟨rfl, -⟩ | ⟨rfl, -⟩ | rfl | ⟨-, -, w, -, hlx, -⟩
  · trivial
  · trivial
  · trivial
  · exact lexeme_tok hlx

theorem token_tok [Libc] (n : Nat) : ∀ {t t' : Tz} {c : Tok}, nextTokenN n t = .ok (c, t') → TokOk c := by
  induction n with
  | zero =>
    intro t t' c h
    rw [nextTokenN] at h
    obtain ⟨r, h1, h2⟩ := Res.bind_eq_ok.1 h
    cases r with
    | none => cases h2
    | some r => cases h2; exact step_tok h1
  | succ n ih =>
    intro t t' c h
    rw [nextTokenN] at h
    obtain ⟨r, h1, h2⟩ := Res.bind_eq_ok.1 h
    cases r with
    | none => exact ih h2
    | some r => cases h2; exact step_tok h1

/-- the tokenizer gives no other literals -/
theorem lits_text [Libc] (t : Tz) : Lits nextToken t := by
  intro ts t' hy
  induction hy with
  | nil => simp
  | cons h _ ih =>
    intro c hc
    rcases List.mem_cons.1 hc with rfl | hc
    · exact token_tok _ h
    · exact ih c hc

section
variable {sg oth : Nat → Bool} {E : PEnv} {X0 : JS} {H : JHeap}

/-- **C106** (partial) for texts: on a text of the lexemes of a document with any white space, `cee_json_parsex` with
`force_eof` gives the value of the document in memory, and leaves the rest of memory as it was; if no object has a key
twice, `cee_del` of the document frees all that was allocated.  Missing: as for `C106_partial`. -/
theorem C106_text_partial [Libc] {fuel N : Nat} (al : AlOk E) (st : Statics E sg) (J0 : JG sg E.eqv oth X0 H)
    (text extra : List Byte) (hlen : text.length < 2 ^ 31) (x : Syn) (hx : Spells text x.toks) (hd : x.depth ≤ 511)
    (hN : text.length ≤ N)
    (hf : X0.x.s.D.length + (2 + 4 * N) ≤ fuel) :
    ∃ j s', memParse E fuel nextToken N true H ⟨text ++ 0 :: extra, text.length, 0⟩ = .ok (some (some (some j), s')) ∧
      Parsed sg E oth H s'.H j x.val ∧
      (distinct x → (∀ y, s'.H.m.h.live y = true → H.m.h.live y = false → y ≠ j → 0 < s'.H.m.h.deg y) ∧
        ∃ H', jsonDel fuel s'.H (some j) = .ok (some H') ∧ (∀ y, H'.m.h.live y = H.m.h.live y) ∧ Kept sg H H') := by
  obtain ⟨ws, line1, hws, hy⟩ := (spells_lexes hx (plain_doc x) hlen).1 (0 :: extra) 0 0 (numEnd_nul extra)
  obtain ⟨line2, e⟩ := skip_ws ws hws (0 :: extra) 0 line1
  refine C106_partial al st J0 x (lits_text _) hy hd (fun _ => ⟨⟨0 :: extra, 0, line2⟩, ?_⟩)
    (Nat.le_trans (spells_length hx) hN) hf
  rw [e]; exact nextToken_step (by rw [tokenStep, if_pos rfl])

/-- **C106**: on every other text that ends at a NUL, `cee_json_parsex` with `force_eof` answers `EINVAL`, no freed memory
is used, what was in memory before is as it was, and the counts are correct -/
theorem C106_text_rejects [Libc] {fuel N : Nat} (al : AlOk E) (st : Statics E sg) (J0 : JG sg E.eqv oth X0 H)
    (text extra : List Byte) (h0 : 0 ∉ text) (hlen : text.length + extra.length + 1 < 2 ^ 31)
    (h : ¬ ∃ x : Syn, Spells text x.toks ∧ x.depth ≤ 511) (hN : text.length + extra.length + 1 ≤ N)
    (hf : X0.x.s.D.length + (2 + 4 * N) ≤ fuel) :
    ∃ s', memParse E fuel nextToken N true H ⟨text ++ 0 :: extra, text.length, 0⟩ = .ok (some (none, s')) ∧
      Kept sg H s'.H ∧ (∃ X, JG sg E.eqv oth X s'.H) ∧ Left H s'.H (3 + 4 * N) := by
  obtain ⟨t, e⟩ := Verif.Json.Props.C92_rejects text extra h0 hlen N hN h
  have := C106_safe (forceEof := true) al st J0 ⟨text ++ 0 :: extra, text.length, 0⟩ (lits_text _) hf
  rw [parsex] at e
  rw [e] at this
  exact this

end

/-- the hypotheses of `C106_text_partial` are met by ` ["x"]` -/
example [Libc] : ∃ j s', memParse envD 100 nextToken 6 true stD ⟨[32, 91, 34, 120, 34, 93] ++ 0 :: [], 6, 0⟩ =
      .ok (some (some (some j), s')) ∧
    Parsed sgD envD (fun _ => false) stD s'.H j (.arr [.atom (.str [120])]) := by
  obtain ⟨j, s', h1, h2, -⟩ := C106_text_partial (fuel := 100) (N := 6) alD_ok statics_envD stD_good [32, 91, 34, 120, 34, 93] []
    (by decide) (.arr [.str [120]] false)
    (.ws (Or.inl rfl) (.tok .lb (.tok (w := [34, 120, 34]) (.str (s := [120]) (.raw (by decide) (by decide) (by decide) .nil)
      (Or.inl ⟨by decide, by decide, rfl⟩)) (.tok .rb .nil))))
    (by decide) (by decide) (by simp [specJ])
  exact ⟨j, s', h1, h2⟩

/-- the hypotheses of `C106_text_rejects` are met by `]` -/
example [Libc] : ∃ s', memParse envD 100 nextToken 2 true stD ⟨[93] ++ 0 :: [], 1, 0⟩ = .ok (some (none, s')) ∧
    Kept sgD stD s'.H ∧ (∃ X, JG sgD envD.eqv (fun _ => false) X s'.H) ∧ Left stD s'.H 11 :=
  C106_text_rejects (fuel := 100) (N := 2) alD_ok statics_envD stD_good [93] [] (by decide) (by decide) Verif.Json.Props.close_no_doc (by decide)
    (by simp [specJ])

end Verif.Rc.ParseProps
