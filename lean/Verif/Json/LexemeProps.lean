import Verif.Json.Lexeme

/-! # Property C92: the texts `cee_json_parsex` accepts, byte by byte (theorems) -/

namespace Verif.Json

/-! ## lexemes -/

theorem Digits.nul {ds : List Byte} (h : Digits ds) : 0 ∉ ds := by
  intro h0
  have h1 := h.2 0 h0
  have h2 : (0 : Byte).toNat = 0 := rfl
  omega

theorem Frac.nul {f : List Byte} (h : Frac f) : 0 ∉ f := by
  rcases h with rfl | ⟨ds, rfl, hD⟩
  · simp
  · simp only [List.mem_cons, not_or]; exact ⟨by decide, hD.nul⟩

theorem Expo.nul {x : List Byte} (h : Expo x) : 0 ∉ x := by
  rcases h with rfl | ⟨e, sg, ds, rfl, he, hs, hD⟩
  · simp
  · simp only [List.mem_cons, List.mem_append, not_or]
    refine ⟨?_, ?_, hD.nul⟩
    · rcases he with rfl | rfl <;> decide
    · rcases hs with rfl | rfl | rfl <;> decide

theorem Number.nul [Libc] {w : List Byte} {a : Atom} (h : Number w a) : 0 ∉ w := by
  cases h with
  | pos hD _ => exact hD.nul
  | neg hD _ => simp only [List.mem_cons, not_or]; exact ⟨by decide, hD.nul⟩
  | dbl hs hD hF hE _ =>
    simp only [List.mem_append, not_or]
    refine ⟨?_, hD.nul, hF.nul, hE.nul⟩
    rcases hs with rfl | rfl <;> decide

theorem Number.start [Libc] {w : List Byte} {a : Atom} (h : Number w a) :
    ∃ c m, w = c :: m ∧ (c == 45 || isDigit c) = true := by
  have dig : ∀ {ds : List Byte}, Digits ds → ∀ r, ∃ c m, ds ++ r = c :: m ∧ (c == 45 || isDigit c) = true := by
    rintro ds ⟨hne, hd⟩ r
    cases ds with
    | nil => exact absurd rfl hne
    | cons c ds => exact ⟨c, ds ++ r, rfl, by rw [(isDigit_iff c).2 (hd c (List.mem_cons_self ..))]; simp⟩
  cases h with
  | pos hD _ => have := dig hD []; rwa [List.append_nil] at this
  | neg hD _ => exact ⟨45, _, rfl, rfl⟩
  | dbl hs hD _ _ _ =>
    rcases hs with rfl | rfl
    · exact dig hD _
    · exact ⟨45, _, rfl, rfl⟩

theorem Lexeme.nul [Libc] {w : List Byte} {t : Tok} (h : Lexeme w t) : 0 ∉ w := by
  cases h with
  | num h => exact h.nul
  | str h _ =>
    simp only [List.mem_cons, List.mem_append, not_or]
    exact ⟨by decide, h.nul, by decide, by simp⟩
  | _ => decide

/-! ## what is read is a lexeme -/

theorem take_some {t t' : Tz} {tok : Tok} {r : Res (Option (Tok × List Byte))}
    (h : (t.take r).map some = .ok (some (tok, t'))) (he : tok ≠ .err) :
    ∃ m, r = .ok (some (tok, m)) ∧ t' = t.to m := by
  cases r with
  | ok x =>
    cases x with
    | none =>
      simp only [Tz.take, Res.map, Res.ok.injEq, Option.some.injEq, Prod.mk.injEq] at h
      exact absurd h.1.symm he
    | some x =>
      obtain ⟨k, m⟩ := x
      simp only [Tz.take, Res.map, Res.ok.injEq, Option.some.injEq, Prod.mk.injEq] at h
      obtain ⟨rfl, rfl⟩ := h
      exact ⟨m, rfl, rfl⟩
  | ub => cases h
  | segv => cases h

theorem check_some {ps : List Byte} : ∀ {m m' : List Byte}, check ps m = .ok (some m') → m = ps ++ m' := by
  induction ps with
  | nil => intro m m' h; cases h; rfl
  | cons p ps ih =>
    intro m m' h
    cases m with
    | nil => cases h
    | cons c m =>
      rw [check] at h
      by_cases hc : c = p
      · subst hc
        simp only [BEq.rfl, ↓reduceIte] at h
        rw [ih h]; rfl
      · simp [hc] at h

theorem comment_tok : ∀ (n : Nat) (m : List Byte) {tok : Tok}, comment n m = .ok tok →
    (tok = .eof ∨ tok = .err) ∧ (tok = .eof → ∃ i, i < n ∧ m[i]? = some 0) := by
  intro n
  induction n with
  | zero => intro m tok h; cases h; exact ⟨.inr rfl, by simp⟩
  | succ n ih =>
    intro m tok h
    cases m with
    | nil => cases h
    | cons c m =>
      rw [comment] at h
      by_cases hc : c = 0
      · subst hc; cases h; exact ⟨.inl rfl, fun _ => ⟨0, by omega, rfl⟩⟩
      · by_cases hn : c = 10
        · subst hn; cases h; exact ⟨.inr rfl, by simp⟩
        · simp only [beq_iff_eq, hc, hn, ↓reduceIte] at h
          obtain ⟨h1, h2⟩ := ih m h
          refine ⟨h1, fun he => ?_⟩
          obtain ⟨i, hi, hz⟩ := h2 he
          exact ⟨i + 1, by omega, hz⟩

/-- the outcomes of one turn of the loop: white space, a lexeme, the end of the text, a comment that runs to a
NUL before it, or an error -/
def StepIs [Libc] (t : Tz) (r : Option (Tok × Tz)) : Prop :=
    match r with
    | none => t.left ≠ 0 ∧ ∃ c m, t.mem = c :: m ∧ Space c
    | some (tok, t') =>
      (tok = .eof ∧ t.left = 0) ∨
      (tok = .eof ∧ ∃ m i, t.mem = 47 :: 47 :: m ∧ i < t.left - 2 ∧ m[i]? = some 0) ∨
      tok = .err ∨ (t.left ≠ 0 ∧ tok ≠ .eof ∧ ∃ w, t.mem = w ++ t'.mem ∧ Lexeme w tok ∧ t' = t.to t'.mem)

theorem tokenStep_sound [Libc] {t : Tz} {r : Option (Tok × Tz)} (h : tokenStep t = .ok r) : StepIs t r := by
  rw [tokenStep] at h
  by_cases hl : t.left = 0
  · rw [if_pos hl] at h; cases h; exact .inl ⟨rfl, hl⟩
  · rw [if_neg hl] at h
    obtain ⟨mem, left, line⟩ := t
    simp only at hl h
    cases mem with
    | nil => cases h
    | cons c m =>
      simp only at h
      have lex : ∀ {tok : Tok} {t' : Tz} {w m' : List Byte}, t' = (⟨c :: m, left, line⟩ : Tz).to m' → c :: m = w ++ m' →
          Lexeme w tok →
          (left ≠ 0 ∧ tok ≠ .eof ∧ ∃ w, c :: m = w ++ t'.mem ∧ Lexeme w tok ∧ t' = (⟨c :: m, left, line⟩ : Tz).to t'.mem) := by
        rintro tok t' w m' rfl hw hlx
        exact ⟨hl, (by rintro rfl; cases hlx), w, hw, hlx, rfl⟩
      by_cases c1 : c = 91
      · subst c1; cases h; exact .inr (.inr (.inr (lex (w := [91]) rfl rfl .lb)))
      by_cases c2 : c = 123
      · subst c2; cases h; exact .inr (.inr (.inr (lex (w := [123]) rfl rfl .lc)))
      by_cases c3 : c = 58
      · subst c3; cases h; exact .inr (.inr (.inr (lex (w := [58]) rfl rfl .colon)))
      by_cases c4 : c = 44
      · subst c4; cases h; exact .inr (.inr (.inr (lex (w := [44]) rfl rfl .comma)))
      by_cases c5 : c = 125
      · subst c5; cases h; exact .inr (.inr (.inr (lex (w := [125]) rfl rfl .rc)))
      by_cases c6 : c = 93
      · subst c6; cases h; exact .inr (.inr (.inr (lex (w := [93]) rfl rfl .rb)))
      simp only [beq_iff_eq, c1, c2, c3, c4, c5, c6, ↓reduceIte] at h
      have taken : ∀ {x : Res (Option (Tok × List Byte))}, ((⟨c :: m, left, line⟩ : Tz).take x).map some = .ok r →
          (∀ tok m', x = .ok (some (tok, m')) → ∃ w, c :: m = w ++ m' ∧ Lexeme w tok) →
          StepIs ⟨c :: m, left, line⟩ r := by
        intro x hx hw
        cases r with
        | none =>
          cases ht : (⟨c :: m, left, line⟩ : Tz).take x with
          | ok y => rw [ht] at hx; cases hx
          | ub => rw [ht] at hx; cases hx
          | segv => rw [ht] at hx; cases hx
        | some y =>
          obtain ⟨tok, t'⟩ := y
          by_cases he : tok = .err
          · exact .inr (.inr (.inl he))
          · obtain ⟨m', hxm, ht'⟩ := take_some hx he
            obtain ⟨w, h1, h2⟩ := hw tok m' hxm
            exact .inr (.inr (.inr (lex ht' h1 h2)))
      cases hws : (c == 10 || c == 13 || c == 32 || c == 9) with
      | true =>
        simp only [hws, ↓reduceIte, Res.ok.injEq] at h
        subst h
        refine ⟨hl, c, m, rfl, ?_⟩
        simp only [Bool.or_eq_true, beq_iff_eq] at hws
        unfold Space
        rcases hws with ((h | h) | h) | h <;> simp [h]
      | false =>
        simp only [hws, Bool.false_eq_true, ↓reduceIte] at h
        by_cases c7 : c = 34
        · subst c7
          simp only [↓reduceIte] at h
          refine taken h ?_
          intro tok m' hx
          cases hp : parseString m with
          | ok r' =>
            rw [hp] at hx
            cases r' with
            | none => cases hx
            | some r' =>
              obtain ⟨text, rest⟩ := r'
              cases hx
              obtain ⟨s, h1, h2, h3⟩ := parseString_sound hp
              exact ⟨34 :: (s ++ [34]), by rw [h1]; simp, .str h2 h3⟩
          | ub => rw [hp] at hx; cases hx
          | segv => rw [hp] at hx; cases hx
        have word : ∀ {ps : List Byte} {k : Tok}, Lexeme (c :: ps) k → ∀ tok m',
            ((check ps m).map fun r => r.map fun m => (k, m)) = .ok (some (tok, m')) →
            ∃ w, c :: m = w ++ m' ∧ Lexeme w tok := by
          intro ps k hk tok m' hx
          cases hp : check ps m with
          | ok r' =>
            rw [hp] at hx
            cases r' with
            | none => cases hx
            | some r' =>
              cases hx
              exact ⟨c :: ps, by rw [check_some hp]; rfl, hk⟩
          | ub => rw [hp] at hx; cases hx
          | segv => rw [hp] at hx; cases hx
        by_cases c8 : c = 116
        · subst c8; simp only [↓reduceIte, c7] at h; exact taken h (word .yes)
        by_cases c9 : c = 110
        · subst c9; simp only [↓reduceIte, c7, c8] at h; exact taken h (word .null)
        by_cases c10 : c = 102
        · subst c10; simp only [↓reduceIte, c7, c8, c9] at h; exact taken h (word .no)
        simp only [↓reduceIte, c7, c8, c9, c10] at h
        cases hnum : (c == 45 || isDigit c) with
        | true =>
          simp only [hnum, ↓reduceIte] at h
          refine taken h ?_
          intro tok m' hx
          cases hp : parseNumber (c :: m) with
          | ok r' =>
            rw [hp] at hx
            cases r' with
            | none => cases hx
            | some r' =>
              obtain ⟨a, rest⟩ := r'
              cases hx
              obtain ⟨w, h1, h2⟩ := parseNumber_sound hp
              exact ⟨w, h1, .num h2⟩
          | ub => rw [hp] at hx; cases hx
          | segv => rw [hp] at hx; cases hx
        | false =>
          simp only [hnum, Bool.false_eq_true, ↓reduceIte] at h
          by_cases c11 : c = 47
          · subst c11
            simp only [↓reduceIte] at h
            obtain ⟨x, hx, h⟩ := Res.bind_eq_ok.1 h
            cases x with
            | none => cases h; exact .inr (.inr (.inl rfl))
            | some m' =>
              have hm := check_some hx
              cases hc : comment (left - 2) m' with
              | ok tok =>
                simp only [hc, Res.map, Res.ok.injEq] at h
                subst h
                obtain ⟨h1, h2⟩ := comment_tok _ _ hc
                rcases h1 with h1 | h1
                · obtain ⟨i, hi⟩ := h2 h1
                  exact .inr (.inl ⟨h1, m', i, by rw [hm]; rfl, hi⟩)
                · exact .inr (.inr (.inl h1))
              | ub => simp only [hc] at h; cases h
              | segv => simp only [hc] at h; cases h
          · simp only [c11, ↓reduceIte] at h
            cases h; exact .inr (.inr (.inl rfl))

/-- the position in front of `s`, the rest of a text that a NUL follows -/
def At (extra s : List Byte) (t : Tz) : Prop := t.mem = s ++ 0 :: extra ∧ t.left = s.length

theorem split_nul {s w m extra : List Byte} (h : s ++ 0 :: extra = w ++ m) (hw : 0 ∉ w) :
    ∃ s', s = w ++ s' ∧ m = s' ++ 0 :: extra := by
  induction w generalizing s with
  | nil => exact ⟨s, rfl, h.symm⟩
  | cons c w ih =>
    simp only [List.mem_cons, not_or] at hw
    cases s with
    | nil =>
      simp only [List.nil_append, List.cons_append, List.cons.injEq] at h
      exact absurd h.1 hw.1
    | cons d s =>
      simp only [List.cons_append, List.cons.injEq] at h
      obtain ⟨rfl, h⟩ := h
      obtain ⟨s', rfl, h2⟩ := ih h hw.2
      exact ⟨s', rfl, h2⟩

/-- reading a token of a text without NUL: white space and then a lexeme, or only white space and the end -/
theorem nextTokenN_sound [Libc] (n : Nat) : ∀ {extra s : List Byte} {t t' : Tz} {tok : Tok}, At extra s t → 0 ∉ s →
    nextTokenN n t = .ok (tok, t') →
    (tok = .eof ∧ ∀ c ∈ s, Space c) ∨ tok = .err ∨
      (tok ≠ .eof ∧ ∃ ws w s', s = ws ++ (w ++ s') ∧ (∀ c ∈ ws, Space c) ∧ Lexeme w tok ∧ At extra s' t') := by
  have one : ∀ {extra s : List Byte} {t t' : Tz} {tok : Tok}, At extra s t → 0 ∉ s →
      tokenStep t = .ok (some (tok, t')) →
      (tok = .eof ∧ ∀ c ∈ s, Space c) ∨ tok = .err ∨
        (tok ≠ .eof ∧ ∃ ws w s', s = ws ++ (w ++ s') ∧ (∀ c ∈ ws, Space c) ∧ Lexeme w tok ∧ At extra s' t') := by
    intro extra s t t' tok hat h0 h
    rcases tokenStep_sound h with ⟨rfl, hl⟩ | ⟨rfl, m, i, hm, hi, hz⟩ | rfl | ⟨hl, hne, w, hm, hlx, ht⟩
    · rw [hat.2] at hl
      have := List.length_eq_zero_iff.1 hl
      subst this
      exact .inl ⟨rfl, by simp⟩
    · exfalso
      rw [hat.1] at hm
      rw [hat.2] at hi
      obtain ⟨s', rfl, hm'⟩ := split_nul (w := [47, 47]) (m := m) hm (by decide)
      rw [hm'] at hz
      simp only [List.cons_append, List.nil_append, List.length_cons] at hi
      rw [List.getElem?_append_left (by omega)] at hz
      exact h0 (List.mem_append_right _ (List.mem_of_getElem? hz))
    · exact .inr (.inl rfl)
    · rw [hat.1] at hm
      obtain ⟨s', rfl, hm'⟩ := split_nul hm hlx.nul
      refine .inr (.inr ⟨hne, [], w, s', rfl, by simp, hlx, hm', ?_⟩)
      rw [ht, Tz.to]
      simp only [hat.1, hat.2, hm', List.length_append, List.length_cons]
      omega
  induction n with
  | zero =>
    intro extra s t t' tok hat h0 h
    rw [nextTokenN] at h
    obtain ⟨r, hr, h⟩ := Res.bind_eq_ok.1 h
    cases r with
    | none => cases h
    | some r => cases h; exact one hat h0 hr
  | succ n ih =>
    intro extra s t t' tok hat h0 h
    rw [nextTokenN] at h
    obtain ⟨r, hr, h⟩ := Res.bind_eq_ok.1 h
    cases r with
    | some r => cases h; exact one hat h0 hr
    | none =>
      obtain ⟨hl, c, m, hm, hc⟩ := tokenStep_sound hr
      rw [hat.1] at hm
      rw [hat.2] at hl
      cases s with
      | nil => simp at hl
      | cons d s =>
        simp only [List.cons_append, List.cons.injEq] at hm
        obtain ⟨rfl, hm⟩ := hm
        have hat' : At extra s t.skip := by
          unfold At Tz.skip
          rw [hat.1, hat.2]
          exact ⟨rfl, by simp⟩
        simp only [List.mem_cons, not_or] at h0
        rcases ih hat' h0.2 h with ⟨h1, h2⟩ | h1 | ⟨h1, ws, w, s', rfl, h3, h4, h5⟩
        · refine .inl ⟨h1, ?_⟩
          rw [List.forall_mem_cons]; exact ⟨hc, h2⟩
        · exact .inr (.inl h1)
        · refine .inr (.inr ⟨h1, d :: ws, w, s', rfl, ?_, h4, h5⟩)
          rw [List.forall_mem_cons]; exact ⟨hc, h3⟩

theorem Spells.space [Libc] {ws s : List Byte} {ts : List Tok} (hws : ∀ c ∈ ws, Space c) (h : Spells s ts) :
    Spells (ws ++ s) ts := by
  induction ws with
  | nil => exact h
  | cons c ws ih =>
    rw [List.forall_mem_cons] at hws
    exact .ws hws.1 (ih hws.2)

theorem Spells.space_end [Libc] {ws s : List Byte} {ts : List Tok} (hws : ∀ c ∈ ws, Space c) (h : Spells s ts) :
    Spells (s ++ ws) ts := by
  induction h with
  | nil => have := Spells.space hws .nil; rwa [List.append_nil] at this
  | ws hc _ ih => exact .ws hc ih
  | tok hl _ ih => rw [List.append_assoc]; exact .tok hl ih

/-- tokens of a text without NUL are spelled by a part of it -/
theorem yields_spells [Libc] {extra : List Byte} {t t' : Tz} {ts : List Tok} (h : Yields nextToken t ts t') :
    ∀ {s : List Byte}, At extra s t → 0 ∉ s → .eof ∉ ts → .err ∉ ts →
      ∃ pre s', s = pre ++ s' ∧ Spells pre ts ∧ At extra s' t' := by
  induction h with
  | nil => intro s hat _ _ _; exact ⟨[], s, rfl, .nil, hat⟩
  | cons h hs ih =>
    intro s hat h0 h1 h2
    simp only [List.mem_cons, not_or] at h1 h2
    rcases nextTokenN_sound _ hat h0 h with ⟨h3, -⟩ | h3 | ⟨-, ws, w, s', rfl, hws, hlx, hat'⟩
    · exact absurd h3.symm h1.1
    · exact absurd h3.symm h2.1
    · simp only [List.mem_append, not_or] at h0
      obtain ⟨pre, s'', rfl, hsp, hat''⟩ := ih hat' h0.2.2 h1.2 h2.2
      exact ⟨ws ++ (w ++ pre), s'', by simp, Spells.space hws (.tok hlx hsp), hat''⟩

/-! ## lexemes are read -/

theorem space_isWs {c : Byte} (h : Space c) : isWs c = true := by
  rcases h with rfl | rfl | rfl | rfl <;> rfl

theorem lexes_num [Libc] {w : List Byte} {a : Atom} (h : Number w a) : Lexes NumEnd w [.lit a] := by
  refine lexes_one fun rest left line hP => ?_
  have e := parseNumber_number h hP
  obtain ⟨c, m, rfl, hc⟩ := h.start
  have hto := to_append (c :: m) rest left line
  rw [List.cons_append] at e hto ⊢
  rw [tokenStep_num hc _ _ _ (by simp)]
  simp only [e, Res.map, Option.map, Tz.take, hto]

theorem lexes_str [Libc] {s text : List Byte} (hq : Quoted s) (h : Literal s text) (hl : s.length < 2 ^ 31) :
    Lexes Any (34 :: (s ++ [34])) [.str text] := by
  refine lexes_one fun rest left line _ => ?_
  have e := parseString_literal hq h rest hl
  have hto := to_append (34 :: (s ++ [34])) rest left line
  rw [tokenStep, if_neg (by simp)]
  have hm : 34 :: (s ++ [34]) ++ rest = 34 :: (s ++ 34 :: rest) := by simp
  simp only [hm] at hto ⊢
  simp only [show ((34 : Byte) == 91) = false from rfl, show ((34 : Byte) == 123) = false from rfl,
    show ((34 : Byte) == 58) = false from rfl, show ((34 : Byte) == 44) = false from rfl,
    show ((34 : Byte) == 125) = false from rfl, show ((34 : Byte) == 93) = false from rfl,
    show ((34 : Byte) == 10) = false from rfl, show ((34 : Byte) == 13) = false from rfl,
    show ((34 : Byte) == 32) = false from rfl, show ((34 : Byte) == 9) = false from rfl,
    show ((34 : Byte) == 34) = true from rfl, Bool.false_eq_true, ↓reduceIte, Bool.or_self, e, Res.map, Option.map,
    Tz.take, hto]

/-- tokens a document can have: no end, no error, no two literals next to each other; `b`: a literal is before -/
def Plain : Bool → List Tok → Prop
  | _, [] => True
  | b, .lit _ :: ts => b = false ∧ Plain true ts
  | _, .eof :: _ => False
  | _, .err :: _ => False
  | _, _ :: ts => Plain false ts

theorem Plain.weaken {b : Bool} {ts : List Tok} (h : Plain b ts) : Plain false ts := by
  cases ts with
  | nil => trivial
  | cons c ts => cases c <;> first | exact h | exact ⟨rfl, h.2⟩

theorem Plain.no_end {ts : List Tok} : ∀ {b : Bool}, Plain b ts → .eof ∉ ts ∧ .err ∉ ts := by
  induction ts with
  | nil => intro b _; simp
  | cons c ts ih =>
    intro b h
    cases c <;> first
      | exact h.elim
      | (have := ih (show Plain false ts from h); simp [this])
      | (have := ih h.2; simp [this])

theorem plain_body {ps : List (List Tok)} {tr : Bool} {cl : Tok}
    (hcl : ∀ rest, Plain false rest → Plain true (cl :: rest))
    (hp : ∀ p ∈ ps, ∀ rest, Plain true rest → Plain false (p ++ rest)) :
    ∀ rest, Plain false rest → Plain false (body ps tr cl ++ rest) ∧ Plain true (bodyTail ps tr cl ++ rest) := by
  induction ps with
  | nil =>
    intro rest hr
    have h1 := hcl rest hr
    refine ⟨by rw [body_nil]; exact h1.weaken, ?_⟩
    cases tr with
    | true => exact h1.weaken
    | false => exact h1
  | cons p ps ih =>
    intro rest hr
    rw [List.forall_mem_cons] at hp
    have h1 : Plain false (body (p :: ps) tr cl ++ rest) := by
      rw [body_cons, List.append_assoc]
      exact hp.1 _ (ih hp.2 rest hr).2
    refine ⟨h1, ?_⟩
    rw [bodyTail_cons]
    exact h1

theorem plain_toks (x : Syn) : ∀ rest, Plain true rest → Plain false (x.toks ++ rest) := by
  induction x using Syn.ind with
  | hs s => intro rest h; exact h.weaken
  | hl a => intro rest h; exact ⟨rfl, h⟩
  | ha xs tr ih =>
    intro rest h
    rw [Syn.toks]
    refine (plain_body (ps := toksL xs) (tr := tr) (cl := .rb) (fun _ h => h) ?_ rest h.weaken).1
    clear h
    induction xs with
    | nil => simp [toksL]
    | cons x xs ih2 =>
      rw [toksL, List.forall_mem_cons]
      rw [List.forall_mem_cons] at ih
      exact ⟨ih.1, ih2 ih.2⟩
  | ho xs tr ih =>
    intro rest h
    rw [Syn.toks]
    refine (plain_body (ps := toksF xs) (tr := tr) (cl := .rc) (fun _ h => h) ?_ rest h.weaken).1
    clear h
    induction xs with
    | nil => simp [toksF]
    | cons x xs ih2 =>
      obtain ⟨k, x⟩ := x
      rw [toksF, List.forall_mem_cons]
      rw [List.forall_mem_cons] at ih
      exact ⟨ih.1, ih2 ih.2⟩

theorem plain_doc (x : Syn) : Plain false x.toks := by
  have := plain_toks x [] trivial
  rwa [List.append_nil] at this

theorem numEnd_cons {c : Byte} (m : List Byte) (h : isDigit c = false ∧ c ≠ 46 ∧ c ≠ 101 ∧ c ≠ 69) : NumEnd (c :: m) :=
  ⟨c, m, rfl, h.1, h.2.1, h.2.2.1, h.2.2.2⟩

/-- a text that spells such tokens is read as them -/
theorem spells_lexes [Libc] {w : List Byte} {ts : List Tok} (h : Spells w ts) : ∀ {b : Bool}, Plain b ts →
    w.length < 2 ^ 31 →
    Lexes NumEnd w ts ∧ (b = true → ∀ rest, NumEnd rest → NumEnd (w ++ rest)) := by
  induction h with
  | nil => intro b _ _; exact ⟨lexes_ws_only (by simp), fun _ _ h => h⟩
  | ws hc hs ih =>
    rename_i c s ts
    intro b hb hlen
    simp only [List.length_cons] at hlen
    refine ⟨?_, fun _ rest _ => numEnd_cons _ ?_⟩
    · exact Lexes.ws (ws := [c]) (ih hb (by omega)).1 (by simpa using space_isWs hc)
    · rcases hc with rfl | rfl | rfl | rfl <;> decide
  | tok hl hs ih =>
    rename_i w t s ts
    intro b hb hlen
    rw [List.length_append] at hlen
    have punct : ∀ {b' : Bool}, Plain b' ts → Lexes Any w [t] →
        (∃ c m, w = c :: m ∧ isDigit c = false ∧ c ≠ 46 ∧ c ≠ 101 ∧ c ≠ 69) →
        Lexes NumEnd (w ++ s) (t :: ts) ∧ (b = true → ∀ rest, NumEnd rest → NumEnd (w ++ s ++ rest)) := by
      rintro b' hp hx ⟨c, m, rfl, hc⟩
      exact ⟨hx.append (ih hp (by omega)).1 (fun _ _ => trivial), fun _ rest _ => numEnd_cons _ hc⟩
    have lit : ∀ {a : Atom}, t = .lit a → Lexes NumEnd w [t] →
        Lexes NumEnd (w ++ s) (t :: ts) ∧ (b = true → ∀ rest, NumEnd rest → NumEnd (w ++ s ++ rest)) := by
      rintro a rfl hx
      obtain ⟨rfl, hb⟩ := hb
      obtain ⟨h1, h2⟩ := ih hb (by omega)
      exact ⟨hx.append h1 (h2 rfl), by simp⟩
    cases hl with
    | lb => exact punct (b' := false) hb lexes_lb ⟨_, _, rfl, by decide⟩
    | rb => exact punct (b' := false) hb lexes_rb ⟨_, _, rfl, by decide⟩
    | lc => exact punct (b' := false) hb lexes_lc ⟨_, _, rfl, by decide⟩
    | rc => exact punct (b' := false) hb lexes_rc ⟨_, _, rfl, by decide⟩
    | colon => exact punct (b' := false) hb lexes_colon ⟨_, _, rfl, by decide⟩
    | comma => exact punct (b' := false) hb lexes_comma ⟨_, _, rfl, by decide⟩
    | null => exact lit rfl (lexes_null.mono fun _ _ => trivial)
    | yes => exact lit rfl (lexes_true.mono fun _ _ => trivial)
    | no => exact lit rfl (lexes_false.mono fun _ _ => trivial)
    | num h => exact lit rfl (lexes_num h)
    | str hq h =>
      simp only [List.length_cons, List.length_append] at hlen
      exact punct (b' := false) hb (lexes_str hq h (by omega)) ⟨_, _, rfl, by decide⟩

theorem spells_length [Libc] {w : List Byte} {ts : List Tok} (h : Spells w ts) : ts.length ≤ w.length := by
  induction h with
  | nil => simp
  | ws _ _ ih => simp only [List.length_cons]; omega
  | tok hl hs ih =>
    rename_i w t s ts
    rw [List.length_append, List.length_cons]
    have : w ≠ [] := by
      cases hl with
      | num h => obtain ⟨c, m, rfl, -⟩ := h.start; simp
      | _ => simp
    have := List.length_pos_iff.2 this
    omega

/-- an accepted text without `force_eof` -/
theorem parsex_doc_false [Libc] {n : Nat} {mem : List Byte} {len : Nat} {v : Option Val} {t : Tz}
    (h : parsex n mem len false = .ok (some (.value v, t))) :
    ∃ x, Yields nextToken ⟨mem, len, 0⟩ (Syn.toks x) t ∧ x.depth ≤ 511 ∧ v = some x.val := by
  obtain ⟨r, e1, e2⟩ := Res.bind_eq_ok.1 h
  cases r with
  | none => cases e2
  | some r =>
    obtain ⟨s, t1⟩ := r
    obtain ⟨ts, hy, hr⟩ := prun_yields n _ _ _ _ e1
    simp only [pfinish] at e2
    by_cases hd : s.st = .done
    · obtain ⟨x, hx, hdx, hv⟩ := prun_doc_inv (hr []) hd
      rw [List.append_nil, List.append_nil] at hx
      subst hx
      simp only [hd, ↓reduceIte, Bool.false_eq_true, Res.map, Res.ok.injEq, Option.some.injEq,
        Prod.mk.injEq, PResult.value.injEq] at e2
      obtain ⟨rfl, rfl⟩ := e2
      exact ⟨x, hy, hdx, hv⟩
    · simp [hd, Res.map] at e2

/-! ## RFC 8259 -/

/-- the numbers of RFC 8259: `int` is a zero or starts with another digit -/
inductive RfcNumber [Libc] : List Byte → Atom → Prop where
  | pos {ds} : Digits ds → (ds = [48] ∨ ds.head? ≠ some 48) → RfcNumber ds (.i64 (clamp64 (tenVal ds)))
  | neg {ds} : Digits ds → (ds = [48] ∨ ds.head? ≠ some 48) → RfcNumber (45 :: ds) (.i64 (clamp64 (-(tenVal ds : Int))))
  | dbl {sg ds fr ex} : (sg = [] ∨ sg = [45]) → Digits ds → (ds = [48] ∨ ds.head? ≠ some 48) → Frac fr → Expo ex →
      (fr ≠ [] ∨ ex ≠ []) → RfcNumber (sg ++ (ds ++ (fr ++ ex))) (.dbl (Libc.strtod (sg ++ (ds ++ (fr ++ ex)))))

/-- the lexemes of RFC 8259, for strings of Unicode text without NUL -/
inductive RfcLexeme [Libc] : List Byte → Tok → Prop where
  | lb : RfcLexeme [91] .lb
  | rb : RfcLexeme [93] .rb
  | lc : RfcLexeme [123] .lc
  | rc : RfcLexeme [125] .rc
  | colon : RfcLexeme [58] .colon
  | comma : RfcLexeme [44] .comma
  | null : RfcLexeme [110, 117, 108, 108] (.lit .null)
  | yes : RfcLexeme [116, 114, 117, 101] (.lit (.bool true))
  | no : RfcLexeme [102, 97, 108, 115, 101] (.lit (.bool false))
  | num {w a} : RfcNumber w a → RfcLexeme w (.lit a)
  | str {s : List Byte} {cs : List Char} : Quoted s → (∀ c ∈ cs, c.toNat ≠ 0) → Decodes s (cs.flatMap String.utf8EncodeChar) →
      RfcLexeme (34 :: (s ++ [34])) (.str (cs.flatMap String.utf8EncodeChar))

/-- a text made of the lexemes of RFC 8259 -/
inductive RfcSpells [Libc] : List Byte → List Tok → Prop where
  | nil : RfcSpells [] []
  | ws {c s ts} : Space c → RfcSpells s ts → RfcSpells (c :: s) ts
  | tok {w t s ts} : RfcLexeme w t → RfcSpells s ts → RfcSpells (w ++ s) (t :: ts)

theorem utf8_nul {cs : List Char} (hz : ∀ c ∈ cs, c.toNat ≠ 0) : 0 ∉ cs.flatMap String.utf8EncodeChar := by
  intro h
  obtain ⟨c, hc, h⟩ := List.mem_flatMap.1 h
  have hne := hz c hc
  rw [← Props.C30_encode_is_utf8, encode_arith _ (by
    have := (scalar_iff c.toNat).2 ⟨c, rfl⟩; unfold Scalar at this; omega)] at h
  have hle : c.toNat ≤ 0x10FFFF := by
    have := (scalar_iff c.toNat).2 ⟨c, rfl⟩; unfold Scalar at this; omega
  have key : ∀ n, n < 256 → n ≠ 0 → (0 : Byte) ≠ UInt8.ofNat n := by
    intro n hn hne h
    have := congrArg UInt8.toNat h
    rw [toNat_ofNat_small hn] at this
    exact hne this.symm
  split at h
  · simp only [List.mem_cons, List.not_mem_nil, or_false] at h
    exact key _ (by omega) hne h
  · split at h
    · simp only [List.mem_cons, List.not_mem_nil, or_false] at h
      rcases h with h | h <;> exact key _ (by omega) (by omega) h
    · split at h
      · simp only [List.mem_cons, List.not_mem_nil, or_false] at h
        rcases h with h | h | h <;> exact key _ (by omega) (by omega) h
      · simp only [List.mem_cons, List.not_mem_nil, or_false] at h
        rcases h with h | h | h | h <;> exact key _ (by omega) (by omega) h

theorem decodes_raw {s t : List Byte} (h : Decodes s t) (hb : 92 ∉ s) : t = s ∧ ∀ c ∈ s, 0x20 ≤ c.toNat := by
  induction h with
  | nil => simp
  | raw h1 _ _ ih =>
    simp only [List.mem_cons, not_or] at hb
    obtain ⟨rfl, h2⟩ := ih hb.2
    refine ⟨rfl, ?_⟩
    rw [List.forall_mem_cons]; exact ⟨h1, h2⟩
  | esc _ _ _ => simp at hb
  | uni _ _ _ _ => simp at hb
  | pair _ _ _ _ _ _ _ _ => simp at hb

theorem RfcNumber.number [Libc] {w : List Byte} {a : Atom} (h : RfcNumber w a) : Number w a := by
  cases h with
  | pos hD hz => exact .pos hD (hz.imp (fun h => by rw [h]; rfl) id)
  | neg hD hz => exact .neg hD (hz.imp (fun h => by rw [h]; rfl) id)
  | dbl hs hD _ hF hE h => exact .dbl hs hD hF hE h

theorem RfcLexeme.lexeme [Libc] {w : List Byte} {t : Tok} (h : RfcLexeme w t) : Lexeme w t := by
  cases h with
  | lb => exact .lb
  | rb => exact .rb
  | lc => exact .lc
  | rc => exact .rc
  | colon => exact .colon
  | comma => exact .comma
  | null => exact .null
  | yes => exact .yes
  | no => exact .no
  | num h => exact .num h.number
  | str hq hz hd =>
    refine .str hq ?_
    rename_i s cs
    by_cases hb : 92 ∈ s
    · exact .inr ⟨hb, _, (takeWhile_id (utf8_nul hz)).symm, ⟨cs, rfl⟩, .inl hd⟩
    · obtain ⟨h1, h2⟩ := decodes_raw hd hb
      exact .inl ⟨hb, h2, h1⟩

theorem RfcSpells.spells [Libc] {w : List Byte} {ts : List Tok} (h : RfcSpells w ts) : Spells w ts := by
  induction h with
  | nil => exact .nil
  | ws hc _ ih => exact .ws hc ih
  | tok hl _ ih => exact .tok hl.lexeme ih

theorem Spells.nul [Libc] {w : List Byte} {ts : List Tok} (h : Spells w ts) : 0 ∉ w := by
  induction h with
  | nil => simp
  | ws hc _ ih =>
    simp only [List.mem_cons, not_or]
    exact ⟨by rcases hc with rfl | rfl | rfl | rfl <;> decide, ih⟩
  | tok hl _ ih => simp only [List.mem_append, not_or]; exact ⟨hl.nul, ih⟩

end Verif.Json

namespace Verif.Json.Props

open Verif.Json

/-! ## C92 -/

/-- **C92**: on a text without NUL that a NUL follows, `cee_json_parsex` with `force_eof` succeeds exactly when
the text is the lexemes of a document, in their order, with any white space before, between and after them,
and the document is nested at most 511 deep; the value is that of the document. -/
theorem C92_accepts_iff [Libc] (text extra : List Byte) (h0 : 0 ∉ text) (hlen : text.length < 2 ^ 31) (n : Nat)
    (hn : text.length ≤ n) (v : Option Val) :
    (∃ t, parsex n (text ++ 0 :: extra) text.length true = .ok (some (.value v, t))) ↔
      ∃ x : Syn, Spells text x.toks ∧ x.depth ≤ 511 ∧ v = some x.val := by
  constructor
  · rintro ⟨t, h⟩
    obtain ⟨x, t', hy, hd, hv, he⟩ := parsex_doc h
    obtain ⟨h1, h2⟩ := (plain_doc x).no_end
    obtain ⟨pre, s', rfl, hsp, hat⟩ := yields_spells (extra := extra) hy ⟨rfl, rfl⟩ h0 h1 h2
    simp only [List.mem_append, not_or] at h0
    refine ⟨x, ?_, hd, hv⟩
    rcases nextTokenN_sound _ hat h0.2 (he rfl) with ⟨-, hws⟩ | h | ⟨h, -⟩
    · exact hsp.space_end hws
    · cases h
    · exact absurd rfl h
  · rintro ⟨x, hsp, hd, rfl⟩
    obtain ⟨line, e⟩ := parsex_lexes (spells_lexes hsp (plain_doc x) hlen).1 hd (0 :: extra) (numEnd_nul extra) n
      (Nat.le_trans (spells_length hsp) hn)
    exact ⟨_, e⟩

/-- **C92**: on every other text it answers `EINVAL` -/
theorem C92_rejects [Libc] (text extra : List Byte) (h0 : 0 ∉ text) (hlen : text.length + extra.length + 1 < 2 ^ 31)
    (n : Nat) (hn : text.length + extra.length + 1 ≤ n) (h : ¬ ∃ x : Syn, Spells text x.toks ∧ x.depth ≤ 511) :
    ∃ t, parsex n (text ++ 0 :: extra) text.length true = .ok (some (.einval, t)) := by
  obtain ⟨r, t, e, -, hr⟩ := C36_ends (text ++ 0 :: extra) text.length true (by simp)
    (by simp only [List.length_append, List.length_cons]; omega) n
    (by simp only [List.length_append, List.length_cons]; omega)
  rcases hr with rfl | ⟨v, rfl, -⟩
  · exact ⟨t, e⟩
  · obtain ⟨x, h1, h2, -⟩ := (C92_accepts_iff text extra h0 (by omega) n (by omega) (some v)).1 ⟨t, e⟩
    exact absurd ⟨x, h1, h2⟩ h

/-- **C92**, without `force_eof`: the text starts with the lexemes of a document nested at most 511 deep, the
value is that of the document, and the position left is right after it -/
theorem C92_prefix [Libc] (text extra : List Byte) (h0 : 0 ∉ text) (n : Nat) (v : Option Val) (t : Tz)
    (h : parsex n (text ++ 0 :: extra) text.length false = .ok (some (.value v, t))) :
    ∃ (x : Syn) (pre post : List Byte), text = pre ++ post ∧ Spells pre x.toks ∧ x.depth ≤ 511 ∧ v = some x.val ∧
      t.mem = post ++ 0 :: extra ∧ t.left = post.length := by
  obtain ⟨x, hy, hd, hv⟩ := parsex_doc_false h
  obtain ⟨h1, h2⟩ := (plain_doc x).no_end
  obtain ⟨pre, s', rfl, hsp, hat⟩ := yields_spells (extra := extra) hy ⟨rfl, rfl⟩ h0 h1 h2
  exact ⟨x, pre, s', rfl, hsp, hd, hv, hat.1, hat.2⟩

/-- **C92**: every JSON text of RFC 8259 whose strings are Unicode text without NUL and that is nested at most
511 deep is accepted, and the value is the one it denotes (of repeated keys the last one counts, integers are
brought into the range of 64 bits). -/
theorem C92_rfc [Libc] (text extra : List Byte) (hlen : text.length < 2 ^ 31) (n : Nat) (hn : text.length ≤ n)
    (x : Syn) (hx : RfcSpells text x.toks) (hd : x.depth ≤ 511) :
    ∃ t, parsex n (text ++ 0 :: extra) text.length true = .ok (some (.value (some x.val), t)) :=
  (C92_accepts_iff text extra hx.spells.nul hlen n hn _).2 ⟨x, hx.spells, hd, rfl⟩

/-- **C92**: a text denotes at most one value -/
theorem C92_one_value [Libc] (text : List Byte) (hlen : text.length < 2 ^ 31) (x y : Syn) (hx : Spells text x.toks)
    (hy : Spells text y.toks) (hdx : x.depth ≤ 511) (hdy : y.depth ≤ 511) : x.val = y.val := by
  obtain ⟨t, e⟩ := (C92_accepts_iff text [] hx.nul hlen text.length (Nat.le_refl _) _).2 ⟨x, hx, hdx, rfl⟩
  obtain ⟨t', e'⟩ := (C92_accepts_iff text [] hx.nul hlen text.length (Nat.le_refl _) _).2 ⟨y, hy, hdy, rfl⟩
  rw [e] at e'
  simp only [Res.ok.injEq, Option.some.injEq, Prod.mk.injEq, PResult.value.injEq] at e'
  exact e'.1

theorem digits_one {c : Byte} (h : 48 ≤ c.toNat ∧ c.toNat ≤ 57) : Digits [c] := ⟨by simp, by simpa using h⟩

/-- ` [ 1,-2.5e3 ]` is such a text -/
theorem C92_example [Libc] : RfcSpells [32, 91, 32, 49, 44, 45, 50, 46, 53, 101, 51, 32, 93]
    (Syn.arr [.lit (.i64 1), .lit (.dbl (Libc.strtod [45, 50, 46, 53, 101, 51]))] false).toks := by
  refine .ws (.inl rfl) (.tok (w := [91]) .lb (.ws (.inl rfl) (.tok (w := [49]) (.num ?_) (.tok (w := [44]) .comma
    (.tok (w := [45, 50, 46, 53, 101, 51]) (.num ?_) (.ws (.inl rfl) (.tok (w := [93]) .rb .nil)))))))
  · exact .pos (digits_one (by decide)) (.inr (by decide))
  · exact .dbl (sg := [45]) (ds := [50]) (fr := [46, 53]) (ex := [101, 51]) (.inr rfl) (digits_one (by decide))
      (.inr (by decide)) (.inr ⟨[53], rfl, digits_one (by decide)⟩)
      (.inr ⟨101, [], [51], rfl, .inl rfl, .inl rfl, digits_one (by decide)⟩) (.inl (by simp))

/-- the hypotheses of `C92_rfc` are met by `C92_example` -/
example [Libc] (extra : List Byte) : ∃ t, parsex 13 ([32, 91, 32, 49, 44, 45, 50, 46, 53, 101, 51, 32, 93] ++ 0 :: extra) 13
    true = .ok (some (.value (some (.arr [.atom (.i64 1), .atom (.dbl (Libc.strtod [45, 50, 46, 53, 101, 51]))])), t)) :=
  C92_rfc _ extra (by decide) 13 (by decide) _ C92_example (by simp [Syn.depth, depthL])

/-- those of `C92_prefix` are met by `1,` -/
example [Libc] : ∃ v t, parsex 3 ([49, 44] ++ 0 :: []) [49, 44].length false = .ok (some (.value v, t)) :=
  ⟨some (.atom (.i64 1)), ⟨[44, 0], 1, 0⟩, by
    have := (parsex_of_yields (mem := [49, 44, 0]) (len := 2) (x := .lit (.i64 1)) (t' := ⟨[44, 0], 1, 0⟩) 3
      (.cons (nextToken_step rfl) (.nil _)) (by decide) (by decide)).1
    exact this⟩

/-- **C92**, negative: RFC 8259 is not all that is accepted: `[1,]`, `00.5` and a string of the byte 255 are -/
theorem C92_beyond_rfc_false [Libc] (extra : List Byte) :
    (∃ t, parsex 4 ([91, 49, 44, 93] ++ 0 :: extra) 4 true = .ok (some (.value (some (.arr [.atom (.i64 1)])), t))) ∧
    (∃ t, parsex 4 ([48, 48, 46, 53] ++ 0 :: extra) 4 true =
      .ok (some (.value (some (.atom (.dbl (Libc.strtod [48, 48, 46, 53])))), t))) ∧
    (∃ t, parsex 3 ([34, 255, 34] ++ 0 :: extra) 3 true = .ok (some (.value (some (.atom (.str [255]))), t))) := by
  refine ⟨?_, ?_, ?_⟩
  · refine (C92_accepts_iff [91, 49, 44, 93] extra (by decide) (by decide) 4 (by decide) _).2
      ⟨.arr [.lit (.i64 1)] true, ?_, by decide, rfl⟩
    exact .tok (w := [91]) .lb (.tok (w := [49]) (.num (.pos (digits_one (by decide)) (.inl rfl))) (.tok (w := [44]) .comma
      (.tok (w := [93]) .rb .nil)))
  · refine (C92_accepts_iff [48, 48, 46, 53] extra (by decide) (by decide) 4 (by decide) _).2
      ⟨.lit (.dbl (Libc.strtod [48, 48, 46, 53])), ?_, Nat.zero_le _, rfl⟩
    exact .tok (w := [48, 48, 46, 53]) (.num (.dbl (sg := []) (ds := [48, 48]) (fr := [46, 53]) (ex := []) (.inl rfl)
      ⟨by simp, by decide⟩ (.inr ⟨[53], rfl, digits_one (by decide)⟩) (.inl rfl) (.inl (by simp)))) .nil
  · refine (C92_accepts_iff [34, 255, 34] extra (by decide) (by decide) 3 (by decide) _).2
      ⟨.str [255], ?_, by decide, rfl⟩
    exact .tok (w := [34, 255, 34]) (.str (s := [255]) (.raw (by decide) (by decide) (by decide) .nil)
      (.inl ⟨by decide, by decide, rfl⟩)) .nil

/-- **C92**: the string of the byte 255 is no lexeme of RFC 8259 -/
theorem C92_not_rfc [Libc] : ¬ ∃ text, RfcLexeme [34, 255, 34] (.str text) := by
  rintro ⟨text, h⟩
  generalize hw : ([34, 255, 34] : List Byte) = w at h
  cases h with
  | str hq hz hd =>
    rename_i s cs
    simp only [List.cons.injEq, true_and] at hw
    have hs : s = [255] := by
      cases s with
      | nil => simp at hw
      | cons c s =>
        simp only [List.cons_append, List.cons.injEq] at hw
        obtain ⟨rfl, hw⟩ := hw
        cases s with
        | nil => rfl
        | cons d s => simp at hw
    subst hs
    have := (decodes_raw hd (by decide)).1
    exact C31_invalid_utf8_false.2 ⟨cs, this.symm⟩

/-- the hypothesis of `C92_rejects` is met by the text `]`, which is no document -/
theorem close_no_doc [Libc] : ¬ ∃ x : Syn, Spells [93] x.toks ∧ x.depth ≤ 511 := by
  rintro ⟨x, h, -⟩
  obtain ⟨c, cs, hx, hc⟩ := toks_head x
  rw [hx] at h
  generalize hw : ([93] : List Byte) = w at h
  cases h with
  | ws hs _ =>
    simp only [List.cons.injEq] at hw
    obtain ⟨rfl, -⟩ := hw
    rcases hs with h | h | h | h <;> cases h
  | tok hl _ =>
    cases hl with
    | num h =>
      obtain ⟨c, m, rfl, hd⟩ := h.start
      simp only [List.cons_append, List.cons.injEq] at hw
      obtain ⟨rfl, -⟩ := hw
      revert hd; decide
    | rb => cases hc
    | _ => simp at hw

end Verif.Json.Props
