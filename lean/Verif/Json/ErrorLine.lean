import Verif.Json.LexemeProps

/-! # Property C118: where a text is refused -/

namespace Verif.Json

/-! ## specification -/

/-- the characters that end lines -/
def lineEnds (s : List Byte) : Nat := s.countP fun c => c == 10 || c == 13

/-- some document that the parser accepts (nested at most 511 deep) begins with these tokens -/
def Begins (ts : List Tok) : Prop := ∃ (x : Syn) (ext : List Tok), x.depth ≤ 511 ∧ x.toks = ts ++ ext

/-- the text begins with the lexeme `w` of the token `k`, and if it is a number it is not a part of a longer run of
digits, points and letters e -/
def StartsWith [Libc] (text : List Byte) (w : List Byte) (k : Tok) : Prop :=
  ∃ r, text = w ++ r ∧ Lexeme w k ∧
    ∀ a, Number w a → ∀ c, r.head? = some c → ¬ (48 ≤ c.toNat ∧ c.toNat ≤ 57) ∧ c ≠ 46 ∧ c ≠ 101 ∧ c ≠ 69

theorem lineEnds_append (a b : List Byte) : lineEnds (a ++ b) = lineEnds a + lineEnds b := by
  simp [lineEnds, List.countP_append]

/-! ## every state can be continued to a document -/

/-- these tokens lead to the end -/
def Closes (s : PSt) : Prop := ∃ (ext : List Tok) (s2 : PSt), s2.st = .done ∧
  ∀ m rest, prun listNext (m + ext.length) s (ext ++ rest) = .ok (some (s2, rest))

theorem closes_done {s : PSt} (h : s.st = .done) : Closes s := by
  refine ⟨[], s, h, fun m rest => prun_stop ?_ _ _⟩
  cases hg : s.goes with
  | false => rfl
  | true => exact absurd h (goes_iff.1 hg).2.2.2

theorem closes_tok {s s1 : PSt} {c : Tok} (hg : s.goes = true) (hs : pstep s c = .ok s1) (h : Closes s1) : Closes s := by
  obtain ⟨ext, s2, h1, h2⟩ := h
  refine ⟨c :: ext, s2, h1, fun m rest => ?_⟩
  have := prun_tok hg hs (m + ext.length) (ext ++ rest)
  rw [h2] at this
  exact this

theorem closes_pop (stk : List PFrame) : ∀ (top : PFrame) (s : PSt) (v : Val), top.j = some v → ChainOk (top :: stk) →
    stk.length < 511 → ∃ s1, popFrame s top stk = .ok s1 ∧ Closes s1 := by
  induction stk with
  | nil =>
    intro top s v hj hc _
    exact ⟨_, rfl, closes_done hc⟩
  | cons p stk ih =>
    intro top s v hj hc hl
    obtain ⟨ret, j, k⟩ := top
    obtain ⟨pr, pj, pk⟩ := p
    simp only at hj; subst hj
    obtain ⟨h1, h2⟩ := hc
    simp only [List.length_cons] at hl
    rcases h1 with ⟨hr, xs, hp⟩ | ⟨hr, kvs, hp⟩
    · simp only at hr hp; subst hr hp
      refine ⟨_, rfl, ?_⟩
      obtain ⟨s1, e, hcl⟩ := ih ⟨pr, some (.arr (xs ++ [v])), pk⟩
        ⟨.arrCloseOrComma, ⟨pr, some (.arr (xs ++ [v])), pk⟩ :: stk, s.key, some v⟩ _ rfl (h2.cast rfl) (by omega)
      exact closes_tok (c := .rb) (goes_mk (by omega) (by simp) (by simp)) e hcl
    · simp only at hr hp; subst hr hp
      refine ⟨_, rfl, ?_⟩
      obtain ⟨s1, e, hcl⟩ := ih ⟨pr, some (.obj (insertKey k v kvs)), pk⟩
        ⟨.objCloseOrComma, ⟨pr, some (.obj (insertKey k v kvs)), pk⟩ :: stk, s.key, some v⟩ _ rfl (h2.cast rfl) (by omega)
      exact closes_tok (c := .rc) (goes_mk (by omega) (by simp) (by simp)) e hcl

theorem closes {s : PSt} (h : PInv s) (hg : s.goes = true) : Closes s := by
  obtain ⟨st, stk, key, res⟩ := s
  obtain ⟨-, hl, h3, h4⟩ := goes_iff.1 hg
  simp only at hl h3 h4
  have objv : ∀ {top : PFrame} {rest : List PFrame} {kvs : List (List Byte × Val)} {key : List Byte} {res : Option Val},
      top.j = some (.obj kvs) → ChainOk (top :: rest) → rest.length + 1 < 512 →
      Closes ⟨.objValue, top :: rest, key, res⟩ := by
    intro top rest kvs key res hj hc hl
    obtain ⟨ret, j, k⟩ := top
    simp only at hj; subst hj
    obtain ⟨s1, e, hcl⟩ := closes_pop rest ⟨ret, some (.obj (insertKey key (.atom .null) kvs)), k⟩
      ⟨.objCloseOrComma, ⟨ret, some (.obj (insertKey key (.atom .null) kvs)), k⟩ :: rest, key, res⟩ _ rfl (hc.cast rfl)
      (by omega)
    exact closes_tok (c := .lit .null) (goes_mk hl (by simp) (by simp)) rfl
      (closes_tok (c := .rc) (goes_mk hl (by simp) (by simp)) e hcl)
  cases st with
  | done => exact absurd rfl h4
  | error => exact absurd rfl h3
  | value =>
    obtain ⟨⟨ret, j, k⟩, rfl, hr⟩ := h
    simp only at hr; subst hr
    exact closes_tok (c := .lit .null) hg rfl (closes_done rfl)
  | keyOrClose =>
    obtain ⟨top, rest, kvs, rfl, hj, hc⟩ := h
    obtain ⟨s1, e, hcl⟩ := closes_pop rest top ⟨.keyOrClose, top :: rest, key, res⟩ _ hj hc
      (by simp only [List.length_cons] at hl; omega)
    exact closes_tok (c := .rc) hg e hcl
  | objCloseOrComma =>
    obtain ⟨top, rest, kvs, rfl, hj, hc⟩ := h
    obtain ⟨s1, e, hcl⟩ := closes_pop rest top ⟨.objCloseOrComma, top :: rest, key, res⟩ _ hj hc
      (by simp only [List.length_cons] at hl; omega)
    exact closes_tok (c := .rc) hg e hcl
  | arrValueOrClose =>
    obtain ⟨top, rest, kvs, rfl, hj, hc⟩ := h
    obtain ⟨s1, e, hcl⟩ := closes_pop rest top ⟨.arrValueOrClose, top :: rest, key, res⟩ _ hj hc
      (by simp only [List.length_cons] at hl; omega)
    exact closes_tok (c := .rb) hg e hcl
  | arrCloseOrComma =>
    obtain ⟨top, rest, kvs, rfl, hj, hc⟩ := h
    obtain ⟨s1, e, hcl⟩ := closes_pop rest top ⟨.arrCloseOrComma, top :: rest, key, res⟩ _ hj hc
      (by simp only [List.length_cons] at hl; omega)
    exact closes_tok (c := .rb) hg e hcl
  | objValue =>
    obtain ⟨top, rest, kvs, rfl, hj, hc⟩ := h
    exact objv hj hc (by simpa using hl)
  | colon =>
    obtain ⟨top, rest, kvs, rfl, hj, hc⟩ := h
    exact closes_tok (c := .colon) hg rfl (objv hj hc (by simpa using hl))

/-! ## the last token -/

/-- a run that stops: the state before the last token -/
theorem prun_last (ts : List Tok) : ∀ {n : Nat} {s s' : PSt}, PInv s → s.goes = true →
    (∀ rest, prun listNext n s (ts ++ rest) = .ok (some (s', rest))) →
    ∃ toks c s1, ts = toks ++ [c] ∧ PInv s1 ∧ s1.goes = true ∧ pstep s1 c = .ok s' ∧ s'.goes = false ∧
      ∀ m rest, prun listNext (m + toks.length) s (toks ++ rest) = prun listNext m s1 rest := by
  induction ts with
  | nil =>
    intro n s s' hi hg h
    exfalso
    cases n with
    | zero => have := h []; rw [prun] at this; simp [hg] at this
    | succ n =>
      obtain ⟨h1, h2, h3, h4⟩ := goes_iff.1 hg
      obtain ⟨s1, es, hi1⟩ := pstep_inv hi h4 h1 .eof
      have := h [.eof]
      rw [List.nil_append, prun_tok hg es] at this
      have he := pstep_eof (.inl rfl) h4 es
      rw [prun_stop (by
        cases hs : s1.goes with
        | false => rfl
        | true => exact absurd he (goes_iff.1 hs).2.2.1)] at this
      simp at this
  | cons c ts ih =>
    intro n s s' hi hg h
    cases n with
    | zero => have := h []; rw [prun] at this; simp [hg] at this
    | succ n =>
      obtain ⟨h1, h2, h3, h4⟩ := goes_iff.1 hg
      obtain ⟨s1, es, hi1⟩ := pstep_inv hi h4 h1 c
      have h' : ∀ rest, prun listNext n s1 (ts ++ rest) = .ok (some (s', rest)) := by
        intro rest
        rw [← h rest, List.cons_append, prun_tok hg es]
      cases hg1 : s1.goes with
      | false =>
        have e := h' []
        rw [prun_stop hg1] at e
        simp only [List.append_nil, Res.ok.injEq, Option.some.injEq, Prod.mk.injEq] at e
        obtain ⟨rfl, rfl⟩ := e
        exact ⟨[], c, s, rfl, hi, hg, es, hg1, fun m rest => rfl⟩
      | true =>
        obtain ⟨toks, c', s2, rfl, a1, a2, a3, a4, a5⟩ := ih hi1 hg1 h'
        refine ⟨c :: toks, c', s2, rfl, a1, a2, a3, a4, fun m rest => ?_⟩
        rw [← a5 m rest]
        exact prun_tok hg es _ _

theorem prun_mono_done {n : Nat} {s s' : PSt} {ts rest : List Tok}
    (h : prun listNext n s ts = .ok (some (s', rest))) : ∀ m, prun listNext (n + m) s ts = .ok (some (s', rest)) := by
  intro m
  induction n generalizing s ts with
  | zero =>
    cases hg : s.goes with
    | false => rw [prun_stop hg] at h ⊢; exact h
    | true => rw [prun] at h; simp [hg] at h
  | succ n ih =>
    cases hg : s.goes with
    | false => rw [prun_stop hg] at h ⊢; exact h
    | true =>
      rw [show n + 1 + m = n + m + 1 by omega]
      rw [prun_go hg] at h ⊢
      obtain ⟨r, e1, h⟩ := Res.bind_eq_ok.1 h
      obtain ⟨s1, e2, h⟩ := Res.bind_eq_ok.1 h
      rw [e1, Res.bind_ok, e2, Res.bind_ok]
      exact ih h

/-- a refused list of tokens: all but the last begin a document, and with the last they do not -/
theorem last_token {n : Nat} {s' : PSt} {ts : List Tok}
    (h : ∀ rest, prun listNext n pinit (ts ++ rest) = .ok (some (s', rest))) (hd : s'.st ≠ .done) :
    ∃ toks c, ts = toks ++ [c] ∧ Begins toks ∧ ¬ Begins (toks ++ [c]) ∧
      ¬ ∃ x : Syn, x.depth ≤ 511 ∧ x.toks = toks := by
  obtain ⟨toks, c, s1, rfl, hi, hg, es, hg', hrun⟩ := prun_last ts (s := pinit) ⟨_, rfl, rfl⟩ (by decide) h
  refine ⟨toks, c, rfl, ?_, ?_, ?_⟩
  · obtain ⟨ext, s2, h1, h2⟩ := closes hi hg
    have e := hrun (0 + ext.length) (ext ++ [])
    rw [h2 0 []] at e
    obtain ⟨x, hx, hdx, -⟩ := prun_doc_inv e h1
    exact ⟨x, ext, hdx, by simpa using hx.symm⟩
  · rintro ⟨x, ext, hdx, hx⟩
    obtain ⟨key, e⟩ := prun_doc x hdx 0 []
    have e2 := hrun (ext.length + 1) (c :: ext)
    rw [prun_tok hg es, prun_stop hg'] at e2
    rw [hx] at e
    simp only [List.append_assoc, List.singleton_append, List.append_nil, List.length_append, List.length_cons] at e
    rw [show ext.length + 1 + toks.length = 0 + (toks.length + (ext.length + 1)) by omega, e] at e2
    simp only [Res.ok.injEq, Option.some.injEq, Prod.mk.injEq] at e2
    exact hd (by rw [← e2.1])
  · rintro ⟨x, hdx, hx⟩
    obtain ⟨key, e⟩ := prun_doc x hdx 0 []
    have e2 := hrun 0 []
    rw [hx] at e
    rw [e, prun] at e2
    simp [hg] at e2

/-! ## lines -/

theorem tokenStep_line [Libc] {t t' : Tz} {tok : Tok} (h : tokenStep t = .ok (some (tok, t'))) : t'.line = t.line := by
  have take : ∀ {r : Res (Option (Tok × List Byte))}, (t.take r).map some = .ok (some (tok, t')) → t'.line = t.line := by
    intro r h
    cases r with
    | ok r =>
      cases r with
      | none =>
        simp only [Tz.take, Res.map, Res.ok.injEq, Option.some.injEq, Prod.mk.injEq] at h
        rw [← h.2]
      | some r =>
        simp only [Tz.take, Res.map, Res.ok.injEq, Option.some.injEq, Prod.mk.injEq] at h
        rw [← h.2]; rfl
    | ub => cases h
    | segv => cases h
  rw [tokenStep] at h
  by_cases hl : t.left = 0
  · rw [if_pos hl] at h; cases h; rfl
  rw [if_neg hl] at h
  cases hm : t.mem with
  | nil => rw [hm] at h; cases h
  | cons c m =>
    rw [hm] at h
    simp only at h
    by_cases q : (c == 91) = true
    · rw [if_pos q] at h; cases h; rfl
    rw [if_neg q] at h
    clear q
    by_cases q : (c == 123) = true
    · rw [if_pos q] at h; cases h; rfl
    rw [if_neg q] at h
    clear q
    by_cases q : (c == 58) = true
    · rw [if_pos q] at h; cases h; rfl
    rw [if_neg q] at h
    clear q
    by_cases q : (c == 44) = true
    · rw [if_pos q] at h; cases h; rfl
    rw [if_neg q] at h
    clear q
    by_cases q : (c == 125) = true
    · rw [if_pos q] at h; cases h; rfl
    rw [if_neg q] at h
    clear q
    by_cases q : (c == 93) = true
    · rw [if_pos q] at h; cases h; rfl
    rw [if_neg q] at h
    clear q
    by_cases q : (c == 10 || c == 13 || c == 32 || c == 9) = true
    · rw [if_pos q] at h; cases h
    rw [if_neg q] at h
    clear q
    by_cases q : (c == 34) = true
    · rw [if_pos q] at h; exact take h
    rw [if_neg q] at h
    clear q
    by_cases q : (c == 116) = true
    · rw [if_pos q] at h; exact take h
    rw [if_neg q] at h
    clear q
    by_cases q : (c == 110) = true
    · rw [if_pos q] at h; exact take h
    rw [if_neg q] at h
    clear q
    by_cases q : (c == 102) = true
    · rw [if_pos q] at h; exact take h
    rw [if_neg q] at h
    clear q
    by_cases q : (c == 45 || isDigit c) = true
    · rw [if_pos q] at h; exact take h
    rw [if_neg q] at h
    clear q
    by_cases q : (c == 47) = true
    · rw [if_pos q] at h
      obtain ⟨r, _, h⟩ := Res.bind_eq_ok.1 h
      cases r with
      | none => cases h; rfl
      | some m' =>
        cases hc : comment (t.left - 2) m' with
        | ok k => simp only [hc, Res.map] at h; cases h; rfl
        | ub => simp only [hc] at h; cases h
        | segv => simp only [hc] at h; cases h
    · rw [if_neg q] at h
      cases h; rfl

theorem tokenStep_space [Libc] {t : Tz} {c : Byte} {m : List Byte} (hl : t.left ≠ 0) (hm : t.mem = c :: m) (hc : Space c) :
    tokenStep t = .ok none := by
  rw [tokenStep, if_neg hl, hm]
  rcases hc with rfl | rfl | rfl | rfl <;> rfl

/-- a token: white space, and then one step -/
theorem nextTokenN_split [Libc] (n : Nat) : ∀ {extra s : List Byte} {t t' : Tz} {tok : Tok}, At extra s t → 0 ∉ s →
    nextTokenN n t = .ok (tok, t') →
    ∃ ws rest t1, s = ws ++ rest ∧ (∀ c ∈ ws, Space c) ∧ (∀ c, rest.head? = some c → ¬ Space c) ∧ At extra rest t1 ∧
      t1.line = t.line + lineEnds ws ∧ tokenStep t1 = .ok (some (tok, t')) := by
  have one : ∀ {extra s : List Byte} {t t' : Tz} {tok : Tok}, At extra s t →
      tokenStep t = .ok (some (tok, t')) →
      ∃ ws rest t1, s = ws ++ rest ∧ (∀ c ∈ ws, Space c) ∧ (∀ c, rest.head? = some c → ¬ Space c) ∧ At extra rest t1 ∧
        t1.line = t.line + lineEnds ws ∧ tokenStep t1 = .ok (some (tok, t')) := by
    intro extra s t t' tok hat h
    refine ⟨[], s, t, rfl, by simp, ?_, hat, rfl, h⟩
    intro c hc hsp
    cases s with
    | nil => cases hc
    | cons d s =>
      cases hc
      rw [tokenStep_space (by rw [hat.2]; simp) (by rw [hat.1]; rfl) hsp] at h
      cases h
  induction n with
  | zero =>
    intro extra s t t' tok hat h0 h
    rw [nextTokenN] at h
    obtain ⟨r, hr, h⟩ := Res.bind_eq_ok.1 h
    cases r with
    | none => cases h
    | some r => cases h; exact one hat hr
  | succ n ih =>
    intro extra s t t' tok hat h0 h
    rw [nextTokenN] at h
    obtain ⟨r, hr, h⟩ := Res.bind_eq_ok.1 h
    cases r with
    | some r => cases h; exact one hat hr
    | none =>
      obtain ⟨hl, c, m, hm, hc⟩ := tokenStep_sound hr
      rw [hat.1] at hm
      rw [hat.2] at hl
      cases s with
      | nil => simp at hl
      | cons d s =>
        simp only [List.cons_append, List.cons.injEq] at hm
        obtain ⟨rfl, hm⟩ := hm
        have hat' : At extra s t.skip := by
          unfold At Tz.skip
          rw [hat.1, hat.2]
          exact ⟨rfl, by simp⟩
        have hline : t.skip.line = t.line + lineEnds [d] := by
          unfold Tz.skip
          rw [hat.1]
          simp only [List.cons_append, lineEnds, List.countP_cons, List.countP_nil]
          split <;> rfl
        simp only [List.mem_cons, not_or] at h0
        obtain ⟨ws, rest, t1, rfl, h1, h2, h3, h4, h5⟩ := ih hat' h0.2 h
        refine ⟨d :: ws, rest, t1, rfl, ?_, h2, h3, ?_, h5⟩
        · rw [List.forall_mem_cons]; exact ⟨hc, h1⟩
        · rw [h4, hline, show d :: ws = [d] ++ ws from rfl, lineEnds_append]; omega

theorem lineEnds_zero {w : List Byte} (h : ∀ c ∈ w, c ≠ 10 ∧ c ≠ 13) : lineEnds w = 0 := by
  rw [lineEnds, List.countP_eq_zero]
  intro c hc
  simp [h c hc]

theorem toNat_ne {c : Byte} {k : Nat} (h : k ≤ c.toNat) (hk : 14 ≤ k) : c ≠ 10 ∧ c ≠ 13 := by
  constructor <;> (rintro rfl; simp at h; omega)

theorem Digits.noline {ds : List Byte} (h : Digits ds) : ∀ c ∈ ds, c ≠ 10 ∧ c ≠ 13 :=
  fun c hc => toNat_ne (h.2 c hc).1 (by omega)

theorem noline_append {a b : List Byte} (ha : ∀ c ∈ a, c ≠ 10 ∧ c ≠ 13) (hb : ∀ c ∈ b, c ≠ 10 ∧ c ≠ 13) :
    ∀ c ∈ a ++ b, c ≠ 10 ∧ c ≠ 13 := fun c hc => by
  rcases List.mem_append.1 hc with h | h
  · exact ha c h
  · exact hb c h

theorem Number.noline [Libc] {w : List Byte} {a : Atom} (h : Number w a) : ∀ c ∈ w, c ≠ 10 ∧ c ≠ 13 := by
  cases h with
  | pos hd _ => exact hd.noline
  | neg hd _ => rw [List.forall_mem_cons]; exact ⟨by decide, hd.noline⟩
  | dbl hs hd hf hx _ =>
    refine noline_append ?_ (noline_append hd.noline (noline_append ?_ ?_))
    · rcases hs with rfl | rfl <;> decide
    · rcases hf with rfl | ⟨ds, rfl, hd⟩
      · simp
      · rw [List.forall_mem_cons]; exact ⟨by decide, hd.noline⟩
    · rcases hx with rfl | ⟨e, sg, ds, rfl, he, hsg, hd⟩
      · simp
      · rw [List.forall_mem_cons]
        refine ⟨by rcases he with rfl | rfl <;> decide, noline_append ?_ hd.noline⟩
        rcases hsg with rfl | rfl | rfl <;> decide

theorem Hex4.noline {h : List Byte} {x : Nat} (hh : Hex4 h x) : ∀ c ∈ h, c ≠ 10 ∧ c ≠ 13 := by
  obtain ⟨a, b, c, d, na, nb, nc, nd, rfl, ha, hb, hc, hd, -⟩ := hh
  have key : ∀ {c : Byte} {n : Nat}, HexDigit c n → c ≠ 10 ∧ c ≠ 13 := by
    intro c n h
    refine toNat_ne (k := 48) ?_ (by omega)
    unfold HexDigit at h
    omega
  simp only [List.forall_mem_cons]
  exact ⟨key ha, key hb, key hc, key hd, by simp⟩

theorem Decodes.noline {s t : List Byte} (h : Decodes s t) : ∀ c ∈ s, c ≠ 10 ∧ c ≠ 13 := by
  induction h with
  | nil => simp
  | raw h1 _ _ ih => rw [List.forall_mem_cons]; exact ⟨toNat_ne h1 (by omega), ih⟩
  | esc he _ ih =>
    rw [List.forall_mem_cons, List.forall_mem_cons]
    refine ⟨by decide, ?_, ih⟩
    simp only [EscLetter, List.mem_cons, Prod.mk.injEq, List.not_mem_nil, or_false] at he
    rcases he with he | he | he | he | he | he | he | he <;> (rw [he.1]; decide)
  | uni hh _ _ ih =>
    rw [List.forall_mem_cons, List.forall_mem_cons]
    exact ⟨by decide, by decide, noline_append hh.noline ih⟩
  | pair hh _ _ hk _ _ _ ih =>
    rw [List.forall_mem_cons, List.forall_mem_cons]
    refine ⟨by decide, by decide, noline_append hh.noline ?_⟩
    rw [List.forall_mem_cons, List.forall_mem_cons]
    exact ⟨by decide, by decide, noline_append hk.noline ih⟩

/-- no lexeme goes over the end of a line -/
theorem Lexeme.noline [Libc] {w : List Byte} {t : Tok} (h : Lexeme w t) : ∀ c ∈ w, c ≠ 10 ∧ c ≠ 13 := by
  cases h with
  | num h => exact h.noline
  | str _ h =>
    rw [List.forall_mem_cons]
    refine ⟨by decide, noline_append ?_ (by decide)⟩
    rcases h with ⟨-, h, -⟩ | ⟨-, t, -, -, h | ⟨s0, h, x, rfl, hh, -, -, hd⟩⟩
    · exact fun c hc => toNat_ne (h c hc) (by omega)
    · exact h.noline
    · refine noline_append hd.noline ?_
      rw [List.forall_mem_cons, List.forall_mem_cons]
      exact ⟨by decide, by decide, hh.noline⟩
  | _ => decide

/-- one step at the beginning of a text -/
theorem step_text [Libc] {extra s : List Byte} {t t' : Tz} {tok : Tok} (hat : At extra s t) (h0 : 0 ∉ s)
    (h : tokenStep t = .ok (some (tok, t'))) :
    (tok = .eof ∧ s = []) ∨ tok = .err ∨ (tok ≠ .eof ∧ ∃ w s', s = w ++ s' ∧ Lexeme w tok ∧ At extra s' t') := by
  rcases tokenStep_sound h with ⟨rfl, hl⟩ | ⟨rfl, m, i, hm, hi, hz⟩ | rfl | ⟨hl, hne, w, hm, hlx, ht⟩
  · rw [hat.2] at hl
    exact .inl ⟨rfl, List.length_eq_zero_iff.1 hl⟩
  · exfalso
    rw [hat.1] at hm
    rw [hat.2] at hi
    obtain ⟨s', rfl, hm'⟩ := split_nul (w := [47, 47]) (m := m) hm (by decide)
    rw [hm'] at hz
    simp only [List.cons_append, List.nil_append, List.length_cons] at hi
    rw [List.getElem?_append_left (by omega)] at hz
    exact h0 (List.mem_append_right _ (List.mem_of_getElem? hz))
  · exact .inr (.inl rfl)
  · rw [hat.1] at hm
    obtain ⟨s', rfl, hm'⟩ := split_nul hm hlx.nul
    refine .inr (.inr ⟨hne, w, s', rfl, hlx, hm', ?_⟩)
    rw [ht, Tz.to]
    simp only [hat.1, hat.2, hm', List.length_append, List.length_cons]
    omega

/-- tokens of a text: the line is counted over what was read -/
theorem yields_line [Libc] {extra : List Byte} {t t' : Tz} {ts : List Tok} (h : Yields nextToken t ts t') :
    ∀ {s : List Byte}, At extra s t → 0 ∉ s → .eof ∉ ts → .err ∉ ts →
      ∃ pre s', s = pre ++ s' ∧ Spells pre ts ∧ At extra s' t' ∧ t'.line = t.line + lineEnds pre := by
  induction h with
  | nil => intro s hat _ _ _; exact ⟨[], s, rfl, .nil, hat, rfl⟩
  | cons h hs ih =>
    rename_i t t1 t2 c cs
    intro s hat h0 h1 h2
    simp only [List.mem_cons, not_or] at h1 h2
    obtain ⟨ws, rest, t0, rfl, hws, -, hat0, hl, hst⟩ := nextTokenN_split _ hat h0 h
    simp only [List.mem_append, not_or] at h0
    rcases step_text hat0 h0.2 hst with ⟨h3, -⟩ | h3 | ⟨-, w, s', rfl, hlx, hat'⟩
    · exact absurd h3.symm h1.1
    · exact absurd h3.symm h2.1
    · simp only [List.mem_append, not_or] at h0
      obtain ⟨pre, s'', rfl, hsp, hat'', hl2⟩ := ih hat' h0.2.2 h1.2 h2.2
      refine ⟨ws ++ (w ++ pre), s'', by simp, Spells.space hws (.tok hlx hsp), hat'', ?_⟩
      rw [hl2, tokenStep_line hst, hl, lineEnds_append, lineEnds_append, lineEnds_zero hlx.noline]
      omega

/-- a lexeme at the beginning of a text is the token that is read -/
theorem step_lexeme [Libc] {extra s w : List Byte} {t t' : Tz} {tok k : Tok} (hat : At extra s t)
    (hlen : s.length < 2 ^ 31) (hw : StartsWith s w k) (h : tokenStep t = .ok (some (tok, t'))) : tok = k := by
  obtain ⟨r, rfl, hlx, hend⟩ := hw
  obtain ⟨mem, left, line⟩ := t
  obtain ⟨rfl, rfl⟩ : mem = w ++ r ++ 0 :: extra ∧ left = (w ++ r).length := hat
  have h' := nextToken_step h
  have fin : ∀ {P : List Byte → Prop}, Lexes P w [k] → P (r ++ 0 :: extra) → tok = k := by
    intro P hx hP
    obtain ⟨ws, line', -, hy⟩ := hx (r ++ 0 :: extra) r.length line hP
    cases hy with
    | cons hn _ =>
      rw [List.append_assoc, List.length_append, hn] at h'
      simp only [Res.ok.injEq, Prod.mk.injEq] at h'
      exact h'.1.symm
  simp only [List.length_append] at hlen
  cases hlx with
  | lb => exact fin lexes_lb trivial
  | rb => exact fin lexes_rb trivial
  | lc => exact fin lexes_lc trivial
  | rc => exact fin lexes_rc trivial
  | colon => exact fin lexes_colon trivial
  | comma => exact fin lexes_comma trivial
  | null => exact fin lexes_null trivial
  | yes => exact fin lexes_true trivial
  | no => exact fin lexes_false trivial
  | num hnum =>
    refine fin (lexes_num hnum) ?_
    cases r with
    | nil => exact numEnd_cons _ (by decide)
    | cons c r =>
      obtain ⟨e1, e2, e3, e4⟩ := hend _ hnum c rfl
      refine numEnd_cons _ ⟨?_, e2, e3, e4⟩
      cases hd : isDigit c with
      | false => rfl
      | true => exact absurd ((isDigit_iff c).1 hd) e1
  | str hq hlit =>
    simp only [List.length_cons, List.length_append] at hlen
    exact fin (lexes_str hq hlit (by omega)) trivial

theorem skip_line [Libc] (ws : List Byte) (hws : ∀ c ∈ ws, Space c) (m : List Byte) (l : Nat) :
    ∀ line, nextToken ⟨ws ++ m, ws.length + l, line⟩ = nextToken ⟨m, l, line + lineEnds ws⟩ := by
  induction ws with
  | nil => intro line; simp [lineEnds]
  | cons c ws ih =>
    intro line
    rw [List.forall_mem_cons] at hws
    have hstep : tokenStep ⟨c :: ws ++ m, (c :: ws).length + l, line⟩ = .ok none :=
      tokenStep_space (by simp) rfl hws.1
    have e := ih hws.2 (if c == 10 || c == 13 then line + 1 else line)
    have hle : line + lineEnds (c :: ws) = (if c == 10 || c == 13 then line + 1 else line) + lineEnds ws := by
      simp only [lineEnds, List.countP_cons]
      split <;> omega
    rw [hle, ← e, nextToken]
    show nextTokenN ((ws ++ m).length + 1) _ = _
    rw [nextTokenN, hstep, Res.bind_ok]
    simp only [Tz.skip, List.cons_append, List.length_cons]
    rw [nextToken]
    congr 2
    omega

theorem yields_split {σ : Type} {next : σ → Res (Tok × σ)} {toks more : List Tok} {a b : σ}
    (hy : Yields next a (toks ++ more) b) : ∃ c, Yields next a toks c ∧ Yields next c more b := by
  induction toks generalizing a with
  | nil => exact ⟨a, .nil _, hy⟩
  | cons k toks ih =>
    cases hy with
    | cons hn hs =>
      obtain ⟨t0, h1, h2⟩ := ih hs
      exact ⟨t0, .cons hn h1, h2⟩

namespace Props

/-- **C118.**  If a text is refused, the line reported is the number of line ends before a place in it (white space
before a token belongs to what is before it), and this is the first place where the text cannot be continued to a
document: what is before spells tokens with which a document begins, and together with the token that comes next, if
there is one, no document begins with them.  Nor are the tokens before a document of their own, unless something
follows that must not.
Every LF and every CR counts as a line end. -/
theorem C118_partial [Libc] (s extra : List Byte) (h0 : 0 ∉ s) (hlen : s.length < 2 ^ 31) (n : Nat) (f : Bool) (t : Tz)
    (h : parsex n (s ++ 0 :: extra) s.length f = .ok (some (.einval, t))) :
    ∃ pre rest toks, s = pre ++ rest ∧ Spells pre toks ∧ (∀ c, rest.head? = some c → ¬ Space c) ∧
      t.line = lineEnds pre ∧ Begins toks ∧ (∀ w k, StartsWith rest w k → ¬ Begins (toks ++ [k])) ∧
      (f = false ∨ rest = [] → ¬ ∃ x : Syn, x.depth ≤ 511 ∧ x.toks = toks) := by
  have hat : At extra s ⟨s ++ 0 :: extra, s.length, 0⟩ := ⟨rfl, rfl⟩
  -- the last token and what was read before
  have fin : ∀ {toks : List Tok} {c : Tok} {t1 t : Tz}, Yields nextToken ⟨s ++ 0 :: extra, s.length, 0⟩ toks t1 →
      nextToken t1 = .ok (c, t) → Begins toks → ¬ Begins (toks ++ [c]) →
      (f = false ∨ c = .eof → ¬ ∃ x : Syn, x.depth ≤ 511 ∧ x.toks = toks) →
      ∃ pre rest toks, s = pre ++ rest ∧ Spells pre toks ∧ (∀ c, rest.head? = some c → ¬ Space c) ∧
        t.line = lineEnds pre ∧ Begins toks ∧ (∀ w k, StartsWith rest w k → ¬ Begins (toks ++ [k])) ∧
        (f = false ∨ rest = [] → ¬ ∃ x : Syn, x.depth ≤ 511 ∧ x.toks = toks) := by
    intro toks c t1 t hy hn hb hnb hdoc
    obtain ⟨x, ext, hdx, hx⟩ := hb
    have hne := (plain_doc x).no_end
    rw [hx] at hne
    simp only [List.mem_append, not_or] at hne
    obtain ⟨pre, s', rfl, hsp, hat1, hl1⟩ := yields_line hy hat h0 hne.1.1 hne.2.1
    simp only [List.mem_append, not_or] at h0
    obtain ⟨ws, rest, t0, rfl, hws, hhd, hat0, hl0, hst⟩ := nextTokenN_split _ hat1 h0.2 hn
    simp only [List.length_append] at hlen
    refine ⟨pre ++ ws, rest, toks, by simp, hsp.space_end hws, hhd, ?_, ⟨x, ext, hdx, hx⟩, ?_, ?_⟩
    · rw [tokenStep_line hst, hl0, hl1, lineEnds_append]
      simp
    · intro w k hw
      rw [← step_lexeme hat0 (by omega) hw hst]
      exact hnb
    · rintro (h | rfl)
      · exact hdoc (.inl h)
      · refine hdoc (.inr ?_)
        rw [tokenStep, if_pos (by rw [hat0.2]; rfl)] at hst
        simp only [Res.ok.injEq, Option.some.injEq, Prod.mk.injEq] at hst
        exact hst.1.symm
  obtain ⟨r, e1, e2⟩ := Res.bind_eq_ok.1 h
  cases r with
  | none => cases e2
  | some r =>
    obtain ⟨s', t1⟩ := r
    obtain ⟨ts, hy, hr⟩ := prun_yields n _ _ _ _ e1
    simp only [pfinish] at e2
    by_cases hd : s'.st = .done
    · obtain ⟨x, hx, hdx, hv⟩ := prun_doc_inv (hr []) hd
      rw [List.append_nil, List.append_nil] at hx
      subst hx
      cases f with
      | false => simp [hd, Res.map] at e2
      | true =>
        simp only [hd, ↓reduceIte] at e2
        cases hn : nextToken t1 with
        | ub => rw [hn] at e2; cases e2
        | segv => rw [hn] at e2; cases e2
        | ok r =>
          obtain ⟨c, t2⟩ := r
          rw [hn] at e2
          simp only [Res.map, Res.ok.injEq, Option.some.injEq] at e2
          by_cases hc : c = .eof
          · simp [hc] at e2
          · simp only [hc, ↓reduceIte, Prod.mk.injEq, true_and] at e2
            subst e2
            refine fin hy hn ⟨x, [], hdx, by simp⟩ ?_ ?_
            · rintro ⟨y, ext, hdy, hxy⟩
              have := (uniq x y ([c] ++ ext) [] (by rw [hxy]; simp)).2.2
              simp at this
            · rintro (h | h)
              · cases h
              · exact absurd h hc
    · simp only [hd, ↓reduceIte, Res.map, Res.ok.injEq, Option.some.injEq, Prod.mk.injEq, true_and] at e2
      subst e2
      obtain ⟨toks, c, rfl, hb, hnb, hdoc⟩ := last_token hr hd
      obtain ⟨t0, hy1, hy2⟩ := yields_split hy
      cases hy2 with
      | cons hn hs =>
        cases hs
        exact fin hy1 hn hb hnb fun _ => hdoc

/-- **C118** is false for lines that end with CR LF: each of them counts twice.  Of a text of `k` empty lines and a
brace that was never opened the line is `2 k`, not `k`. -/
theorem C118_crlf_false [Libc] (k : Nat) (n : Nat) (f : Bool) (hn : 0 < n) :
    ∃ t, parsex n ((List.replicate k [13, 10]).flatten ++ [125] ++ [0]) (2 * k + 1) f = .ok (some (.einval, t)) ∧
      t.line = 2 * k := by
  obtain ⟨n, rfl⟩ : ∃ m, n = m + 1 := ⟨n - 1, by omega⟩
  have hl : ∀ k, ((List.replicate k [(13 : Byte), 10]).flatten).length = 2 * k ∧
      lineEnds (List.replicate k [(13 : Byte), 10]).flatten = 2 * k ∧
      ∀ c ∈ (List.replicate k [(13 : Byte), 10]).flatten, Space c := by
    intro k
    induction k with
    | zero => exact ⟨rfl, rfl, by simp⟩
    | succ k ih =>
      rw [List.replicate_succ, List.flatten_cons, lineEnds_append, List.length_append]
      refine ⟨by rw [ih.1]; simp; omega, by rw [ih.2.1]; simp [lineEnds]; omega, ?_⟩
      intro c hc
      rcases List.mem_append.1 hc with h | h
      · simp only [List.mem_cons, List.not_mem_nil, or_false] at h
        rcases h with rfl | rfl
        · exact .inr (.inr (.inr rfl))
        · exact .inr (.inr (.inl rfl))
      · exact ih.2.2 c h
  obtain ⟨h1, h2, h3⟩ := hl k
  have e := skip_line _ h3 [125, 0] 1 0
  rw [h1, h2, Nat.zero_add, nextToken_step (t := ⟨[125, 0], 1, 2 * k⟩) (r := (.rc, ⟨[0], 0, 2 * k⟩)) rfl] at e
  refine ⟨⟨[0], 0, 2 * k⟩, ?_, rfl⟩
  rw [parsex, parseWith, prun_go (by decide), List.append_assoc]
  simp only [List.cons_append, List.nil_append]
  rw [e, Res.bind_ok]
  simp only
  rw [show pstep pinit .rc = .ok { pinit with st := .error } from rfl, Res.bind_ok, prun_stop (by decide), Res.bind_ok]
  rfl

/-! ## the hypotheses are met -/

attribute [local instance] exampleLibc

/-- `[1,` and `2 3]` in the second line -/
example : ∃ t, parsex 20 ([91, 49, 44, 10, 32, 50, 32, 51, 93] ++ [0]) 9 true = .ok (some (.einval, t)) ∧ t.line = 1 :=
  ⟨_, rfl, rfl⟩

/-- the end of the text after a comma -/
example : ∃ t, parsex 20 ([91, 49, 44, 10, 10] ++ [0]) 5 true = .ok (some (.einval, t)) ∧ t.line = 2 :=
  ⟨_, rfl, rfl⟩

/-- a string that goes over the end of a line, in the second line -/
example : ∃ t, parsex 20 ([10, 34, 97, 10, 98, 34] ++ [0]) 6 true = .ok (some (.einval, t)) ∧ t.line = 1 :=
  ⟨_, rfl, rfl⟩

end Props

end Verif.Json
