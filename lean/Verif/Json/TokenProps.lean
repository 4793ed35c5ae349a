import Verif.Json.ParseProps
import Verif.Json.UnescapeProps

/-! # Property C36: the tokenizer and the parser end, inside the memory, on every NUL terminated text -/

namespace Verif.Json

/-! ## reading up to the NUL -/

theorem mem_of_suffix_tail {m body : List Byte} {c : Byte} {rest : List Byte} (h : m = body ++ c :: rest)
    (h0 : 0 ∈ m) (hb : 0 ∉ body) (hc : c ≠ 0) : 0 ∈ rest := by
  subst h
  rcases List.mem_append.1 h0 with h | h
  · exact absurd h hb
  · rcases List.mem_cons.1 h with h | h
    · exact absurd h.symm hc
    · exact h

theorem check_ok (ps : List Byte) : ∀ m : List Byte, 0 ∈ m → 0 ∉ ps → ∃ r, check ps m = .ok r ∧
    ∀ m', r = some m' → m = ps ++ m' ∧ 0 ∈ m' := by
  induction ps with
  | nil =>
    intro m h0 _
    refine ⟨_, rfl, fun m' h => ?_⟩
    cases h; exact ⟨rfl, h0⟩
  | cons p ps ih =>
    intro m h0 hp
    cases m with
    | nil => simp at h0
    | cons c m =>
      rw [check]
      by_cases hc : c = p
      · subst hc
        have hc0 : c ≠ 0 := fun h => hp (by rw [h]; exact List.mem_cons_self ..)
        have h0' : 0 ∈ m := by
          rcases List.mem_cons.1 h0 with h | h
          · exact absurd h.symm hc0
          · exact h
        obtain ⟨r, e, hr⟩ := ih m h0' (fun h => hp (List.mem_cons_of_mem _ h))
        refine ⟨r, by simpa using e, fun m' h => ?_⟩
        obtain ⟨h1, h2⟩ := hr m' h
        exact ⟨by rw [h1]; rfl, h2⟩
      · exact ⟨none, by simp [hc], by simp⟩

theorem isDigit_ne_zero {c : Byte} (h : isDigit c = true) : c ≠ 0 := by
  rintro rfl; revert h; decide

theorem digits_ok : ∀ m : List Byte, 0 ∈ m → ∃ ds m', digits m = .ok (ds, m') ∧ m = ds ++ m' ∧ 0 ∈ m' ∧
    ∀ c ∈ ds, isDigit c = true := by
  intro m
  induction m with
  | nil => intro h; simp at h
  | cons c m ih =>
    intro h0
    rw [digits]
    cases hc : isDigit c with
    | false => exact ⟨[], c :: m, by simp, rfl, h0, by simp⟩
    | true =>
      have h0' : 0 ∈ m := by
        rcases List.mem_cons.1 h0 with h | h
        · exact absurd h.symm (isDigit_ne_zero hc)
        · exact h
      obtain ⟨ds, m', e, h1, h2, h3⟩ := ih h0'
      refine ⟨c :: ds, m', by rw [e]; rfl, by rw [h1]; rfl, h2, ?_⟩
      rw [List.forall_mem_cons]; exact ⟨hc, h3⟩

theorem peek_ok {m : List Byte} (h : 0 ∈ m) : ∃ c m', m = c :: m' ∧ peek m = .ok c := by
  cases m with
  | nil => simp at h
  | cons c m => exact ⟨c, m, rfl, rfl⟩

theorem mem_tail {c : Byte} {m : List Byte} (h : 0 ∈ c :: m) (hc : c ≠ 0) : 0 ∈ m := by
  rcases List.mem_cons.1 h with h | h
  · exact absurd h.symm hc
  · exact h

theorem fraction_ok {m : List Byte} (h0 : 0 ∈ m) : ∃ r, fraction m = .ok r ∧
    ∀ f m', r = some (f, m') → m = f ++ m' ∧ 0 ∈ m' := by
  obtain ⟨c, m1, rfl, hp⟩ := peek_ok h0
  rw [fraction, hp, Res.bind_ok]
  by_cases hc : c = 46
  · subst hc
    obtain ⟨ds, m', e, h1, h2, -⟩ := digits_ok m1 (mem_tail h0 (by decide))
    refine ⟨if ds.isEmpty then none else some (46 :: ds, m'), by simp [e, Res.map], ?_⟩
    intro f m'' hf
    split at hf
    · cases hf
    · cases hf; exact ⟨by rw [h1]; rfl, h2⟩
  · refine ⟨some ([], c :: m1), by simp [hc], ?_⟩
    intro f m' h; cases h; exact ⟨rfl, h0⟩

theorem exponent_ok {m : List Byte} (h0 : 0 ∈ m) : ∃ r, exponent m = .ok r ∧
    ∀ f m', r = some (f, m') → m = f ++ m' ∧ 0 ∈ m' := by
  obtain ⟨c, m1, rfl, hp⟩ := peek_ok h0
  rw [exponent, hp, Res.bind_ok]
  cases hc : (c == 43 || c == 45) with
  | true =>
    have hc0 : c ≠ 0 := by rintro rfl; revert hc; decide
    obtain ⟨ds, m', e, h1, h2, -⟩ := digits_ok m1 (mem_tail h0 hc0)
    refine ⟨if ds.isEmpty then none else some ([c] ++ ds, m'), by simp [e, Res.map], ?_⟩
    intro f m'' hf
    split at hf
    · cases hf
    · cases hf; exact ⟨by rw [h1]; rfl, h2⟩
  | false =>
    obtain ⟨ds, m', e, h1, h2, -⟩ := digits_ok (c :: m1) h0
    refine ⟨if ds.isEmpty then none else some ([] ++ ds, m'), by simp [e, Res.map], ?_⟩
    intro f m'' hf
    split at hf
    · cases hf
    · cases hf; exact ⟨by rw [h1]; rfl, h2⟩

theorem parseNumber_ok [Libc] {m : List Byte} (h0 : 0 ∈ m) : ∃ r, parseNumber m = .ok r ∧
    ∀ a m', r = some (a, m') → ∃ w, m = w ++ m' ∧ w ≠ [] ∧ 0 ∈ m' := by
  obtain ⟨c, m1, rfl, hp⟩ := peek_ok h0
  rw [parseNumber, hp, Res.bind_ok]
  have hneg : ∃ sg m2, (if (c == 45) = true then (c :: m1).drop 1 else c :: m1) = m2 ∧ c :: m1 = sg ++ m2 ∧ 0 ∈ m2 := by
    by_cases hc : c = 45
    · subst hc; exact ⟨[45], m1, rfl, rfl, mem_tail h0 (by decide)⟩
    · exact ⟨[], c :: m1, by simp [hc], rfl, h0⟩
  obtain ⟨sg, m2, e2, hm2, h02⟩ := hneg
  simp only [e2]
  obtain ⟨ds, m3, e3, hm3, h03, -⟩ := digits_ok m2 h02
  rw [e3, Res.bind_ok]
  simp only
  cases ds with
  | nil => exact ⟨none, rfl, by simp⟩
  | cons d ds =>
    simp only [List.isEmpty_cons, Bool.false_eq_true, ↓reduceIte]
    obtain ⟨r, e4, h4⟩ := fraction_ok h03
    rw [e4, Res.bind_ok]
    cases r with
    | none => exact ⟨none, rfl, by simp⟩
    | some r =>
      obtain ⟨frac, m4⟩ := r
      obtain ⟨hm4, h04⟩ := h4 _ _ rfl
      simp only
      obtain ⟨c5, m5, rfl, hp5⟩ := peek_ok h04
      rw [hp5, Res.bind_ok]
      have hw : ∀ w m', m3 = w ++ m' → c :: m1 = (sg ++ d :: ds ++ w) ++ m' := by
        intro w m' h; rw [hm2, hm3, h]; simp
      cases hc5 : (c5 == 101 || c5 == 69) with
      | true =>
        have hc0 : c5 ≠ 0 := by rintro rfl; revert hc5; decide
        obtain ⟨r, e6, h6⟩ := exponent_ok (mem_tail h04 hc0)
        simp only [↓reduceIte, List.drop_succ_cons, List.drop_zero, e6, Res.map]
        refine ⟨_, rfl, ?_⟩
        intro a m' h
        cases r with
        | none => cases h
        | some r =>
          obtain ⟨ex, m6⟩ := r
          obtain ⟨hm6, h06⟩ := h6 _ _ rfl
          simp only [Option.some.injEq, Prod.mk.injEq] at h
          obtain ⟨-, rfl⟩ := h
          exact ⟨_, hw (frac ++ c5 :: ex) m6 (by rw [hm4, hm6]; simp), by simp, h06⟩
      | false =>
        simp only [Bool.false_eq_true, ↓reduceIte]
        cases frac.isEmpty with
        | true =>
          simp only [↓reduceIte]
          by_cases hz : ((d :: ds).length ≠ 1 && (d :: ds).head? == some 48) = true
          · rw [if_pos hz]; exact ⟨none, rfl, by simp⟩
          · rw [if_neg hz]
            refine ⟨_, rfl, ?_⟩
            intro a m' h
            simp only [Option.some.injEq, Prod.mk.injEq] at h
            obtain ⟨-, rfl⟩ := h
            exact ⟨_, hw frac _ hm4, by simp, h04⟩
        | false =>
          simp only [Bool.false_eq_true, ↓reduceIte]
          refine ⟨_, rfl, ?_⟩
          intro a m' h
          simp only [Option.some.injEq, Prod.mk.injEq] at h
          obtain ⟨-, rfl⟩ := h
          exact ⟨_, hw frac _ hm4, by simp, h04⟩

theorem parseString_rest {m s rest : List Byte} (h : parseString m = .ok (some (s, rest))) :
    ∃ b, m = b ++ 34 :: rest ∧ 0 ∉ b := by
  rw [parseString] at h
  obtain ⟨r, e1, h⟩ := Res.bind_eq_ok.1 h
  cases r with
  | none => simp at h
  | some r =>
    obtain ⟨b, rest'⟩ := r
    obtain ⟨u, e2, h⟩ := Res.bind_eq_ok.1 h
    have hs := scanStr_some m.length (Nat.le_refl _) e1
    have : rest' = rest := by
      cases u with
      | err => simp at h
      | same =>
        simp only at h
        split at h
        · simp only [Res.ok.injEq, Option.some.injEq, Prod.mk.injEq] at h; exact h.2
        · cases h
      | fresh out =>
        simp only at h
        cases hc : cstr (out ++ List.replicate (b.length - out.length) 0) with
        | ok t => rw [hc] at h; simp only [Res.map, Res.ok.injEq, Option.some.injEq, Prod.mk.injEq] at h; exact h.2
        | ub => rw [hc] at h; cases h
        | segv => rw [hc] at h; cases h
    subst this
    exact ⟨b, hs⟩

theorem comment_ok : ∀ (m : List Byte) (n : Nat), 0 ∈ m → ∃ c, comment n m = .ok c ∧ (c = .eof ∨ c = .err) := by
  intro m
  induction m with
  | nil => intro n h; simp at h
  | cons c m ih =>
    intro n h0
    cases n with
    | zero => exact ⟨_, rfl, .inr rfl⟩
    | succ n =>
      rw [comment]
      by_cases hc : c = 0
      · exact ⟨.eof, by simp [hc], .inl rfl⟩
      · by_cases hn : c = 10
        · exact ⟨.err, by simp [hn], .inr rfl⟩
        · obtain ⟨r, e, hr⟩ := ih n (mem_tail h0 hc)
          exact ⟨r, by simp [hc, hn, e], hr⟩

/-! ## one token -/

/-- there is a NUL ahead -/
def Good (t : Tz) : Prop := 0 ∈ t.mem ∧ t.mem.length < 2 ^ 31

/-- what reading a token leaves: the end or an error, or less memory with the NUL still ahead -/
def After (t : Tz) (r : Tok × Tz) : Prop :=
  r.2.mem <:+ t.mem ∧ ((r.1 = .eof ∨ r.1 = .err) ∨ (r.2.mem.length < t.mem.length ∧ Good r.2))

theorem after_to {t : Tz} {tok : Tok} {w m : List Byte} (ht : Good t) (h : t.mem = w ++ m) (hw : w ≠ []) (h0 : 0 ∈ m) :
    After t (tok, t.to m) := by
  have hl : m.length < t.mem.length := by
    rw [h, List.length_append]
    have := List.length_pos_iff.2 hw
    omega
  refine ⟨⟨w, by rw [h]; rfl⟩, .inr ⟨hl, h0, ?_⟩⟩
  show m.length < 2 ^ 31
  have := ht.2
  omega

theorem take_ok {t : Tz} {r : Res (Option (Tok × List Byte))} {x : Option (Tok × List Byte)} (ht : Good t)
    (hr : r = .ok x) (hx : ∀ tok m, x = some (tok, m) → ∃ w, t.mem = w ++ m ∧ w ≠ [] ∧ 0 ∈ m) :
    ∃ y, (t.take r).map some = .ok (some y) ∧ After t y := by
  subst hr
  cases x with
  | none => exact ⟨(.err, t), rfl, List.suffix_refl _, .inl (.inr rfl)⟩
  | some x =>
    obtain ⟨tok, m⟩ := x
    obtain ⟨w, h1, h2, h3⟩ := hx tok m rfl
    exact ⟨(tok, t.to m), rfl, after_to ht h1 h2 h3⟩

theorem tokenStep_ok [Libc] {t : Tz} (ht : Good t) : ∃ r, tokenStep t = .ok r ∧
    (∀ y, r = some y → After t y) ∧
    (r = none → ∃ c m, t.mem = c :: m ∧ c ≠ 0) := by
  rw [tokenStep]
  by_cases hl : t.left = 0
  · rw [if_pos hl]
    exact ⟨_, rfl, fun y h => by cases h; exact ⟨List.suffix_refl _, .inl (.inl rfl)⟩, by simp⟩
  · rw [if_neg hl]
    obtain ⟨h0, hlen⟩ := ht
    obtain ⟨mem, left, line⟩ := t
    simp only at h0 hlen hl ⊢
    cases mem with
    | nil => simp at h0
    | cons c m =>
      simp only
      have single : ∀ tok, c ≠ 0 → ∃ r, (Res.ok (some (tok, (⟨c :: m, left, line⟩ : Tz).to m)) : Res (Option (Tok × Tz))) = .ok r ∧
          (∀ y, r = some y → After ⟨c :: m, left, line⟩ y) ∧ (r = none → ∃ c' m', c :: m = c' :: m' ∧ c' ≠ 0) := by
        intro tok hc
        refine ⟨_, rfl, fun y h => ?_, by simp⟩
        cases h
        exact after_to (w := [c]) ⟨h0, hlen⟩ rfl (by simp) (mem_tail h0 hc)
      have fin : ∀ {R : Res (Option (Tok × Tz))}, (∃ y, R = .ok (some y) ∧ After ⟨c :: m, left, line⟩ y) →
          ∃ r, R = .ok r ∧ (∀ y, r = some y → After ⟨c :: m, left, line⟩ y) ∧
            (r = none → ∃ c' m', c :: m = c' :: m' ∧ c' ≠ 0) := by
        rintro R ⟨y, e, hy⟩
        exact ⟨some y, e, fun z h => by cases h; exact hy, by simp⟩
      have word : ∀ (ps : List Byte) (tok : Tok), c ≠ 0 → 0 ∉ ps →
          ∃ y, ((⟨c :: m, left, line⟩ : Tz).take ((check ps m).map fun r => r.map fun m => (tok, m))).map some =
            .ok (some y) ∧ After ⟨c :: m, left, line⟩ y := by
        intro ps tok hc hps
        obtain ⟨r, e, hr⟩ := check_ok ps m (mem_tail h0 hc) hps
        refine take_ok (x := r.map fun m => (tok, m)) ⟨h0, hlen⟩ (by rw [e]; rfl) ?_
        intro tok' m' h
        cases r with
        | none => cases h
        | some m'' =>
          cases h
          obtain ⟨h1, h2⟩ := hr m' rfl
          exact ⟨c :: ps, by rw [h1]; rfl, by simp, h2⟩
      by_cases c1 : c = 91
      · subst c1; exact single _ (by decide)
      by_cases c2 : c = 123
      · subst c2; exact single _ (by decide)
      by_cases c3 : c = 58
      · subst c3; exact single _ (by decide)
      by_cases c4 : c = 44
      · subst c4; exact single _ (by decide)
      by_cases c5 : c = 125
      · subst c5; exact single _ (by decide)
      by_cases c6 : c = 93
      · subst c6; exact single _ (by decide)
      simp only [beq_iff_eq, c1, c2, c3, c4, c5, c6, ↓reduceIte]
      cases hws : (c == 10 || c == 13 || c == 32 || c == 9) with
      | true => exact ⟨none, rfl, by simp, fun _ => ⟨c, m, rfl, by rintro rfl; revert hws; decide⟩⟩
      | false =>
        simp only [Bool.false_eq_true, ↓reduceIte]
        by_cases c7 : c = 34
        · subst c7
          simp only [↓reduceIte]
          refine fin ?_
          have h0m := mem_tail h0 (by decide)
          have hlm : m.length < 2 ^ 31 := by simp only [List.length_cons] at hlen; omega
          obtain ⟨r, e⟩ := Props.C31_parse_string_safe m h0m hlm
          refine take_ok (x := r.map fun x => (.str x.1, x.2)) ⟨h0, hlen⟩ (by rw [e]; rfl) ?_
          intro tok m' h
          cases r with
          | none => cases h
          | some r =>
            obtain ⟨s, rest⟩ := r
            cases h
            obtain ⟨b, hb, hb0⟩ := parseString_rest e
            exact ⟨34 :: b ++ [34], by rw [hb]; simp, by simp, mem_of_suffix_tail hb h0m hb0 (by decide)⟩
        by_cases c8 : c = 116
        · subst c8; simp only [↓reduceIte, c7]
          exact fin (word _ _ (by decide) (by decide))
        by_cases c9 : c = 110
        · subst c9; simp only [↓reduceIte, c7, c8]
          exact fin (word _ _ (by decide) (by decide))
        by_cases c10 : c = 102
        · subst c10; simp only [↓reduceIte, c7, c8, c9]
          exact fin (word _ _ (by decide) (by decide))
        simp only [↓reduceIte, c7, c8, c9, c10]
        cases hnum : (c == 45 || isDigit c) with
        | true =>
          simp only [↓reduceIte]
          refine fin ?_
          obtain ⟨r, e, hr⟩ := parseNumber_ok h0
          refine take_ok (x := r.map fun x => (.lit x.1, x.2)) ⟨h0, hlen⟩ (by rw [e]; rfl) ?_
          intro tok m' h
          cases r with
          | none => cases h
          | some r =>
            obtain ⟨a, rest⟩ := r
            cases h
            exact hr a _ rfl
        | false =>
          simp only [Bool.false_eq_true, ↓reduceIte]
          refine fin ?_
          by_cases c11 : c = 47
          · subst c11
            simp only [↓reduceIte]
            obtain ⟨r, e, hr⟩ := check_ok [47] m (mem_tail h0 (by decide)) (by decide)
            rw [e, Res.bind_ok]
            cases r with
            | none => exact ⟨_, rfl, List.suffix_refl _, .inl (.inr rfl)⟩
            | some m' =>
              obtain ⟨h1, h2⟩ := hr m' rfl
              obtain ⟨tok, e2, htok⟩ := comment_ok m' (left - 2) h2
              simp only [e2, Res.map]
              exact ⟨_, rfl, List.suffix_refl _, .inl htok⟩
          · simp only [c11, ↓reduceIte]
            exact ⟨_, rfl, List.suffix_refl _, .inl (.inr rfl)⟩

theorem nextTokenN_ok [Libc] (n : Nat) : ∀ t : Tz, Good t → t.mem.length ≤ n → ∃ r, nextTokenN n t = .ok r ∧ After t r := by
  induction n with
  | zero =>
    intro t ht hn
    have := ht.1
    rw [List.length_eq_zero_iff.1 (Nat.le_zero.1 hn)] at this
    simp at this
  | succ n ih =>
    intro t ht hn
    obtain ⟨r, e, h1, h2⟩ := tokenStep_ok ht
    rw [nextTokenN, e, Res.bind_ok]
    cases r with
    | some y => exact ⟨y, rfl, h1 y rfl⟩
    | none =>
      obtain ⟨c, m, hm, hc⟩ := h2 rfl
      have hskip : t.skip.mem = m := by rw [Tz.skip, hm]
      have hlen : m.length < t.mem.length := by rw [hm]; simp
      have hg : Good t.skip := by
        refine ⟨?_, ?_⟩
        · rw [hskip]; have := ht.1; rw [hm] at this; exact mem_tail this hc
        · rw [hskip]; have := ht.2; omega
      obtain ⟨r, e, ha⟩ := ih t.skip hg (by rw [hskip]; omega)
      refine ⟨r, e, ?_, ?_⟩
      · refine ha.1.trans ⟨[c], ?_⟩
        rw [hskip, hm]; rfl
      · rcases ha.2 with h | ⟨h3, h4⟩
        · exact .inl h
        · rw [hskip] at h3
          exact .inr ⟨by omega, h4⟩

theorem nextToken_ok [Libc] {t : Tz} (ht : Good t) : ∃ r, nextToken t = .ok r ∧ After t r :=
  nextTokenN_ok t.mem.length t ht (Nat.le_refl _)

/-! ## the whole run -/

theorem prun_total [Libc] (n : Nat) : ∀ (s : PSt) (t : Tz), PInv s → Good t → t.mem.length ≤ n →
    ∃ s' t', prun nextToken n s t = .ok (some (s', t')) ∧ PInv s' ∧ t'.mem <:+ t.mem ∧
      (s'.st = .done → s.st ≠ .done → Good t') := by
  induction n with
  | zero =>
    intro s t _ ht hn
    have := ht.1
    rw [List.length_eq_zero_iff.1 (Nat.le_zero.1 hn)] at this
    simp at this
  | succ n ih =>
    intro s t hi ht hn
    cases hg : s.goes with
    | false => exact ⟨s, t, prun_stop hg _ _, hi, List.suffix_refl _, fun _ _ => ht⟩
    | true =>
      obtain ⟨h1, h2, h3, h4⟩ := goes_iff.1 hg
      obtain ⟨⟨c, t1⟩, e, ha⟩ := nextToken_ok ht
      obtain ⟨s1, es, hi1⟩ := pstep_inv hi h4 h1 c
      rw [prun_go hg, e, Res.bind_ok]
      simp only
      rw [es, Res.bind_ok]
      rcases ha.2 with hc | ⟨hlt, hg1⟩
      · have he := pstep_eof hc h4 es
        have hs : s1.goes = false := by
          cases hs : s1.goes with
          | false => rfl
          | true => exact absurd he (goes_iff.1 hs).2.2.1
        refine ⟨s1, t1, prun_stop hs _ _, hi1, ha.1, ?_⟩
        rw [he]; intro h; cases h
      · simp only at hlt hg1
        by_cases hd : s1.st = .done
        · have hs : s1.goes = false := by
            cases hs : s1.goes with
            | false => rfl
            | true => exact absurd hd (goes_iff.1 hs).2.2.2
          exact ⟨s1, t1, prun_stop hs _ _, hi1, ha.1, fun _ _ => hg1⟩
        · obtain ⟨s', t', e', hi', hsf, hgd⟩ := ih s1 t1 hi1 hg1 (by omega)
          exact ⟨s', t', e', hi', hsf.trans ha.1, fun h _ => hgd h hd⟩

mutual
/-- how deep the containers of a value are nested -/
def Val.depth : Val → Nat
  | .atom _ => 0
  | .arr xs => 1 + vdepthL xs
  | .obj kvs => 1 + vdepthF kvs
/-- the deepest element -/
def vdepthL : List Val → Nat
  | [] => 0
  | x :: xs => max x.depth (vdepthL xs)
/-- the deepest entry -/
def vdepthF : List (List Byte × Val) → Nat
  | [] => 0
  | (_, x) :: xs => max x.depth (vdepthF xs)
end

theorem vdepthF_insert (k : List Byte) (v : Val) (kvs : List (List Byte × Val)) :
    vdepthF (insertKey k v kvs) ≤ max v.depth (vdepthF kvs) := by
  induction kvs with
  | nil => simp [insertKey, vdepthF]
  | cons kv kvs ih =>
    obtain ⟨k', v'⟩ := kv
    rw [insertKey]
    split
    · simp only [vdepthF]; omega
    · simp only [vdepthF] at ih ⊢; omega

theorem vdepthL_valL (xs : List Syn) (h : ∀ x ∈ xs, x.val.depth ≤ x.depth) : vdepthL (valL xs) ≤ depthL xs := by
  induction xs with
  | nil => simp [valL, vdepthL]
  | cons x xs ih =>
    rw [valL, vdepthL, depthL]
    have h1 := h x (List.mem_cons_self ..)
    have h2 := ih fun y hy => h y (List.mem_cons_of_mem _ hy)
    omega

theorem vdepthF_valF (xs : List (List Byte × Syn)) : ∀ acc, (∀ x ∈ xs, x.2.val.depth ≤ x.2.depth) →
    vdepthF (valF xs acc) ≤ max (vdepthF acc) (depthF xs) := by
  induction xs with
  | nil => intro acc _; simp [valF, depthF]
  | cons x xs ih =>
    intro acc h
    obtain ⟨k, x⟩ := x
    rw [valF, depthF]
    have h1 := h (k, x) (List.mem_cons_self ..)
    have h2 := ih (insertKey k x.val acc) fun y hy => h y (List.mem_cons_of_mem _ hy)
    have h3 := vdepthF_insert k x.val acc
    simp only at h1
    omega

/-- a value is no deeper than the document -/
theorem val_depth (x : Syn) : x.val.depth ≤ x.depth := by
  induction x using Syn.ind with
  | hs s => simp [Syn.val, Val.depth]
  | hl a => simp [Syn.val, Val.depth]
  | ha xs tr ih =>
    rw [Syn.val, Val.depth, Syn.depth]
    have := vdepthL_valL xs ih
    omega
  | ho xs tr ih =>
    rw [Syn.val, Val.depth, Syn.depth]
    have := vdepthF_valF xs [] ih
    rw [vdepthF] at this
    omega

theorem Yields.compare {σ : Type} {next : σ → Res (Tok × σ)} {t t1 t2 : σ} {as bs : List Tok}
    (h1 : Yields next t as t1) (h2 : Yields next t bs t2) : (∃ r, as = bs ++ r) ∨ ∃ r, bs = as ++ r := by
  induction h1 generalizing bs with
  | nil => exact .inr ⟨bs, rfl⟩
  | cons h hs ih =>
    cases h2 with
    | nil => exact .inl ⟨_, rfl⟩
    | cons h' hs' =>
      rw [h] at h'
      simp only [Res.ok.injEq, Prod.mk.injEq] at h'
      obtain ⟨rfl, rfl⟩ := h'
      rcases ih hs' with ⟨r, rfl⟩ | ⟨r, rfl⟩
      · exact .inl ⟨r, rfl⟩
      · exact .inr ⟨r, rfl⟩

/-- an accepted text yields a document -/
theorem parsex_doc [Libc] {n : Nat} {mem : List Byte} {len : Nat} {f : Bool} {v : Option Val} {t : Tz}
    (h : parsex n mem len f = .ok (some (.value v, t))) :
    ∃ x t', Yields nextToken ⟨mem, len, 0⟩ (Syn.toks x) t' ∧ x.depth ≤ 511 ∧ v = some x.val ∧
      (f = true → nextToken t' = .ok (.eof, t)) := by
  obtain ⟨r, e1, e2⟩ := Res.bind_eq_ok.1 h
  cases r with
  | none => cases e2
  | some r =>
    obtain ⟨s, t1⟩ := r
    obtain ⟨ts, hy, hr⟩ := prun_yields n _ _ _ _ e1
    simp only [pfinish] at e2
    by_cases hd : s.st = .done
    · obtain ⟨x, hx, hdx, hv⟩ := prun_doc_inv (hr []) hd
      rw [List.append_nil, List.append_nil] at hx
      subst hx
      refine ⟨x, t1, hy, hdx, ?_, ?_⟩
      · cases f with
        | false => simp only [hd, ↓reduceIte, Bool.false_eq_true, Res.map, Res.ok.injEq, Option.some.injEq,
            Prod.mk.injEq, PResult.value.injEq] at e2; rw [← e2.1, hv]
        | true =>
          cases hn : nextToken t1 with
          | ok r =>
            obtain ⟨c, t2⟩ := r
            simp only [hd, ↓reduceIte, hn, Res.map] at e2
            split at e2
            · simp only [Res.ok.injEq, Option.some.injEq, Prod.mk.injEq, PResult.value.injEq] at e2
              rw [← e2.1, hv]
            · simp at e2
          | ub => simp [hd, hn, Res.map] at e2
          | segv => simp [hd, hn, Res.map] at e2
      · rintro rfl
        cases hn : nextToken t1 with
        | ok r =>
          obtain ⟨c, t2⟩ := r
          simp only [hd, ↓reduceIte, hn, Res.map] at e2
          split at e2
          · rename_i hc
            simp only [Res.ok.injEq, Option.some.injEq, Prod.mk.injEq] at e2
            rw [hc, e2.2]
          · simp at e2
        | ub => simp [hd, hn, Res.map] at e2
        | segv => simp [hd, hn, Res.map] at e2
    · simp [hd, Res.map] at e2

/-- a text that yields a document is accepted -/
theorem parsex_of_yields [Libc] {mem : List Byte} {len : Nat} {x : Syn} {t' : Tz} (n : Nat)
    (hy : Yields nextToken ⟨mem, len, 0⟩ x.toks t') (hd : x.depth ≤ 511) (hn : x.toks.length ≤ n) :
    parsex n mem len false = .ok (some (.value (some x.val), t')) ∧
    ∀ t'', nextToken t' = .ok (.eof, t'') → parsex n mem len true = .ok (some (.value (some x.val), t'')) := by
  obtain ⟨k, rfl⟩ := Nat.exists_eq_add_of_le hn
  obtain ⟨key, e⟩ := prun_doc x hd k []
  rw [List.append_nil, Nat.add_comm] at e
  have hr := prun_of_yields hy _ _ _ e rfl
  constructor
  · rw [parsex, parseWith, hr, Res.bind_ok]; simp [Res.map, pfinish]
  · intro t'' ht
    rw [parsex, parseWith, hr, Res.bind_ok]; simp [Res.map, pfinish, ht]

/-- the states the parser goes through -/
inductive Reach : PSt → Prop
  | start : Reach pinit
  | step {s s1 : PSt} (c : Tok) (h : Reach s) (hg : s.goes = true) (he : pstep s c = .ok s1) : Reach s1

theorem popFrame_len {s s1 : PSt} {top : PFrame} {rest : List PFrame} (h : popFrame s top rest = .ok s1) :
    s1.stk.length = rest.length := by
  cases rest with
  | nil => obtain rfl := Res.ok.inj h; rfl
  | cons p rest =>
    rw [popFrame] at h
    obtain ⟨ret, j, k⟩ := top
    cases j with
    | none => cases h
    | some v =>
      simp only at h
      cases ha : attach p.j k v with
      | ok pj => rw [ha] at h; obtain rfl := Res.ok.inj h; rfl
      | ub => rw [ha] at h; cases h
      | segv => rw [ha] at h; cases h

theorem pstep_len {s s1 : PSt} {c : Tok} (h : pstep s c = .ok s1) : s1.stk.length ≤ s.stk.length + 1 := by
  obtain ⟨st, stk, key, res⟩ := s
  have pop : ∀ {s : PSt} {top : PFrame} {rest : List PFrame}, popFrame s top rest = .ok s1 →
      s1.stk.length ≤ rest.length + 1 + 1 := by
    intro s top rest h
    have := popFrame_len h
    omega
  cases stk with
  | nil => cases h
  | cons top rest =>
    obtain ⟨ret, j, k⟩ := top
    cases st <;> cases c <;> first
      | exact pop h
      | (obtain rfl := Res.ok.inj h; simp)
      | (simp only [pstep, Tok.atom?] at h
         split at h <;> first
          | (obtain rfl := Res.ok.inj h; simp)
          | cases h)

end Verif.Json

namespace Verif.Json.Props

open Verif.Json

/-! ## C36 -/

/-- Reading a token from memory with a NUL ahead never leaves the memory and ends; the new position is never
before the old one, and unless the token is the end of the input or an error at least one byte was consumed
and the NUL is still ahead. -/
theorem C36_token [Libc] (t : Tz) (h0 : 0 ∈ t.mem) (hlen : t.mem.length < 2 ^ 31) :
    ∃ c t', nextToken t = .ok (c, t') ∧ t'.mem <:+ t.mem ∧
      (c ≠ .eof → c ≠ .err → t'.mem.length < t.mem.length ∧ 0 ∈ t'.mem) := by
  obtain ⟨⟨c, t'⟩, e, hs, ha⟩ := nextToken_ok ⟨h0, hlen⟩
  refine ⟨c, t', e, hs, fun h1 h2 => ?_⟩
  rcases ha with (h | h) | ⟨h, hg⟩
  · exact absurd h h1
  · exact absurd h h2
  · exact ⟨h, hg.1⟩

/-- `cee_json_parsex` on memory with a NUL in it (whatever `len` is) ends after at most as many tokens as
there are bytes, with no undefined behaviour (reading outside the memory, a pop from an empty stack, a value
put into something that is no container); the answer is `EINVAL` or a value that is nested at most 511 deep. -/
theorem C36_ends [Libc] (mem : List Byte) (len : Nat) (forceEof : Bool) (h0 : 0 ∈ mem) (hlen : mem.length < 2 ^ 31)
    (n : Nat) (hn : mem.length ≤ n) :
    ∃ r t, parsex n mem len forceEof = .ok (some (r, t)) ∧ t.mem <:+ mem ∧
      (r = .einval ∨ ∃ v, r = .value (some v) ∧ v.depth ≤ 511) := by
  obtain ⟨s', t', e, hi, hs, hg⟩ := prun_total n pinit ⟨mem, len, 0⟩ ⟨_, rfl, rfl⟩ ⟨h0, hlen⟩ hn
  have hex : ∃ r t, parsex n mem len forceEof = .ok (some (r, t)) ∧ t.mem <:+ mem := by
    rw [parsex, parseWith, e, Res.bind_ok]
    simp only [pfinish]
    by_cases hd : s'.st = .done
    · rw [if_pos hd]
      cases forceEof with
      | false => exact ⟨_, _, rfl, hs⟩
      | true =>
        obtain ⟨⟨c, t''⟩, e2, hs2, -⟩ := nextToken_ok (hg hd (by simp [pinit]))
        rw [if_pos rfl, e2]
        by_cases hc : c = .eof
        · exact ⟨.value s'.result, t'', by simp [Res.map, hc], hs2.trans hs⟩
        · exact ⟨.einval, t'', by simp [Res.map, hc], hs2.trans hs⟩
    · rw [if_neg hd]
      exact ⟨_, _, rfl, hs⟩
  obtain ⟨r, t, e, hs⟩ := hex
  refine ⟨r, t, e, hs, ?_⟩
  cases r with
  | einval => exact .inl rfl
  | value v =>
    obtain ⟨x, t1, -, hd, rfl, -⟩ := parsex_doc e
    exact .inr ⟨_, rfl, Nat.le_trans (val_depth x) hd⟩

/-- Text that starts with a document nested deeper than 511 is rejected. -/
theorem C36_too_deep [Libc] (mem : List Byte) (len : Nat) (forceEof : Bool) (h0 : 0 ∈ mem)
    (hlen : mem.length < 2 ^ 31) (x : Syn) (t' : Tz) (hx : Yields nextToken ⟨mem, len, 0⟩ x.toks t')
    (hd : 511 < x.depth) (n : Nat) (hn : mem.length ≤ n) :
    ∃ t, parsex n mem len forceEof = .ok (some (.einval, t)) := by
  obtain ⟨r, t, e, -, -⟩ := C36_ends mem len forceEof h0 hlen n hn
  cases r with
  | einval => exact ⟨t, e⟩
  | value v =>
    obtain ⟨y, t1, hy, hdy, -, -⟩ := parsex_doc e
    exfalso
    rcases hx.compare hy with ⟨r, h⟩ | ⟨r, h⟩
    · have := (uniq x y [] r (by rw [List.append_nil]; exact h)).2.1
      omega
    · have := (uniq x y r [] (by rw [List.append_nil]; exact h.symm)).2.1
      omega

/-- The stack of `cee_json_parsex`: it has room for 512 entries; in every state the parser gets into it has
at most that many, and in the loop it has at least one and fewer than 512 of them, so that the one pop or the
one push that handling any token needs is possible. -/
theorem C36_stack (s : PSt) (h : Reach s) :
    s.stk.length ≤ 512 ∧ (s.goes = true → s.stk ≠ [] ∧ s.stk.length < 512 ∧
      ∀ c, ∃ s1, pstep s c = .ok s1 ∧ s1.stk.length ≤ s.stk.length + 1) := by
  have hi : PInv s ∧ s.stk.length ≤ 512 := by
    induction h with
    | start => exact ⟨⟨_, rfl, rfl⟩, by decide⟩
    | step c h hg he ih =>
      obtain ⟨h1, h2, h3, h4⟩ := goes_iff.1 hg
      obtain ⟨s1, e, hi1⟩ := pstep_inv ih.1 h4 h1 c
      rw [he] at e
      obtain rfl := Res.ok.inj e
      have := pstep_len he
      exact ⟨hi1, by omega⟩
  refine ⟨hi.2, fun hg => ?_⟩
  obtain ⟨h1, h2, h3, h4⟩ := goes_iff.1 hg
  refine ⟨h1, h2, fun c => ?_⟩
  obtain ⟨s1, e, -⟩ := pstep_inv hi.1 h4 h1 c
  exact ⟨s1, e, pstep_len e⟩

end Verif.Json.Props
