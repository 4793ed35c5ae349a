import Verif.Json.RoundTrip

/-!
# Property C92: the texts `cee_json_parsex` accepts, byte by byte

The specification is a grammar on bytes: the lexemes of RFC 8259 with the deviations of this parser, texts
that are lexemes with white space between them, and the documents of `Syn`.  It does not mention the functions
of the tokenizer.
-/

namespace Verif.Json

/-! ## specification -/

/-- one or more decimal digits -/
def Digits (ds : List Byte) : Prop := ds ≠ [] ∧ ∀ c ∈ ds, 48 ≤ c.toNat ∧ c.toNat ≤ 57

/-- the number that digits denote -/
def tenVal : List Byte → Nat
  | [] => 0
  | c :: cs => (c.toNat - 48) * 10 ^ cs.length + tenVal cs

/-- nearest 64-bit integer -/
def clamp64 (i : Int) : Int := max (-(2 ^ 63)) (min (2 ^ 63 - 1) i)

/-- `frac` of RFC 8259, or nothing -/
def Frac (f : List Byte) : Prop := f = [] ∨ ∃ ds, f = 46 :: ds ∧ Digits ds

/-- `exp` of RFC 8259, or nothing -/
def Expo (x : List Byte) : Prop :=
  x = [] ∨ ∃ e sg ds, x = e :: (sg ++ ds) ∧ (e = 101 ∨ e = 69) ∧ (sg = [] ∨ sg = [43] ∨ sg = [45]) ∧ Digits ds

/-- numbers and what they stand for.  Without fraction and exponent they are integers, have no leading zero
and go to the nearest 64-bit integer; with one of them they are what `strtod` makes of the lexeme (and leading
zeros are allowed, unlike in RFC 8259). -/
inductive Number [Libc] : List Byte → Atom → Prop where
  | pos {ds} : Digits ds → (ds.length = 1 ∨ ds.head? ≠ some 48) → Number ds (.i64 (clamp64 (tenVal ds)))
  | neg {ds} : Digits ds → (ds.length = 1 ∨ ds.head? ≠ some 48) → Number (45 :: ds) (.i64 (clamp64 (-(tenVal ds : Int))))
  | dbl {sg ds fr ex} : (sg = [] ∨ sg = [45]) → Digits ds → Frac fr → Expo ex → (fr ≠ [] ∨ ex ≠ []) →
      Number (sg ++ (ds ++ (fr ++ ex))) (.dbl (Libc.strtod (sg ++ (ds ++ (fr ++ ex)))))

/-- what may be between quotes: no quote or NUL except for an escaped quote -/
inductive Quoted : List Byte → Prop where
  | nil : Quoted []
  | raw {c s} : c ≠ 0 → c ≠ 34 → c ≠ 92 → Quoted s → Quoted (c :: s)
  | esc {d s} : d ≠ 0 → Quoted s → Quoted (92 :: d :: s)

/-- the body of a string literal and its text.  Without backslash it is its own text and has no control
characters (it need not be UTF-8, unlike in RFC 8259); otherwise it denotes its text by RFC 8259, section 7,
which has to be UTF-8, a lone high surrogate at the end denotes nothing, and the text ends at a NUL. -/
def Literal (s text : List Byte) : Prop :=
  (92 ∉ s ∧ (∀ c ∈ s, 0x20 ≤ c.toNat) ∧ text = s) ∨
  (92 ∈ s ∧ ∃ t, text = t.takeWhile (· != 0) ∧ (∃ cs : List Char, t = cs.flatMap String.utf8EncodeChar) ∧
    (Decodes s t ∨ ∃ s0 h x, s = s0 ++ 92 :: 117 :: h ∧ Hex4 h x ∧ 0xD800 ≤ x ∧ x ≤ 0xDBFF ∧ Decodes s0 t))

/-- the lexemes and their tokens -/
inductive Lexeme [Libc] : List Byte → Tok → Prop where
  | lb : Lexeme [91] .lb
  | rb : Lexeme [93] .rb
  | lc : Lexeme [123] .lc
  | rc : Lexeme [125] .rc
  | colon : Lexeme [58] .colon
  | comma : Lexeme [44] .comma
  | null : Lexeme [110, 117, 108, 108] (.lit .null)
  | yes : Lexeme [116, 114, 117, 101] (.lit (.bool true))
  | no : Lexeme [102, 97, 108, 115, 101] (.lit (.bool false))
  | num {w a} : Number w a → Lexeme w (.lit a)
  | str {s text} : Quoted s → Literal s text → Lexeme (34 :: (s ++ [34])) (.str text)

/-- the white space of RFC 8259 -/
def Space (c : Byte) : Prop := c = 32 ∨ c = 9 ∨ c = 10 ∨ c = 13

/-- a text made of the lexemes of these tokens, in this order, with white space before, between and after -/
inductive Spells [Libc] : List Byte → List Tok → Prop where
  | nil : Spells [] []
  | ws {c s ts} : Space c → Spells s ts → Spells (c :: s) ts
  | tok {w t s ts} : Lexeme w t → Spells s ts → Spells (w ++ s) (t :: ts)

/-! ## digits -/

theorem isDigit_iff (c : Byte) : isDigit c = true ↔ 48 ≤ c.toNat ∧ c.toNat ≤ 57 := by
  simp [isDigit, UInt8.le_iff_toNat_le]

theorem Digits.isDigit {ds : List Byte} (h : Digits ds) : ∀ c ∈ ds, isDigit c = true :=
  fun c hc => (isDigit_iff c).2 (h.2 c hc)

theorem digits_sound : ∀ {m ds m' : List Byte}, digits m = .ok (ds, m') →
    m = ds ++ m' ∧ ∀ c ∈ ds, 48 ≤ c.toNat ∧ c.toNat ≤ 57 := by
  intro m
  induction m with
  | nil => intro ds m' h; cases h
  | cons c m ih =>
    intro ds m' h
    rw [digits] at h
    cases hc : isDigit c with
    | false => simp only [hc, Bool.false_eq_true, ↓reduceIte, Res.ok.injEq, Prod.mk.injEq] at h
               obtain ⟨rfl, rfl⟩ := h; exact ⟨rfl, by simp⟩
    | true =>
      simp only [hc, ↓reduceIte] at h
      cases hd : digits m with
      | ok r =>
        obtain ⟨ds1, m1⟩ := r
        simp only [hd, Res.map_ok', Res.ok.injEq, Prod.mk.injEq] at h
        obtain ⟨rfl, rfl⟩ := h
        obtain ⟨h1, h2⟩ := ih hd
        refine ⟨by rw [h1]; rfl, ?_⟩
        rw [List.forall_mem_cons]; exact ⟨(isDigit_iff c).1 hc, h2⟩
      | ub => rw [hd] at h; cases h
      | segv => rw [hd] at h; cases h

theorem decVal_go (ds : List Byte) : ∀ acc : Nat,
    ds.foldl (fun (acc : Nat) (c : Byte) => acc * 10 + (c.toNat - 48)) acc = acc * 10 ^ ds.length + tenVal ds := by
  induction ds with
  | nil => intro acc; simp [tenVal]
  | cons c ds ih =>
    intro acc
    rw [List.foldl_cons, ih, tenVal, List.length_cons, Nat.pow_succ, Nat.add_mul, Nat.mul_assoc,
      Nat.mul_comm 10, Nat.add_assoc]

theorem decVal_eq (ds : List Byte) : decVal ds = tenVal ds := by rw [decVal, decVal_go]; simp

theorem strtoll_pos (ds : List Byte) : strtoll false ds = clamp64 (tenVal ds) := by
  simp only [strtoll, clamp64, decVal_eq, Bool.false_eq_true, ↓reduceIte]; omega

theorem strtoll_neg (ds : List Byte) : strtoll true ds = clamp64 (-(tenVal ds : Int)) := by
  simp only [strtoll, clamp64, decVal_eq, ↓reduceIte]; omega

/-! ## numbers -/

theorem isEmpty_false_ne {l : List Byte} (h : l.isEmpty = false) : l ≠ [] := by
  rintro rfl; cases h

theorem fraction_sound {m f m' : List Byte} (h : fraction m = .ok (some (f, m'))) : m = f ++ m' ∧ Frac f := by
  cases m with
  | nil => cases h
  | cons c m =>
    rw [fraction, peek, Res.bind_ok] at h
    by_cases hc : c = 46
    · subst hc
      simp only [BEq.rfl, ↓reduceIte, List.drop_succ_cons, List.drop_zero] at h
      cases hd : digits m with
      | ok r =>
        obtain ⟨ds, m1⟩ := r
        simp only [hd, Res.map_ok', Res.ok.injEq] at h
        cases he : ds.isEmpty with
        | true => simp [he] at h
        | false =>
          simp only [he, Bool.false_eq_true, ↓reduceIte, Option.some.injEq, Prod.mk.injEq] at h
          obtain ⟨rfl, rfl⟩ := h
          obtain ⟨h1, h2⟩ := digits_sound hd
          exact ⟨by rw [h1]; rfl, .inr ⟨ds, rfl, isEmpty_false_ne he, h2⟩⟩
      | ub => rw [hd] at h; cases h
      | segv => rw [hd] at h; cases h
    · simp only [beq_iff_eq, hc, ↓reduceIte, Res.ok.injEq, Option.some.injEq, Prod.mk.injEq] at h
      obtain ⟨rfl, rfl⟩ := h
      exact ⟨rfl, .inl rfl⟩

theorem exponent_sound {m x m' : List Byte} (h : exponent m = .ok (some (x, m'))) :
    m = x ++ m' ∧ ∃ sg ds, x = sg ++ ds ∧ (sg = [] ∨ sg = [43] ∨ sg = [45]) ∧ Digits ds := by
  cases m with
  | nil => cases h
  | cons c m =>
    rw [exponent, peek, Res.bind_ok] at h
    obtain ⟨sg, hsg, hs, hd1⟩ : ∃ sg, (if (c == 43 || c == 45) = true then [c] else []) = sg ∧
        (sg = [] ∨ sg = [43] ∨ sg = [45]) ∧ c :: m = sg ++ (c :: m).drop sg.length := by
      refine ⟨_, rfl, ?_⟩
      by_cases h1 : c = 43
      · subst h1; exact ⟨.inr (.inl rfl), rfl⟩
      · by_cases h2 : c = 45
        · subst h2; exact ⟨.inr (.inr rfl), rfl⟩
        · simp [h1, h2]
    simp only [hsg] at h
    cases hd : digits ((c :: m).drop sg.length) with
    | ok r =>
      obtain ⟨ds, m1⟩ := r
      simp only [hd, Res.map_ok', Res.ok.injEq] at h
      cases he : ds.isEmpty with
      | true => simp [he] at h
      | false =>
        simp only [he, Bool.false_eq_true, ↓reduceIte, Option.some.injEq, Prod.mk.injEq] at h
        obtain ⟨rfl, rfl⟩ := h
        obtain ⟨h1, h2⟩ := digits_sound hd
        refine ⟨?_, sg, ds, rfl, hs, isEmpty_false_ne he, h2⟩
        rw [hd1, h1, List.append_assoc]
    | ub => rw [hd] at h; cases h
    | segv => rw [hd] at h; cases h

theorem parseNumber_sound [Libc] {m m' : List Byte} {a : Atom} (h : parseNumber m = .ok (some (a, m'))) :
    ∃ w, m = w ++ m' ∧ Number w a := by
  cases m with
  | nil => cases h
  | cons c m =>
    rw [parseNumber, peek, Res.bind_ok] at h
    obtain ⟨neg, hneg⟩ : ∃ neg, (c == 45) = neg := ⟨_, rfl⟩
    simp only [hneg] at h
    obtain ⟨sg, hsg⟩ : ∃ sg : List Byte, (if neg = true then [45] else []) = sg := ⟨_, rfl⟩
    obtain ⟨m1, hm1⟩ : ∃ m1, (if neg = true then (c :: m).drop 1 else c :: m) = m1 := ⟨_, rfl⟩
    simp only [hsg, hm1] at h
    have hcm : c :: m = sg ++ m1 := by
      cases neg with
      | true => rw [beq_iff_eq] at hneg; subst hneg; subst hsg hm1; rfl
      | false => subst hsg hm1; rfl
    have hsg' : sg = [] ∨ sg = [45] := by
      cases neg with
      | true => exact .inr hsg.symm
      | false => exact .inl hsg.symm
    obtain ⟨⟨ds, m2⟩, e2, h⟩ := Res.bind_eq_ok.1 h
    obtain ⟨hm2, hds⟩ := digits_sound e2
    simp only at h
    cases he : ds.isEmpty with
    | true => simp [he] at h
    | false =>
      have hD : Digits ds := ⟨isEmpty_false_ne he, hds⟩
      simp only [he, Bool.false_eq_true, ↓reduceIte] at h
      obtain ⟨r, e3, h⟩ := Res.bind_eq_ok.1 h
      cases r with
      | none => cases h
      | some r =>
        obtain ⟨fr, m3⟩ := r
        obtain ⟨hm3, hF⟩ := fraction_sound e3
        simp only at h
        cases m3 with
        | nil => cases h
        | cons c4 m4 =>
          rw [peek, Res.bind_ok] at h
          cases hc4 : (c4 == 101 || c4 == 69) with
          | true =>
            simp only [hc4, ↓reduceIte, List.drop_succ_cons, List.drop_zero] at h
            cases hx : exponent m4 with
            | ok r =>
              rw [hx, Res.map_ok'] at h
              cases r with
              | none => cases h
              | some r =>
                obtain ⟨ex, m5⟩ := r
                simp only [Res.ok.injEq, Option.some.injEq, Prod.mk.injEq] at h
                obtain ⟨rfl, rfl⟩ := h
                obtain ⟨hm5, sg2, ds2, rfl, hs2, hD2⟩ := exponent_sound hx
                refine ⟨sg ++ (ds ++ (fr ++ c4 :: (sg2 ++ ds2))), ?_, ?_⟩
                · rw [hcm, hm2, hm3, hm5]; simp
                · have := Number.dbl (sg := sg) (ds := ds) (fr := fr) (ex := c4 :: (sg2 ++ ds2)) hsg' hD hF
                    (.inr ⟨c4, sg2, ds2, rfl, by simpa using hc4, hs2, hD2⟩) (.inr (by simp))
                  simp only [List.append_assoc] at this ⊢
                  exact this
            | ub => rw [hx] at h; cases h
            | segv => rw [hx] at h; cases h
          | false =>
            simp only [hc4, Bool.false_eq_true, ↓reduceIte] at h
            cases hfr : fr.isEmpty with
            | true =>
              obtain rfl := List.isEmpty_iff.1 hfr
              simp only [List.isEmpty_nil, ↓reduceIte] at h
              by_cases hz : (ds.length ≠ 1 && ds.head? == some 48) = true
              · rw [if_pos hz] at h; cases h
              · rw [if_neg hz] at h
                simp only [Res.ok.injEq, Option.some.injEq, Prod.mk.injEq] at h
                obtain ⟨rfl, rfl⟩ := h
                have hz' : ds.length = 1 ∨ ds.head? ≠ some 48 := by
                  by_cases hl : ds.length = 1
                  · exact .inl hl
                  · right; intro h48; exact hz (by simp [hl, h48])
                refine ⟨sg ++ ds, by rw [hcm, hm2, hm3]; simp, ?_⟩
                cases neg with
                | true => subst hsg; rw [strtoll_neg]; exact .neg hD hz'
                | false => subst hsg; rw [strtoll_pos]; exact .pos hD hz'
            | false =>
              simp only [hfr, Bool.false_eq_true, ↓reduceIte] at h
              simp only [Res.ok.injEq, Option.some.injEq, Prod.mk.injEq] at h
              obtain ⟨rfl, rfl⟩ := h
              refine ⟨sg ++ (ds ++ fr), by rw [hcm, hm2, hm3]; simp, ?_⟩
              have := Number.dbl (sg := sg) (ds := ds) (fr := fr) (ex := []) hsg' hD hF (.inl rfl)
                (.inl (isEmpty_false_ne hfr))
              simp only [List.append_nil, List.append_assoc] at this ⊢
              exact this

theorem digit_ne {c : Byte} (h : 48 ≤ c.toNat ∧ c.toNat ≤ 57) (x : Byte) (hx : isDigit x = false) : c ≠ x := by
  rintro rfl; rw [(isDigit_iff c).2 h] at hx; cases hx

theorem fraction_frac {fr : List Byte} (hF : Frac fr) {d : Byte} {r : List Byte} (hd : isDigit d = false)
    (h46 : d ≠ 46) : fraction (fr ++ d :: r) = .ok (some (fr, d :: r)) := by
  rcases hF with rfl | ⟨ds, rfl, hD⟩
  · rw [List.nil_append, fraction, peek, Res.bind_ok]; simp [h46]
  · rw [List.cons_append, fraction, peek, Res.bind_ok]
    simp [digits_append ds hD.isDigit d r hd, Res.map_ok', hD.1]

theorem exponent_expo {sg ds : List Byte} (hs : sg = [] ∨ sg = [43] ∨ sg = [45]) (hD : Digits ds) {d : Byte}
    {r : List Byte} (hd : isDigit d = false) : exponent (sg ++ ds ++ d :: r) = .ok (some (sg ++ ds, d :: r)) := by
  obtain ⟨hne, hdd⟩ := hD
  have hdig := digits_append ds (Digits.isDigit ⟨hne, hdd⟩) d r hd
  rcases hs with rfl | rfl | rfl
  · cases ds with
    | nil => exact absurd rfl hne
    | cons x ds =>
      have hx := hdd x (List.mem_cons_self ..)
      simp only [List.cons_append, List.nil_append] at hdig ⊢
      rw [exponent, peek, Res.bind_ok]
      simp [digit_ne hx 43 rfl, digit_ne hx 45 rfl, hdig, Res.map_ok']
  · simp only [List.cons_append, List.nil_append]
    rw [exponent, peek, Res.bind_ok]
    simp [hdig, Res.map_ok', hne]
  · simp only [List.cons_append, List.nil_append]
    rw [exponent, peek, Res.bind_ok]
    simp [hdig, Res.map_ok', hne]

/-- the sign and the digits before what follows -/
theorem parseNumber_split [Libc] {sg ds : List Byte} (hs : sg = [] ∨ sg = [45]) (hD : Digits ds) {c : Byte}
    {m : List Byte} (hc : isDigit c = false) :
    parseNumber (sg ++ (ds ++ c :: m)) = (fraction (c :: m)).bind fun r =>
    match r with
    | none => .ok none
    | some (frac, m) =>
      (peek m).bind fun c =>
      if c == 101 || c == 69 then
        (exponent (m.drop 1)).map fun r =>
        match r with
        | none => none
        | some (ex, m) => some (.dbl (Libc.strtod (sg ++ ds ++ frac ++ c :: ex)), m)
      else if frac.isEmpty then
        if ds.length ≠ 1 && ds.head? == some 48 then .ok none
        else .ok (some (.i64 (strtoll (sg == [45]) ds), m))
      else .ok (some (.dbl (Libc.strtod (sg ++ ds ++ frac)), m)) := by
  have hdig := digits_append ds hD.isDigit c m hc
  obtain ⟨hne, hdd⟩ := hD
  have hem : ds.isEmpty = false := by
    cases ds with
    | nil => exact absurd rfl hne
    | cons _ _ => rfl
  rcases hs with rfl | rfl
  · have hp : ∃ x, peek (ds ++ c :: m) = .ok x ∧ (x == 45) = false := by
      cases ds with
      | nil => exact absurd rfl hne
      | cons x ds => exact ⟨x, rfl, by simpa using digit_ne (hdd x (List.mem_cons_self ..)) 45 rfl⟩
    obtain ⟨x, hp, hx⟩ := hp
    rw [List.nil_append, parseNumber, hp, Res.bind_ok]
    simp only [hx, Bool.false_eq_true, ↓reduceIte]
    rw [hdig, Res.bind_ok]
    simp only [hem, Bool.false_eq_true, ↓reduceIte]
    rfl
  · rw [List.cons_append, parseNumber, peek, Res.bind_ok]
    simp only [BEq.rfl, ↓reduceIte, List.drop_succ_cons, List.drop_zero, List.nil_append]
    rw [hdig, Res.bind_ok]
    simp only [hem, Bool.false_eq_true, ↓reduceIte]
    rfl

theorem parseNumber_number [Libc] {w : List Byte} {a : Atom} (h : Number w a) {rest : List Byte} (hr : NumEnd rest) :
    parseNumber (w ++ rest) = .ok (some (a, rest)) := by
  obtain ⟨d, r, rfl, hd, h46, he, hE⟩ := hr
  have hx : (d == 101 || d == 69) = false := by simp [he, hE]
  cases h with
  | pos hD hz =>
    have := parseNumber_split (sg := []) (.inl rfl) hD (m := r) hd
    rw [List.nil_append] at this
    have hz' : (w.length ≠ 1 && w.head? == some 48) = false := by
      rcases hz with h | h <;> simp [h]
    rw [this]
    have hf := fraction_frac (fr := []) (.inl rfl) (r := r) hd h46
    rw [List.nil_append] at hf
    rw [hf, Res.bind_ok]
    simp only [peek, Res.bind_ok, hx, Bool.false_eq_true, ↓reduceIte, List.isEmpty_nil, hz', ← strtoll_pos]
    rfl
  | neg hD hz =>
    rename_i ds
    have := parseNumber_split (sg := [45]) (.inr rfl) hD (m := r) hd
    rw [List.cons_append, List.nil_append] at this
    have hz' : (ds.length ≠ 1 && ds.head? == some 48) = false := by
      rcases hz with h | h <;> simp [h]
    rw [List.cons_append, this]
    have hf := fraction_frac (fr := []) (.inl rfl) (r := r) hd h46
    rw [List.nil_append] at hf
    rw [hf, Res.bind_ok]
    simp only [peek, Res.bind_ok, hx, Bool.false_eq_true, ↓reduceIte, List.isEmpty_nil, hz', ← strtoll_neg]
    rfl
  | dbl hs hD hF hE' hor =>
    rename_i sg ds fr ex
    -- the first character after the digits
    obtain ⟨c, m, hcm, hcd⟩ : ∃ c m, fr ++ (ex ++ d :: r) = c :: m ∧ isDigit c = false := by
      rcases hF with rfl | ⟨ds2, rfl, -⟩
      · rcases hE' with rfl | ⟨e, sg2, ds2, rfl, hee, -, -⟩
        · exact ⟨d, r, rfl, hd⟩
        · exact ⟨e, _, rfl, by rcases hee with rfl | rfl <;> rfl⟩
      · exact ⟨46, _, rfl, rfl⟩
    simp only [List.append_assoc]
    rw [hcm, parseNumber_split hs hD hcd, ← hcm]
    rcases hE' with rfl | ⟨e, sg2, ds2, rfl, hee, hs2, hD2⟩
    · rw [List.nil_append, fraction_frac hF hd h46, Res.bind_ok]
      have hfr : fr.isEmpty = false := by
        cases fr with
        | nil => simp at hor
        | cons _ _ => rfl
      simp only [peek, Res.bind_ok, hx, Bool.false_eq_true, ↓reduceIte, hfr, List.append_nil, List.append_assoc]
    · have he1 : isDigit e = false ∧ e ≠ 46 ∧ (e == 101 || e == 69) = true := by
        rcases hee with rfl | rfl <;> decide
      rw [List.cons_append, fraction_frac hF he1.1 he1.2.1, Res.bind_ok]
      simp only [peek, Res.bind_ok, he1.2.2, ↓reduceIte, List.drop_succ_cons, List.drop_zero]
      rw [exponent_expo hs2 hD2 hd, Res.map_ok']
      simp only [List.append_assoc]

/-! ## strings -/

theorem scanStr_sound (n : Nat) : ∀ {m s rest : List Byte}, m.length ≤ n →
    scanStr m = .ok (some (s, rest)) → m = s ++ 34 :: rest ∧ Quoted s := by
  induction n with
  | zero =>
    intro m s rest hm h
    have : m = [] := List.length_eq_zero_iff.1 (by omega)
    subst this; simp [scanStr] at h
  | succ n ih =>
    intro m s rest hm h
    cases m with
    | nil => simp [scanStr] at h
    | cons c m =>
      simp only [List.length_cons] at hm
      by_cases h0 : c = 0
      · subst h0; rw [scanStr.eq_def] at h; cases h
      by_cases hq : c = 34
      · subst hq; rw [scanStr.eq_def] at h; cases h; exact ⟨rfl, .nil⟩
      by_cases hb : c = 92
      · subst hb
        cases m with
        | nil => rw [scanStr.eq_def] at h; cases h
        | cons d m =>
          by_cases hd : d = 0
          · subst hd; rw [scanStr.eq_def] at h; cases h
          · rw [scanStr_esc hd] at h
            obtain ⟨x, hx, h⟩ := Res.bind_eq_ok.1 h
            cases x with
            | none => cases h
            | some x =>
              obtain ⟨b, r⟩ := x
              simp only [Option.map_some, Res.ok.injEq, Option.some.injEq, Prod.mk.injEq] at h
              obtain ⟨rfl, rfl⟩ := h
              obtain ⟨e1, e2⟩ := ih (by simp only [List.length_cons] at hm; omega) hx
              exact ⟨by rw [e1]; rfl, .esc hd e2⟩
      · rw [scanStr_plain h0 hq hb] at h
        obtain ⟨x, hx, h⟩ := Res.bind_eq_ok.1 h
        cases x with
        | none => cases h
        | some x =>
          obtain ⟨b, r⟩ := x
          simp only [Option.map_some, Res.ok.injEq, Option.some.injEq, Prod.mk.injEq] at h
          obtain ⟨rfl, rfl⟩ := h
          obtain ⟨e1, e2⟩ := ih (by omega) hx
          exact ⟨by rw [e1]; rfl, .raw h0 hq hb e2⟩

theorem scanStr_quoted {s : List Byte} (h : Quoted s) (rest : List Byte) :
    scanStr (s ++ 34 :: rest) = .ok (some (s, rest)) := by
  induction h with
  | nil => rw [List.nil_append, scanStr.eq_def]; rfl
  | raw h0 hq hb _ ih => rw [List.cons_append, scanStr_plain h0 hq hb, ih]; rfl
  | esc hd _ ih => rw [List.cons_append, List.cons_append, scanStr_esc hd, ih]; rfl

theorem Quoted.nul {s : List Byte} (h : Quoted s) : 0 ∉ s := by
  induction h with
  | nil => simp
  | raw h0 _ _ _ ih => simp only [List.mem_cons, not_or]; exact ⟨fun h => h0 h.symm, ih⟩
  | esc hd _ ih => simp only [List.mem_cons, not_or]; exact ⟨by decide, fun h => hd h.symm, ih⟩

theorem takeWhile_id {s : List Byte} (h : 0 ∉ s) : s.takeWhile (· != 0) = s := by
  induction s with
  | nil => rfl
  | cons c s ih =>
    simp only [List.mem_cons, not_or] at h
    rw [List.takeWhile_cons, if_pos (by simpa using fun e => h.1 e.symm), ih h.2]

theorem parseString_sound {m text rest : List Byte} (h : parseString m = .ok (some (text, rest))) :
    ∃ s, m = s ++ 34 :: rest ∧ Quoted s ∧ Literal s text := by
  rw [parseString] at h
  obtain ⟨r, e1, h⟩ := Res.bind_eq_ok.1 h
  cases r with
  | none => simp at h
  | some r =>
    obtain ⟨s, rest'⟩ := r
    obtain ⟨hm, hq⟩ := scanStr_sound m.length (Nat.le_refl _) e1
    obtain ⟨u, e2, h⟩ := Res.bind_eq_ok.1 h
    cases u with
    | err => simp at h
    | same =>
      simp only at h
      split at h
      · simp only [Res.ok.injEq, Option.some.injEq, Prod.mk.injEq] at h
        obtain ⟨rfl, rfl⟩ := h
        obtain ⟨h1, h2⟩ := (unescape_exact s _).1 e2
        exact ⟨s, hm, hq, .inl ⟨h1, h2, takeWhile_id hq.nul⟩⟩
      · cases h
    | fresh t =>
      simp only at h
      have hb := ((unescape_exact s _).1 e2).1
      obtain ⟨u, hu, hlt⟩ := Props.C31_fits s
      rw [e2] at hu
      obtain rfl := Res.ok.inj hu
      have hlt := hlt t rfl
      rw [cstr_pad t (by omega), Res.map_ok'] at h
      simp only [Res.ok.injEq, Option.some.injEq, Prod.mk.injEq] at h
      obtain ⟨rfl, rfl⟩ := h
      obtain ⟨h1, h2⟩ := (Props.C31_decode_exact s hb t).1 e2
      exact ⟨s, hm, hq, .inr ⟨hb, t, rfl, h2, h1⟩⟩

theorem parseString_literal {s text : List Byte} (hq : Quoted s) (h : Literal s text) (rest : List Byte)
    (hl : s.length < 2 ^ 31) : parseString (s ++ 34 :: rest) = .ok (some (text, rest)) := by
  rw [parseString, scanStr_quoted hq, Res.bind_ok]
  simp only
  rcases h with ⟨h1, h2, rfl⟩ | ⟨h1, t, rfl, h2, h3⟩
  · rw [(unescape_exact _ .same).2 ⟨h1, h2⟩, Res.bind_ok]
    simp only [hl, ↓reduceIte, takeWhile_id hq.nul]
  · have hu := (Props.C31_decode_exact s h1 t).2 ⟨h3, h2⟩
    obtain ⟨u, hu', hlt⟩ := Props.C31_fits s
    rw [hu] at hu'
    obtain rfl := Res.ok.inj hu'
    have hlt := hlt t rfl
    rw [hu, Res.bind_ok]
    simp only
    rw [cstr_pad t (by omega), Res.map_ok']

end Verif.Json
