import Verif.Json.Unescape
import Verif.Json.Utf8Props

/-! # Property C31: string literals -/

namespace Verif.Json

/-! ## specification -/

/-- `c` is a hexadecimal digit of value `n` -/
def HexDigit (c : Byte) (n : Nat) : Prop :=
  (n < 10 ∧ c.toNat = 48 + n) ∨ (10 ≤ n ∧ n < 16 ∧ c.toNat = 55 + n) ∨
    (10 ≤ n ∧ n < 16 ∧ c.toNat = 87 + n)

/-- the four bytes are hexadecimal digits with value `x` -/
def Hex4 (h : List Byte) (x : Nat) : Prop :=
  ∃ a b c d na nb nc nd, h = [a, b, c, d] ∧ HexDigit a na ∧ HexDigit b nb ∧ HexDigit c nc ∧
    HexDigit d nd ∧ x = 4096 * na + 256 * nb + 16 * nc + nd

/-- the escape letter `e` stands for the byte `b` (RFC 8259, section 7) -/
def EscLetter (e b : Byte) : Prop :=
  (e, b) ∈ [((34 : Byte), (34 : Byte)), (92, 92), (47, 47), (98, 8), (102, 12), (110, 10), (114, 13),
    (116, 9)]

/-- the body of a string literal and the bytes it denotes (RFC 8259, section 7) -/
inductive Decodes : List Byte → List Byte → Prop where
  | nil : Decodes [] []
  | raw {c s t} : 0x20 ≤ c.toNat → c ≠ 92 → Decodes s t → Decodes (c :: s) (c :: t)
  | esc {e b s t} : EscLetter e b → Decodes s t → Decodes (92 :: e :: s) (b :: t)
  | uni {h x s t} : Hex4 h x → ¬ (0xD800 ≤ x ∧ x ≤ 0xDBFF) → Decodes s t →
      Decodes (92 :: 117 :: (h ++ s)) (encode x ++ t)
  | pair {h x k y s t} : Hex4 h x → 0xD800 ≤ x → x ≤ 0xDBFF → Hex4 k y → 0xDC00 ≤ y → y ≤ 0xDFFF →
      Decodes s t →
      Decodes (92 :: 117 :: (h ++ 92 :: 117 :: (k ++ s)))
        (encode (0x10000 + (x - 0xD800) * 0x400 + (y - 0xDC00)) ++ t)

/-! ## the digits -/

theorem hexVal_iff (c : Byte) (n : Nat) : hexVal c = some n ↔ HexDigit c n := by
  have e : hexVal c = if 48 ≤ c.toNat ∧ c.toNat ≤ 57 then some (c.toNat - 48)
      else if 65 ≤ c.toNat ∧ c.toNat ≤ 70 then some (c.toNat - 55)
      else if 97 ≤ c.toNat ∧ c.toNat ≤ 102 then some (c.toNat - 87) else none := by
    revert c; apply byte_forall; decide +kernel
  rw [e]
  unfold HexDigit
  split
  · simp only [Option.some.injEq]; omega
  · split
    · simp only [Option.some.injEq]; omega
    · split
      · simp only [Option.some.injEq]; omega
      · simp only [reduceCtorEq, false_iff]; omega

theorem read4_iff (s r : List Byte) (x : Nat) :
    read4 s = some (x, r) ↔ ∃ h, Hex4 h x ∧ s = h ++ r := by
  constructor
  · intro h
    unfold read4 at h
    split at h
    · rename_i a b c d s
      split at h
      · rename_i na nb nc nd ha hb hc hd
        simp only [Option.some.injEq, Prod.mk.injEq] at h
        obtain ⟨rfl, rfl⟩ := h
        exact ⟨[a, b, c, d], ⟨a, b, c, d, na, nb, nc, nd, rfl, (hexVal_iff _ _).1 ha,
          (hexVal_iff _ _).1 hb, (hexVal_iff _ _).1 hc, (hexVal_iff _ _).1 hd, by omega⟩, rfl⟩
      · simp at h
    · simp at h
  · rintro ⟨h, ⟨a, b, c, d, na, nb, nc, nd, rfl, ha, hb, hc, hd, rfl⟩, rfl⟩
    simp only [List.cons_append, List.nil_append, read4, (hexVal_iff _ _).2 ha, (hexVal_iff _ _).2 hb,
      (hexVal_iff _ _).2 hc, (hexVal_iff _ _).2 hd, Option.some.injEq, Prod.mk.injEq, and_true]
    omega

theorem Hex4.length {h : List Byte} {x : Nat} (hx : Hex4 h x) : h.length = 4 := by
  obtain ⟨_, _, _, _, _, _, _, _, rfl, _⟩ := hx; rfl

theorem Hex4.lt {h : List Byte} {x : Nat} (hx : Hex4 h x) : x < 65536 := by
  obtain ⟨_, _, _, _, _, _, _, _, rfl, h1, h2, h3, h4, rfl⟩ := hx
  unfold HexDigit at *
  omega

theorem Hex4.ge {h : List Byte} {x : Nat} (hx : Hex4 h x) : ∀ c ∈ h, 0x20 ≤ c.toNat := by
  obtain ⟨_, _, _, _, _, _, _, _, rfl, h1, h2, h3, h4, rfl⟩ := hx
  unfold HexDigit at *
  intro c hc
  simp only [List.mem_cons, List.not_mem_nil, or_false] at hc
  rcases hc with rfl | rfl | rfl | rfl <;> omega

theorem simpleEsc_iff (e b : Byte) : simpleEsc e = some b ↔ EscLetter e b := by
  unfold simpleEsc EscLetter
  constructor
  · intro h
    split at h
    · rename_i hc
      simp only [Bool.or_eq_true, beq_iff_eq] at hc
      simp only [Option.some.injEq] at h
      subst h
      rcases hc with (rfl | rfl) | rfl <;> decide
    · split at h
      · rename_i hc; simp only [beq_iff_eq] at hc; simp only [Option.some.injEq] at h; subst h hc; decide
      · split at h
        · rename_i hc; simp only [beq_iff_eq] at hc; simp only [Option.some.injEq] at h; subst h hc; decide
        · split at h
          · rename_i hc; simp only [beq_iff_eq] at hc; simp only [Option.some.injEq] at h; subst h hc; decide
          · split at h
            · rename_i hc; simp only [beq_iff_eq] at hc; simp only [Option.some.injEq] at h; subst h hc; decide
            · split at h
              · rename_i hc; simp only [beq_iff_eq] at hc; simp only [Option.some.injEq] at h
                subst h hc; decide
              · simp at h
  · intro h
    simp only [List.mem_cons, Prod.mk.injEq, List.not_mem_nil, or_false] at h
    rcases h with ⟨rfl, rfl⟩ | ⟨rfl, rfl⟩ | ⟨rfl, rfl⟩ | ⟨rfl, rfl⟩ | ⟨rfl, rfl⟩ | ⟨rfl, rfl⟩ |
      ⟨rfl, rfl⟩ | ⟨rfl, rfl⟩ <;> decide

theorem EscLetter.ge {e b : Byte} (h : EscLetter e b) : 0x20 ≤ e.toNat ∧ e ≠ 117 := by
  simp only [EscLetter, List.mem_cons, Prod.mk.injEq, List.not_mem_nil, or_false] at h
  rcases h with ⟨rfl, rfl⟩ | ⟨rfl, rfl⟩ | ⟨rfl, rfl⟩ | ⟨rfl, rfl⟩ | ⟨rfl, rfl⟩ | ⟨rfl, rfl⟩ |
    ⟨rfl, rfl⟩ | ⟨rfl, rfl⟩ <;> decide

theorem le1f_iff (c : Byte) : c ≤ 0x1F ↔ c.toNat < 0x20 := by
  rw [UInt8.le_iff_toNat_le]
  have : (0x1F : Byte).toNat = 31 := rfl
  omega

theorem encode_length (v : Nat) : (encode v).length ≤ 4 ∧ (v ≤ 0xFFFF → (encode v).length ≤ 3) := by
  unfold encode
  constructor
  · split
    · simp
    · split
      · simp
      · split <;> simp
  · intro h
    split
    · simp
    · split
      · simp
      · simp

/-! ## the second pass -/

/-- the state of the loop: what the rest of the input denotes when the first surrogate `sur` is pending -/
def Rest (sur : Option Nat) (s t : List Byte) : Prop :=
  match sur with
  | none => Decodes s t ∨ ∃ s0 h x, s = s0 ++ 92 :: 117 :: h ∧ Hex4 h x ∧ 0xD800 ≤ x ∧ x ≤ 0xDBFF ∧
      Decodes s0 t
  | some w => (s = [] ∧ t = []) ∨ ∃ k y s' t', Hex4 k y ∧ 0xDC00 ≤ y ∧ y ≤ 0xDFFF ∧
      s = 92 :: 117 :: (k ++ s') ∧ t = encode (combine w y) ++ t' ∧
      (Decodes s' t' ∨ ∃ s0 h x, s' = s0 ++ 92 :: 117 :: h ∧ Hex4 h x ∧ 0xD800 ≤ x ∧ x ≤ 0xDBFF ∧
        Decodes s0 t')

/-- prefixing a decoded piece -/
theorem rest_cons {p q s t : List Byte} (hp : ∀ s t, Decodes s t → Decodes (p ++ s) (q ++ t))
    (h : Rest none s t) : Rest none (p ++ s) (q ++ t) := by
  rcases h with h | ⟨s0, k, x, rfl, h1, h2, h3, h4⟩
  · exact .inl (hp _ _ h)
  · exact .inr ⟨p ++ s0, k, x, by rw [List.append_assoc], h1, h2, h3, hp _ _ h4⟩

theorem put_ok {cap : Nat} {out bs out' : List Byte} (h : put cap out bs = .ok out') :
    out' = out ++ bs := by
  unfold put at h
  split at h
  · cases h; rfl
  · cases h

theorem isFirst_iff (x : Nat) : isFirst x = true ↔ 0xD800 ≤ x ∧ x ≤ 0xDBFF := by
  simp [isFirst]

theorem isSecond_iff (x : Nat) : isSecond x = true ↔ 0xDC00 ≤ x ∧ x ≤ 0xDFFF := by
  simp [isSecond]

theorem combine_eq {w y : Nat} (h1 : 0xD800 ≤ w ∧ w ≤ 0xDBFF) (h2 : 0xDC00 ≤ y ∧ y ≤ 0xDFFF) :
    combine w y = 0x10000 + (w - 0xD800) * 0x400 + (y - 0xDC00) :=
  (Props.C30_surrogates w y ((isFirst_iff w).2 h1) ((isSecond_iff y).2 h2)).1

theorem pass2_sound (cap : Nat) (n : Nat) : ∀ (s : List Byte) (sur : Option Nat) (out out' : List Byte),
    s.length ≤ n → (∀ w, sur = some w → 0xD800 ≤ w ∧ w ≤ 0xDBFF) →
    pass2 cap s sur out = .ok (some out') → ∃ t, out' = out ++ t ∧ Rest sur s t := by
  induction n with
  | zero =>
    intro s sur out out' hl hs h
    have : s = [] := List.length_eq_zero_iff.1 (by omega)
    subst this
    rw [pass2] at h
    cases h
    refine ⟨[], by simp, ?_⟩
    cases sur with
    | none => exact .inl .nil
    | some w => exact .inl ⟨rfl, rfl⟩
  | succ n ih =>
    intro s sur out out' hl hs h
    cases s with
    | nil =>
      rw [pass2] at h
      cases h
      refine ⟨[], by simp, ?_⟩
      cases sur with
      | none => exact .inl .nil
      | some w => exact .inl ⟨rfl, rfl⟩
    | cons c s =>
      rw [pass2.eq_def] at h; dsimp only at h
      split at h
      · cases h
      rename_i hsur
      split at h
      · cases h
      rename_i hctl
      rw [le1f_iff] at hctl
      split at h
      · rename_i hc
        have hc : c = 92 := by simpa using hc
        subst hc
        cases s with
        | nil => simp at h
        | cons e s =>
          simp only at h
          split at h
          · cases h
          rename_i hu
          have hl' : s.length ≤ n := by simp only [List.length_cons] at hl; omega
          split at h
          · rename_i b hb
            obtain ⟨o2, e1, e2⟩ := Res.bind_eq_ok.1 h
            have := put_ok e1
            subst this
            have hsn : sur = none := by
              cases sur with
              | none => rfl
              | some w =>
                have := ((simpleEsc_iff _ _).1 hb).ge.2
                simp at hu
                exact absurd hu this
            subst hsn
            obtain ⟨t, rfl, ht⟩ := ih s none _ _ hl' (by simp) e2
            refine ⟨b :: t, by simp, ?_⟩
            exact rest_cons (p := [92, e]) (q := [b])
              (fun s t h => .esc ((simpleEsc_iff _ _).1 hb) h) ht
          · split at h
            · rename_i he
              have he : e = 117 := by simpa using he
              subst he
              split at h
              · cases h
              · rename_i x r hr
                obtain ⟨k, hk, rfl⟩ := (read4_iff _ _ _).1 hr
                have hl2 : r.length ≤ n := by
                  simp only [List.length_cons, List.length_append, hk.length] at hl; omega
                cases sur with
                | some w =>
                  simp only at h
                  split at h
                  · cases h
                  rename_i h2
                  obtain ⟨o2, e1, e2⟩ := Res.bind_eq_ok.1 h
                  have := put_ok e1
                  subst this
                  obtain ⟨t, rfl, ht⟩ := ih r none _ _ hl2 (by simp) e2
                  have h2' : isSecond x = true := by simpa using h2
                  rw [isSecond_iff] at h2'
                  exact ⟨encode (combine w x) ++ t, by simp, .inr ⟨k, x, r, t, hk, h2'.1, h2'.2, rfl, rfl, ht⟩⟩
                | none =>
                  simp only at h
                  split at h
                  · rename_i hf
                    rw [isFirst_iff] at hf
                    obtain ⟨t, rfl, ht⟩ := ih r (some x) _ _ hl2
                      (fun w hw => by injection hw with hw; subst hw; exact hf) h
                    refine ⟨t, rfl, ?_⟩
                    rcases ht with ⟨rfl, rfl⟩ | ⟨k2, y, s', t', hk2, hy1, hy2, es, et, ht⟩
                    · exact .inr ⟨[], k, x, by simp, hk, hf.1, hf.2, .nil⟩
                    · subst es; rw [et]
                      rw [combine_eq hf ⟨hy1, hy2⟩]
                      have := rest_cons (p := 92 :: 117 :: (k ++ 92 :: 117 :: k2))
                        (q := encode (0x10000 + (x - 0xD800) * 0x400 + (y - 0xDC00))) (s := s') (t := t')
                        (fun s t h => by
                          have := Decodes.pair hk hf.1 hf.2 hk2 hy1 hy2 h
                          simpa using this) ht
                      simpa using this
                  · rename_i hf
                    obtain ⟨o2, e1, e2⟩ := Res.bind_eq_ok.1 h
                    have := put_ok e1
                    subst this
                    obtain ⟨t, rfl, ht⟩ := ih r none _ _ hl2 (by simp) e2
                    refine ⟨encode x ++ t, by simp, ?_⟩
                    rw [isFirst_iff] at hf
                    have := rest_cons (p := 92 :: 117 :: k) (q := encode x) (s := r) (t := t)
                      (fun s t h => by simpa using Decodes.uni hk hf h) ht
                    simpa using this
            · cases h
      · rename_i hc
        have hc : c ≠ 92 := by simpa using hc
        obtain ⟨o2, e1, e2⟩ := Res.bind_eq_ok.1 h
        have := put_ok e1
        subst this
        have hsn : sur = none := by
          cases sur with
          | none => rfl
          | some w => simp at hsur; exact absurd hsur hc
        subst hsn
        obtain ⟨t, rfl, ht⟩ := ih s none _ _ (by simp only [List.length_cons] at hl; omega) (by simp) e2
        refine ⟨c :: t, by simp, ?_⟩
        exact rest_cons (p := [c]) (q := [c]) (fun s t h => .raw (by omega) hc h) ht

theorem pass2_no_ub (cap : Nat) (n : Nat) : ∀ (s : List Byte) (sur : Option Nat) (out : List Byte),
    s.length ≤ n → out.length + s.length ≤ cap → ∃ r, pass2 cap s sur out = .ok r := by
  induction n with
  | zero =>
    intro s sur out hl _
    have : s = [] := List.length_eq_zero_iff.1 (by omega)
    subst this
    exact ⟨_, by rw [pass2]⟩
  | succ n ih =>
    intro s sur out hl hcap
    cases s with
    | nil => exact ⟨_, by rw [pass2]⟩
    | cons c s =>
      simp only [List.length_cons] at hl hcap
      rw [pass2.eq_def]; dsimp only
      split
      · exact ⟨_, rfl⟩
      split
      · exact ⟨_, rfl⟩
      split
      · cases s with
        | nil => exact ⟨_, rfl⟩
        | cons e s =>
          simp only [List.length_cons] at hl hcap
          simp only
          split
          · exact ⟨_, rfl⟩
          split
          · rename_i b _
            rw [put, if_pos (by simp; omega), Res.bind_ok]
            exact ih _ _ _ (by omega) (by simp; omega)
          split
          · split
            · exact ⟨_, rfl⟩
            · rename_i x r hr
              have hl4 := read4_length hr
              split
              · split
                · exact ⟨_, rfl⟩
                · rename_i w _ _ _
                  have := (encode_length (combine w x)).1
                  rw [put, if_pos (by omega), Res.bind_ok]
                  exact ih _ _ _ (by omega) (by simp; omega)
              · split
                · exact ih _ _ _ (by omega) (by omega)
                · have := (encode_length x).1
                  rw [put, if_pos (by omega), Res.bind_ok]
                  exact ih _ _ _ (by omega) (by simp; omega)
          · exact ⟨_, rfl⟩
      · rw [put, if_pos (by simp; omega), Res.bind_ok]
        exact ih _ _ _ (by omega) (by simp; omega)

theorem pass2_raw {cap : Nat} {c : Byte} {s out : List Byte} (h1 : 0x20 ≤ c.toNat) (h2 : c ≠ 92)
    (hcap : out.length + 1 ≤ cap) : pass2 cap (c :: s) none out = pass2 cap s none (out ++ [c]) := by
  rw [pass2.eq_def]; dsimp only
  rw [if_neg (by simp), if_neg (by rw [le1f_iff]; omega), if_neg (by simpa using h2), put,
    if_pos (by simpa using hcap), Res.bind_ok]

theorem pass2_esc {cap : Nat} {e b : Byte} {s out : List Byte} (h : EscLetter e b)
    (hcap : out.length + 1 ≤ cap) : pass2 cap (92 :: e :: s) none out = pass2 cap s none (out ++ [b]) := by
  rw [pass2.eq_def]; dsimp only
  rw [if_neg (by simp), if_neg (by decide), if_pos (by simp)]
  simp only [Option.isSome_none, Bool.false_and, Bool.false_eq_true, if_false, (simpleEsc_iff e b).2 h]
  rw [put, if_pos (by simpa using hcap), Res.bind_ok]

theorem pass2_u {cap : Nat} {k : List Byte} {x : Nat} {s out : List Byte} (hk : Hex4 k x) :
    pass2 cap (92 :: 117 :: (k ++ s)) none out =
      if isFirst x then pass2 cap s (some x) out
      else (put cap out (encode x)).bind fun out => pass2 cap s none out := by
  have hr : read4 (k ++ s) = some (x, s) := (read4_iff _ _ _).2 ⟨k, hk, rfl⟩
  have he : simpleEsc 117 = none := by decide
  rw [pass2.eq_def]; dsimp only
  rw [if_neg (by simp), if_neg (by decide), if_pos (by simp)]
  simp only [Option.isSome_none, Bool.false_and, Bool.false_eq_true, if_false, he, beq_self_eq_true, if_true]
  split
  · rename_i h; rw [hr] at h; cases h
  · rename_i x' r h
    rw [hr] at h
    cases h
    rfl

theorem pass2_u2 {cap : Nat} {k : List Byte} {w y : Nat} {s out : List Byte} (hk : Hex4 k y)
    (hy : isSecond y = true) :
    pass2 cap (92 :: 117 :: (k ++ s)) (some w) out =
      (put cap out (encode (combine w y))).bind fun out => pass2 cap s none out := by
  have hr : read4 (k ++ s) = some (y, s) := (read4_iff _ _ _).2 ⟨k, hk, rfl⟩
  have he : simpleEsc 117 = none := by decide
  rw [pass2.eq_def]; dsimp only
  rw [if_neg (by simp), if_neg (by decide), if_pos (by simp)]
  simp only [Option.isSome_some, Bool.true_and, bne_self_eq_false, Bool.false_eq_true, if_false, he,
    beq_self_eq_true, if_true]
  split
  · rename_i h; rw [hr] at h; cases h
  · rename_i x' r h
    rw [hr] at h
    cases h
    simp [hy]

theorem Decodes.length {s t : List Byte} (h : Decodes s t) : t.length ≤ s.length := by
  induction h with
  | nil => exact Nat.le_refl _
  | raw _ _ _ ih => simp only [List.length_cons]; omega
  | esc _ _ ih => simp only [List.length_cons]; omega
  | @uni k x s t hk _ _ ih =>
    have := (encode_length x).1
    simp only [List.length_cons, List.length_append, hk.length]; omega
  | @pair h x k y s t hk _ _ hk2 _ _ _ ih =>
    have := (encode_length (0x10000 + (x - 0xD800) * 0x400 + (y - 0xDC00))).1
    simp only [List.length_cons, List.length_append, hk.length, hk2.length]; omega

/-- the loop on decodable input followed by `s2` -/
theorem pass2_decodes {cap : Nat} {s t : List Byte} (h : Decodes s t) : ∀ (s2 out : List Byte),
    out.length + s.length ≤ cap → pass2 cap (s ++ s2) none out = pass2 cap s2 none (out ++ t) := by
  induction h with
  | nil => intro s2 out _; simp
  | raw h1 h2 _ ih =>
    intro s2 out hc
    simp only [List.length_cons] at hc
    rw [List.cons_append, pass2_raw h1 h2 (by omega), ih _ _ (by simp; omega)]
    simp
  | esc h1 _ ih =>
    intro s2 out hc
    simp only [List.length_cons] at hc
    rw [List.cons_append, List.cons_append, pass2_esc h1 (by omega), ih _ _ (by simp; omega)]
    simp
  | @uni k x s t hk hx _ ih =>
    intro s2 out hc
    simp only [List.length_cons, List.length_append, hk.length] at hc
    have := (encode_length x).1
    rw [List.cons_append, List.cons_append, List.append_assoc, pass2_u hk,
      if_neg (by rw [isFirst_iff]; exact hx), put, if_pos (by omega), Res.bind_ok,
      ih _ _ (by simp; omega)]
    simp
  | @pair h x k y s t hk hx1 hx2 hk2 hy1 hy2 _ ih =>
    intro s2 out hc
    simp only [List.length_cons, List.length_append, hk.length, hk2.length] at hc
    have := (encode_length (combine x y)).1
    rw [List.cons_append, List.cons_append, List.append_assoc, pass2_u hk,
      if_pos (by rw [isFirst_iff]; exact ⟨hx1, hx2⟩), List.cons_append, List.cons_append,
      List.append_assoc, pass2_u2 hk2 (by rw [isSecond_iff]; exact ⟨hy1, hy2⟩), put,
      if_pos (by omega), Res.bind_ok, ih _ _ (by simp; omega), combine_eq ⟨hx1, hx2⟩ ⟨hy1, hy2⟩]
    simp

theorem pass2_rest {cap : Nat} {s t : List Byte} (h : Rest none s t) (hcap : s.length ≤ cap) :
    pass2 cap s none [] = .ok (some t) := by
  rcases h with h | ⟨s0, k, x, rfl, hk, h1, h2, hd⟩
  · have := pass2_decodes h [] [] (by simpa using hcap)
    rw [List.append_nil] at this
    rw [this, pass2]; rfl
  · rw [pass2_decodes hd _ _ (by simp at hcap ⊢; omega)]
    have := pass2_u (cap := cap) (s := []) (out := t) hk
    rw [List.append_nil] at this
    rw [List.nil_append, this, if_pos (by rw [isFirst_iff]; exact ⟨h1, h2⟩), pass2]

/-! ## the first pass -/

theorem pass1_true {s : List Byte} (h : pass1 s = some true) : 92 ∈ s := by
  induction s with
  | nil => simp [pass1] at h
  | cons c s ih =>
    rw [pass1] at h
    split at h
    · cases h
    · split at h
      · rename_i hc; simp only [beq_iff_eq] at hc; simp [hc]
      · simp [ih h]

theorem pass1_false {s : List Byte} : pass1 s = some false ↔ 92 ∉ s ∧ ∀ c ∈ s, 0x20 ≤ c.toNat := by
  induction s with
  | nil => simp [pass1]
  | cons c s ih =>
    rw [pass1]
    split
    · rename_i h; rw [le1f_iff] at h
      simp only [reduceCtorEq, List.mem_cons, forall_eq_or_imp, false_iff]
      rintro ⟨-, h2, -⟩; omega
    · rename_i h; rw [le1f_iff] at h
      split
      · rename_i hc; simp only [beq_iff_eq] at hc; simp [hc]
      · rename_i hc
        have hc : ¬ (92 = c) := by
          intro h; exact hc (by simp [h])
        rw [ih]
        simp only [List.mem_cons, forall_eq_or_imp, not_or]
        constructor
        · rintro ⟨h1, h2⟩; exact ⟨⟨hc, h1⟩, by omega, h2⟩
        · rintro ⟨⟨-, h1⟩, -, h2⟩; exact ⟨h1, h2⟩

theorem pass1_of {s : List Byte} (h : 92 ∈ s) (hs : ∀ c ∈ s, 0x20 ≤ c.toNat) : pass1 s = some true := by
  induction s with
  | nil => simp at h
  | cons c s ih =>
    have hc := hs c (by simp)
    rw [pass1, if_neg (by rw [le1f_iff]; omega)]
    split
    · rfl
    · rename_i hn
      simp only [beq_iff_eq] at hn
      refine ih ?_ (fun d hd => hs d (by simp [hd]))
      simp only [List.mem_cons] at h
      rcases h with h | h
      · exact absurd h.symm hn
      · exact h

theorem Decodes.ge {s t : List Byte} (h : Decodes s t) : ∀ c ∈ s, 0x20 ≤ c.toNat := by
  induction h with
  | nil => simp
  | raw h1 _ _ ih => simpa using ⟨h1, ih⟩
  | esc h1 _ ih => simpa using ⟨h1.ge.1, ih⟩
  | uni hk _ _ ih =>
    intro c hc
    simp only [List.mem_cons, List.mem_append] at hc
    rcases hc with rfl | rfl | h | h
    · decide
    · decide
    · exact hk.ge _ h
    · exact ih _ h
  | pair hk _ _ hk2 _ _ _ ih =>
    intro c hc
    simp only [List.mem_cons, List.mem_append] at hc
    rcases hc with rfl | rfl | h | rfl | rfl | h | h
    · decide
    · decide
    · exact hk.ge _ h
    · decide
    · decide
    · exact hk2.ge _ h
    · exact ih _ h

theorem Rest.ge {s t : List Byte} (h : Rest none s t) : ∀ c ∈ s, 0x20 ≤ c.toNat := by
  rcases h with h | ⟨s0, k, x, rfl, hk, -, -, hd⟩
  · exact h.ge
  · intro c hc
    simp only [List.mem_cons, List.mem_append] at hc
    rcases hc with h | rfl | rfl | h
    · exact hd.ge _ h
    · decide
    · decide
    · exact hk.ge _ h

/-- without a backslash a text denotes itself -/
theorem decodes_self {s : List Byte} (h1 : 92 ∉ s) (h2 : ∀ c ∈ s, 0x20 ≤ c.toNat) : Decodes s s := by
  induction s with
  | nil => exact .nil
  | cons c s ih =>
    simp only [List.mem_cons, not_or] at h1
    exact .raw (h2 c (by simp)) (fun h => h1.1 h.symm) (ih h1.2 (fun d hd => h2 d (by simp [hd])))

/-- with a backslash the decoded text is shorter -/
theorem Decodes.lt {s t : List Byte} (h : Decodes s t) (hb : 92 ∈ s) : t.length < s.length := by
  induction h with
  | nil => simp at hb
  | raw h1 h2 _ ih =>
    simp only [List.mem_cons] at hb
    rcases hb with hb | hb
    · exact absurd hb.symm h2
    · have := ih hb; simp only [List.length_cons]; omega
  | esc _ h _ => have := h.length; simp only [List.length_cons]; omega
  | @uni k x s t hk _ h _ =>
    have := h.length
    have := (encode_length x).1
    simp only [List.length_cons, List.length_append, hk.length]; omega
  | @pair h x k y s t hk _ _ hk2 _ _ h _ =>
    have := h.length
    have := (encode_length (0x10000 + (x - 0xD800) * 0x400 + (y - 0xDC00))).1
    simp only [List.length_cons, List.length_append, hk.length, hk2.length]; omega

theorem Rest.lt {s t : List Byte} (h : Rest none s t) (hb : 92 ∈ s) : t.length < s.length := by
  rcases h with h | ⟨s0, k, x, rfl, hk, -, -, hd⟩
  · exact h.lt hb
  · have := hd.length
    simp only [List.length_append, List.length_cons]; omega

/-- the exact behaviour of `json_string_unescape` -/
theorem unescape_exact (s : List Byte) (u : Unescaped) : unescape s = .ok u ↔
    match u with
    | .same => 92 ∉ s ∧ ∀ c ∈ s, 0x20 ≤ c.toNat
    | .fresh t => 92 ∈ s ∧ Rest none s t ∧ validate t = true
    | .err => ¬ (92 ∉ s ∧ ∀ c ∈ s, 0x20 ≤ c.toNat) ∧ ¬ ∃ t, 92 ∈ s ∧ Rest none s t ∧ validate t = true := by
  have key : (92 ∉ s ∧ ∀ c ∈ s, 0x20 ≤ c.toNat) ∧ unescape s = .ok .same ∨
      (∃ t, (92 ∈ s ∧ Rest none s t ∧ validate t = true) ∧ unescape s = .ok (.fresh t)) ∨
      ((¬ (92 ∉ s ∧ ∀ c ∈ s, 0x20 ≤ c.toNat) ∧ ¬ ∃ t, 92 ∈ s ∧ Rest none s t ∧ validate t = true) ∧
        unescape s = .ok .err) := by
    unfold unescape
    match hp : pass1 s with
    | none =>
      refine .inr (.inr ⟨⟨?_, ?_⟩, rfl⟩)
      · intro h; rw [pass1_false.2 h] at hp; cases hp
      · rintro ⟨t, h1, h2, -⟩; rw [pass1_of h1 h2.ge] at hp; cases hp
    | some false => exact .inl ⟨pass1_false.1 hp, rfl⟩
    | some true =>
      have hb := pass1_true hp
      obtain ⟨r, hr⟩ := pass2_no_ub s.length s.length s none [] (Nat.le_refl _) (by simp)
      simp only [hr, Res.bind_ok]
      cases r with
      | none =>
        refine .inr (.inr ⟨⟨fun h => h.1 hb, ?_⟩, rfl⟩)
        rintro ⟨t, -, h2, -⟩
        rw [pass2_rest h2 (Nat.le_refl _)] at hr; cases hr
      | some out =>
        obtain ⟨t, e, ht⟩ := pass2_sound _ _ _ _ _ _ (Nat.le_refl _) (by simp) hr
        rw [List.nil_append] at e
        subst e
        simp only
        by_cases hv : validate out = true
        · exact .inr (.inl ⟨out, ⟨hb, ht, hv⟩, by rw [if_pos hv]⟩)
        · refine .inr (.inr ⟨⟨fun h => h.1 hb, ?_⟩, by rw [if_neg hv]⟩)
          rintro ⟨t, -, h2, h3⟩
          rw [pass2_rest h2 (Nat.le_refl _)] at hr
          cases hr
          exact hv h3
  constructor
  · intro h
    rcases key with ⟨k1, k2⟩ | ⟨t, k1, k2⟩ | ⟨k1, k2⟩
    · rw [k2] at h; cases h; exact k1
    · rw [k2] at h; cases h; exact k1
    · rw [k2] at h; cases h; exact k1
  · intro h
    rcases key with ⟨k1, k2⟩ | ⟨t, k1, k2⟩ | ⟨k1, k2⟩
    · cases u with
      | same => exact k2
      | fresh t => exact absurd h.1 k1.1
      | err => exact absurd k1 h.1
    · cases u with
      | same => exact absurd k1.1 h.1
      | fresh t2 =>
        have e1 := pass2_rest h.2.1 (Nat.le_refl _)
        rw [pass2_rest k1.2.1 (Nat.le_refl _)] at e1
        cases e1
        exact k2
      | err => exact absurd ⟨t, k1⟩ h.2
    · cases u with
      | same => exact absurd h k1.1
      | fresh t => exact absurd ⟨t, h⟩ k1.2
      | err => exact k2

/-! ## finding the end of the literal -/

theorem scanStr_no_ub (n : Nat) : ∀ m : List Byte, m.length ≤ n → 0 ∈ m → ∃ r, scanStr m = .ok r := by
  induction n with
  | zero => intro m hm h0; have : m = [] := List.length_eq_zero_iff.1 (by omega); subst this; simp at h0
  | succ n ih =>
    intro m hm h0
    cases m with
    | nil => simp at h0
    | cons c m =>
      rw [scanStr.eq_def]; dsimp only
      split
      · exact ⟨_, rfl⟩
      · rename_i hc
        have h0' : 0 ∈ m := by
          simp only [List.mem_cons] at h0
          rcases h0 with h | h
          · exact absurd (by simp [← h]) hc
          · exact h
        simp only [List.length_cons] at hm
        split
        · exact ⟨_, rfl⟩
        · split
          · cases m with
            | nil => simp at h0'
            | cons d m =>
              simp only
              split
              · rename_i hd
                simp only [bne_iff_ne, ne_eq] at hd
                have h0'' : 0 ∈ m := by
                  simp only [List.mem_cons] at h0'
                  rcases h0' with h | h
                  · exact absurd h.symm hd
                  · exact h
                simp only [List.length_cons] at hm
                obtain ⟨r, hr⟩ := ih m (by omega) h0''
                exact ⟨_, by rw [hr, Res.map_ok']⟩
              · exact ⟨_, rfl⟩
          · obtain ⟨r, hr⟩ := ih m (by omega) h0'
            exact ⟨_, by rw [hr, Res.map_ok']⟩

theorem scanStr_some (n : Nat) : ∀ {m body rest : List Byte}, m.length ≤ n →
    scanStr m = .ok (some (body, rest)) →
    m = body ++ 34 :: rest ∧ 0 ∉ body := by
  induction n with
  | zero =>
    intro m body rest hm h
    have : m = [] := List.length_eq_zero_iff.1 (by omega)
    subst this; simp [scanStr] at h
  | succ n ih =>
    intro m body rest hm h
    cases m with
    | nil => simp [scanStr] at h
    | cons c m =>
      simp only [List.length_cons] at hm
      rw [scanStr.eq_def] at h; dsimp only at h
      split at h
      · cases h
      · rename_i h0
        simp only [beq_iff_eq] at h0
        split at h
        · rename_i hq; simp only [beq_iff_eq] at hq
          cases h
          exact ⟨by rw [hq]; rfl, by simp⟩
        · split at h
          · rename_i hb; simp only [beq_iff_eq] at hb
            cases m with
            | nil => cases h
            | cons d m =>
              simp only at h
              split at h
              · rename_i hd; simp only [bne_iff_ne, ne_eq] at hd
                match hs : scanStr m with
                | .ok none => rw [hs] at h; cases h
                | .ub => rw [hs] at h; cases h
                | .segv => rw [hs] at h; cases h
                | .ok (some (b, r)) =>
                  rw [hs] at h
                  simp only [Res.map_ok', Option.map_some, Res.ok.injEq, Option.some.injEq,
                    Prod.mk.injEq] at h
                  obtain ⟨rfl, rfl⟩ := h
                  obtain ⟨e1, e2⟩ := ih (by simp only [List.length_cons] at hm; omega) hs
                  refine ⟨by rw [e1]; rfl, ?_⟩
                  simp only [List.mem_cons, not_or]
                  exact ⟨fun h => h0 h.symm, fun h => hd h.symm, e2⟩
              · cases h
          · match hs : scanStr m with
            | .ok none => rw [hs] at h; cases h
            | .ub => rw [hs] at h; cases h
            | .segv => rw [hs] at h; cases h
            | .ok (some (b, r)) =>
              rw [hs] at h
              simp only [Res.map_ok', Option.map_some, Res.ok.injEq, Option.some.injEq,
                Prod.mk.injEq] at h
              obtain ⟨rfl, rfl⟩ := h
              obtain ⟨e1, e2⟩ := ih (by omega) hs
              refine ⟨by rw [e1]; rfl, ?_⟩
              simp only [List.mem_cons, not_or]
              exact ⟨fun h => h0 h.symm, e2⟩

theorem cstr_pad (out : List Byte) {k : Nat} (hk : 0 < k) :
    cstr (out ++ List.replicate k 0) = .ok (out.takeWhile (· != 0)) := by
  induction out with
  | nil =>
    obtain ⟨j, rfl⟩ : ∃ j, k = j + 1 := ⟨k - 1, by omega⟩
    simp [List.replicate_succ, cstr]
  | cons c out ih =>
    rw [List.cons_append, cstr, List.takeWhile_cons]
    by_cases hc : c = 0
    · simp [hc]
    · rw [if_neg (by simpa using hc), ih, Res.map_ok', if_pos (by simpa using hc)]

/-! ## escaping -/

/-- the text of a string inside the quotes, as the printer writes it -/
def escape (s : List Byte) : List Byte := s.flatMap fun c => (addon c).getD [c]

/-- every byte's escape is one piece that denotes the byte -/
theorem escape_piece (c : Byte) (s t : List Byte) (h : Decodes s t) :
    Decodes ((addon c).getD [c] ++ s) (c :: t) := by
  by_cases h1 : c = 0x22
  · subst h1; exact .esc (by unfold EscLetter; decide) h
  by_cases h2 : c = 0x5C
  · subst h2; exact .esc (by unfold EscLetter; decide) h
  by_cases h3 : c = 8
  · subst h3; exact .esc (by unfold EscLetter; decide) h
  by_cases h4 : c = 12
  · subst h4; exact .esc (by unfold EscLetter; decide) h
  by_cases h5 : c = 10
  · subst h5; exact .esc (by unfold EscLetter; decide) h
  by_cases h6 : c = 13
  · subst h6; exact .esc (by unfold EscLetter; decide) h
  by_cases h7 : c = 9
  · subst h7; exact .esc (by unfold EscLetter; decide) h
  by_cases h8 : c ≤ 0x1F
  · have e : addon c = some [92, 117, 48, 48, toHex (c.toNat / 16), toHex (c.toNat % 16)] := by
      simp [addon, h1, h2, h3, h4, h5, h6, h7, h8]
    rw [le1f_iff] at h8
    have d0 : HexDigit 48 0 := by unfold HexDigit; left; exact ⟨by omega, rfl⟩
    have dh : ∀ n, n < 16 → HexDigit (toHex n) n := by
      intro n hn
      unfold HexDigit toHex
      split
      · left; exact ⟨by omega, toNat_ofNat_small (by omega)⟩
      · right; right; exact ⟨by omega, hn, toNat_ofNat_small (by omega)⟩
    have hk : Hex4 [48, 48, toHex (c.toNat / 16), toHex (c.toNat % 16)] c.toNat :=
      ⟨_, _, _, _, 0, 0, c.toNat / 16, c.toNat % 16, rfl, d0, d0, dh _ (by omega), dh _ (by omega), by omega⟩
    have := Decodes.uni hk (by omega) h
    have he : encode c.toNat = [c] := by
      unfold encode; rw [if_pos (by omega), UInt8.ofNat_toNat]
    rw [he] at this
    rw [e]
    exact this
  · have e : addon c = none := by
      simp [addon, h1, h2, h3, h4, h5, h6, h7, h8]
    rw [le1f_iff] at h8
    rw [e]
    exact .raw (by omega) h2 h

theorem escape_decodes (s : List Byte) : Decodes (escape s) s := by
  induction s with
  | nil => exact .nil
  | cons c s ih => exact escape_piece c _ _ ih

theorem scanStr_plain {c : Byte} {m : List Byte} (h0 : c ≠ 0) (h1 : c ≠ 34) (h2 : c ≠ 92) :
    scanStr (c :: m) = (scanStr m).map fun r => r.map fun r => (c :: r.1, r.2) := by
  rw [scanStr.eq_def]; dsimp only
  rw [if_neg (by simpa using h0), if_neg (by simpa using h1), if_neg (by simpa using h2)]

theorem scanStr_esc {d : Byte} {m : List Byte} (h0 : d ≠ 0) :
    scanStr (92 :: d :: m) = (scanStr m).map fun r => r.map fun r => (92 :: d :: r.1, r.2) := by
  rw [scanStr.eq_def]; dsimp only
  rw [if_neg (by decide), if_neg (by decide), if_pos (by decide), if_pos (by simpa using h0)]

theorem toHex_ne (n : Nat) (h : n < 16) : toHex n ≠ 0 ∧ toHex n ≠ 34 ∧ toHex n ≠ 92 := by
  have : ∀ n : Fin 16, toHex n.1 ≠ 0 ∧ toHex n.1 ≠ 34 ∧ toHex n.1 ≠ 92 := by decide +kernel
  exact this ⟨n, h⟩

theorem scanStr_piece (c : Byte) (hc : c ≠ 0) (m : List Byte) :
    scanStr ((addon c).getD [c] ++ m) =
      (scanStr m).map fun r => r.map fun r => ((addon c).getD [c] ++ r.1, r.2) := by
  by_cases h1 : c = 0x22
  · subst h1; exact scanStr_esc (by decide)
  by_cases h2 : c = 0x5C
  · subst h2; exact scanStr_esc (by decide)
  by_cases h3 : c = 8
  · subst h3; exact scanStr_esc (by decide)
  by_cases h4 : c = 12
  · subst h4; exact scanStr_esc (by decide)
  by_cases h5 : c = 10
  · subst h5; exact scanStr_esc (by decide)
  by_cases h6 : c = 13
  · subst h6; exact scanStr_esc (by decide)
  by_cases h7 : c = 9
  · subst h7; exact scanStr_esc (by decide)
  by_cases h8 : c ≤ 0x1F
  · have e : addon c = some [92, 117, 48, 48, toHex (c.toNat / 16), toHex (c.toNat % 16)] := by
      simp [addon, h1, h2, h3, h4, h5, h6, h7, h8]
    rw [le1f_iff] at h8
    have t1 := toHex_ne (c.toNat / 16) (by omega)
    have t2 := toHex_ne (c.toNat % 16) (by omega)
    rw [e]
    simp only [Option.getD_some, List.cons_append, List.nil_append]
    rw [scanStr_esc (by decide), scanStr_plain (by decide) (by decide) (by decide),
      scanStr_plain (by decide) (by decide) (by decide), scanStr_plain t1.1 t1.2.1 t1.2.2,
      scanStr_plain t2.1 t2.2.1 t2.2.2]
    cases scanStr m with
    | ok r => cases r <;> rfl
    | ub => rfl
    | segv => rfl
  · have e : addon c = none := by
      simp [addon, h1, h2, h3, h4, h5, h6, h7, h8]
    rw [e]
    exact scanStr_plain hc h1 h2

theorem scanStr_escape (s : List Byte) (h0 : 0 ∉ s) (rest : List Byte) :
    scanStr (escape s ++ 34 :: rest) = .ok (some (escape s, rest)) := by
  induction s with
  | nil =>
    show scanStr (34 :: rest) = _
    rw [scanStr.eq_def]; rfl
  | cons c s ih =>
    simp only [List.mem_cons, not_or] at h0
    have ih := ih h0.2
    have e : escape (c :: s) = (addon c).getD [c] ++ escape s := rfl
    rw [e, List.append_assoc, scanStr_piece c (fun h => h0.1 h.symm), ih]
    rfl

theorem takeWhile_nz {s : List Byte} (h : 0 ∉ s) : s.takeWhile (· != 0) = s := by
  induction s with
  | nil => rfl
  | cons c s ih =>
    simp only [List.mem_cons, not_or] at h
    rw [List.takeWhile_cons, if_pos (by simpa using fun e => h.1 e.symm), ih h.2]

/-- without anything to escape the text is written as it is -/
theorem escape_self {s : List Byte} (h : 92 ∉ escape s) : escape s = s := by
  induction s with
  | nil => rfl
  | cons c s ih =>
    have e : escape (c :: s) = (addon c).getD [c] ++ escape s := rfl
    rw [e] at h ⊢
    simp only [List.mem_append, not_or] at h
    rw [ih h.2]
    have : addon c = none := by
      match ha : addon c with
      | none => rfl
      | some a =>
        exfalso
        rw [ha] at h
        apply h.1
        simp only [Option.getD_some]
        unfold addon at ha
        repeat' split at ha
        all_goals first
          | (cases ha; simp)
          | (cases ha)
    rw [this]; rfl

namespace Props

/-- **C31**: decoding never writes outside the buffer of `input_len` bytes, whatever the input, and when a
buffer was used its last byte is still zero, so that reading it as a C string stays inside -/
theorem C31_fits (s : List Byte) :
    ∃ u, unescape s = .ok u ∧ ∀ t, u = .fresh t → t.length < s.length := by
  have key : ∃ u, unescape s = .ok u := by
    unfold unescape
    split
    · exact ⟨_, rfl⟩
    · exact ⟨_, rfl⟩
    · obtain ⟨r, hr⟩ := pass2_no_ub s.length s.length s none [] (Nat.le_refl _) (by simp)
      rw [hr, Res.bind_ok]
      cases r with
      | none => exact ⟨_, rfl⟩
      | some out => by_cases hv : validate out = true <;> simp [hv]
  obtain ⟨u, hu⟩ := key
  refine ⟨u, hu, ?_⟩
  rintro t rfl
  have := (unescape_exact s _).1 hu
  exact this.2.1.lt this.1

/-- **C31**: a string literal with a raw control character is refused -/
theorem C31_control_refused (s : List Byte) (c : Byte) (hc : c ∈ s) (h : c.toNat < 0x20) :
    unescape s = .ok .err := by
  rw [unescape_exact]
  constructor
  · rintro ⟨-, h2⟩; have := h2 c hc; omega
  · rintro ⟨t, -, h2, -⟩; have := h2.ge c hc; omega

/-- **C31**, literals with escapes: decoding yields exactly the text the literal denotes by RFC 8259,
provided that is valid UTF-8; apart from those, literals that end in a lone high surrogate
are accepted, and the surrogate is dropped (see `C31_lone_surrogate_false`) -/
theorem C31_decode_exact (s : List Byte) (hb : 92 ∈ s) (t : List Byte) :
    unescape s = .ok (.fresh t) ↔
      (Decodes s t ∨ ∃ s0 h x, s = s0 ++ 92 :: 117 :: h ∧ Hex4 h x ∧ 0xD800 ≤ x ∧ x ≤ 0xDBFF ∧
        Decodes s0 t) ∧ ∃ cs : List Char, t = cs.flatMap String.utf8EncodeChar := by
  rw [unescape_exact]
  simp only [hb, true_and, C30_validate_exact]
  rfl

/-- **C31**, literals without escapes: accepted as they are exactly when no control character is in them -/
theorem C31_decode_plain (s : List Byte) (hb : 92 ∉ s) :
    (unescape s = .ok .same ↔ ∀ c ∈ s, 0x20 ≤ c.toNat) ∧ (unescape s = .ok .same ∨ unescape s = .ok .err) := by
  constructor
  · rw [unescape_exact]; simp [hb]
  · obtain ⟨u, hu, -⟩ := C31_fits s
    cases u with
    | same => exact .inl hu
    | err => exact .inr hu
    | fresh t => exact absurd ((unescape_exact s _).1 hu).1 hb

/-- **C31**: parsing a string literal in NUL terminated memory never reads or writes outside -/
theorem C31_parse_string_safe (m : List Byte) (h0 : 0 ∈ m) (hlen : m.length < 2 ^ 31) :
    ∃ r, parseString m = .ok r := by
  unfold parseString
  obtain ⟨r, hr⟩ := scanStr_no_ub m.length m (Nat.le_refl _) h0
  rw [hr, Res.bind_ok]
  match r, hr with
  | none, _ => exact ⟨_, rfl⟩
  | some (body, rest), hr =>
    obtain ⟨e, -⟩ := scanStr_some m.length (Nat.le_refl _) hr
    obtain ⟨u, hu, hf⟩ := C31_fits body
    simp only [hu, Res.bind_ok]
    cases u with
    | err => exact ⟨_, rfl⟩
    | same =>
      refine ⟨some (body.takeWhile (· != 0), rest), ?_⟩
      simp only
      rw [if_pos]
      have := congrArg List.length e
      simp only [List.length_append, List.length_cons] at this
      omega
    | fresh out =>
      simp only
      rw [cstr_pad out (by have := hf out rfl; omega)]
      exact ⟨_, rfl⟩

/-- **C31**, round trip: reading back the literal the printer writes for a text (valid UTF-8, no NUL) -/
theorem C31_roundtrip (cs : List Char) (hz : ∀ c ∈ cs, c.toNat ≠ 0) (rest : List Byte)
    (hlen : (cs.flatMap String.utf8EncodeChar).length < 2 ^ 31) :
    parseString (escape (cs.flatMap String.utf8EncodeChar) ++ 34 :: rest) =
      .ok (some (cs.flatMap String.utf8EncodeChar, rest)) := by
  have hval := (C30_validate_exact (cs.flatMap String.utf8EncodeChar)).2 ⟨cs, rfl⟩
  have h0 : 0 ∉ cs.flatMap String.utf8EncodeChar := by
    intro h
    obtain ⟨c, hc, h⟩ := List.mem_flatMap.1 h
    have hne := hz c hc
    rw [← C30_encode_is_utf8, encode_arith _ (by
      have := (scalar_iff c.toNat).2 ⟨c, rfl⟩; unfold Scalar at this; omega)] at h
    have hle : c.toNat ≤ 0x10FFFF := by
      have := (scalar_iff c.toNat).2 ⟨c, rfl⟩; unfold Scalar at this; omega
    have key : ∀ n, n < 256 → n ≠ 0 → (0 : Byte) ≠ UInt8.ofNat n := by
      intro n hn hne h
      have := congrArg UInt8.toNat h
      rw [toNat_ofNat_small hn] at this
      exact hne this.symm
    split at h
    · simp only [List.mem_cons, List.not_mem_nil, or_false] at h
      exact key _ (by omega) hne h
    · split at h
      · simp only [List.mem_cons, List.not_mem_nil, or_false] at h
        rcases h with h | h <;> exact key _ (by omega) (by omega) h
      · split at h
        · simp only [List.mem_cons, List.not_mem_nil, or_false] at h
          rcases h with h | h | h <;> exact key _ (by omega) (by omega) h
        · simp only [List.mem_cons, List.not_mem_nil, or_false] at h
          rcases h with h | h | h | h <;> exact key _ (by omega) (by omega) h
  generalize cs.flatMap String.utf8EncodeChar = s at *
  have hd := escape_decodes s
  unfold parseString
  rw [scanStr_escape s h0, Res.bind_ok]
  simp only
  by_cases hb : 92 ∈ escape s
  · have hu : unescape (escape s) = .ok (.fresh s) := by
      rw [unescape_exact]; exact ⟨hb, .inl hd, hval⟩
    rw [hu, Res.bind_ok]
    simp only
    have hlt := hd.lt hb
    rw [cstr_pad s (by omega), takeWhile_nz h0]
    rfl
  · have hu : unescape (escape s) = .ok .same := by
      rw [unescape_exact]; exact ⟨hb, hd.ge⟩
    rw [hu, Res.bind_ok]
    simp only
    rw [escape_self hb, if_pos hlen, takeWhile_nz h0]

/-- **C31**, negative: a literal that ends in a lone high surrogate is accepted, though it denotes no text -/
theorem C31_lone_surrogate_false :
    unescape [97, 92, 117, 100, 56, 48, 48] = .ok (.fresh [97]) ∧
      ¬ ∃ t, Decodes [97, 92, 117, 100, 56, 48, 48] t := by
  have hk : Hex4 [100, 56, 48, 48] 0xD800 :=
    ⟨100, 56, 48, 48, 13, 8, 0, 0, rfl, by unfold HexDigit; simp, by unfold HexDigit; simp,
      by unfold HexDigit; simp, by unfold HexDigit; simp, rfl⟩
  constructor
  · rw [unescape_exact]
    refine ⟨by simp, .inr ⟨[97], [100, 56, 48, 48], 0xD800, rfl, hk, by omega, by omega,
      .raw (by decide) (by decide) .nil⟩, ?_⟩
    rw [C30_validate_exact]
    exact ⟨['a'], by decide⟩
  · rintro ⟨t, h⟩
    generalize hs : ([97, 92, 117, 100, 56, 48, 48] : List Byte) = s at h
    cases h with
    | nil => cases hs
    | raw h1 h2 h3 =>
      injection hs with e1 e2
      subst e1
      cases h3 with
      | nil => cases e2
      | raw h4 h5 _ => injection e2 with e3 _; exact h5 e3.symm
      | esc h4 _ => injection e2 with _ e3; injection e3 with e3 _; exact h4.ge.2 e3.symm
      | uni h4 h5 h6 =>
        injection e2 with _ e3; injection e3 with _ e3
        obtain ⟨a, b, c, d, na, nb, nc, nd, rfl, da, db, dc, dd, rfl⟩ := h4
        injection e3 with e4 e3; injection e3 with e5 e3; injection e3 with e6 e3; injection e3 with e7 e3
        subst e4 e5 e6 e7
        unfold HexDigit at da db dc dd
        have : (100 : Byte).toNat = 100 := rfl
        have : (56 : Byte).toNat = 56 := rfl
        have : (48 : Byte).toNat = 48 := rfl
        omega
      | pair h4 _ _ h5 _ _ _ =>
        have := congrArg List.length e2
        simp [h4.length, h5.length] at this
    | esc _ _ => cases hs
    | uni _ _ _ => cases hs
    | pair _ _ _ _ _ _ _ => cases hs

/-- **C31**, negative: a literal without escapes is accepted even when it is not valid UTF-8 -/
theorem C31_invalid_utf8_false :
    unescape [0xFF] = .ok .same ∧ ¬ ∃ cs : List Char, [0xFF] = cs.flatMap String.utf8EncodeChar := by
  constructor
  · rw [unescape_exact]; decide
  · rw [← C30_validate_exact]
    simp only [Bool.not_eq_true]
    rw [validate_cons]
    decide +kernel

/-- **C31**, negative: the text after an escaped NUL is lost -/
theorem C31_nul_false : parseString [97, 92, 117, 48, 48, 48, 48, 98, 34, 0] = .ok (some ([97], [0])) := by
  have hs : scanStr [97, 92, 117, 48, 48, 48, 48, 98, 34, 0] =
      .ok (some ([97, 92, 117, 48, 48, 48, 48, 98], [0])) := by decide +kernel
  have hk : Hex4 [48, 48, 48, 48] 0 :=
    ⟨48, 48, 48, 48, 0, 0, 0, 0, rfl, by unfold HexDigit; simp, by unfold HexDigit; simp,
      by unfold HexDigit; simp, by unfold HexDigit; simp, rfl⟩
  have hu : unescape [97, 92, 117, 48, 48, 48, 48, 98] = .ok (.fresh [97, 0, 98]) := by
    rw [unescape_exact]
    refine ⟨by simp, .inl ?_, ?_⟩
    · exact .raw (by decide) (by decide) (.uni (s := [98]) (t := [98]) hk (by omega)
        (.raw (by decide) (by decide) .nil))
    · rw [C30_validate_exact]
      exact ⟨['a', Char.ofNat 0, 'b'], by decide⟩
  unfold parseString
  rw [hs, Res.bind_ok]
  simp only [hu, Res.bind_ok]
  decide +kernel

/-- `a\"é€😀\n` -/
example : ∃ t, Decodes [97, 92, 34, 0xC3, 0xA9, 92, 117, 50, 48, 97, 99, 92, 110] t ∧
    t = [97, 34, 0xC3, 0xA9, 0xE2, 0x82, 0xAC, 10] := by
  refine ⟨_, .raw (by decide) (by decide) (.esc (b := 34) (by unfold EscLetter; decide) (.raw (by decide) (by decide)
    (.raw (by decide) (by decide) (.uni (h := [50, 48, 97, 99]) (x := 0x20AC) (s := [92, 110]) ?_ (by omega)
      (.esc (b := 10) (by unfold EscLetter; decide) .nil))))), by decide +kernel⟩
  exact ⟨50, 48, 97, 99, 2, 0, 10, 12, rfl, by unfold HexDigit; simp, by unfold HexDigit; simp,
    by unfold HexDigit; simp, by unfold HexDigit; simp, rfl⟩

/-- the round trip of `é"` and a tab -/
example : (∀ c ∈ ['é', '"', '\t'], c.toNat ≠ 0) ∧
    escape (['é', '"', '\t'].flatMap String.utf8EncodeChar) = [0xC3, 0xA9, 92, 34, 92, 116] := by
  decide +kernel

example : (0 : Byte) ∈ [97, 34, 0] ∧ ([97, 34, 0] : List Byte).length < 2 ^ 31 := by decide

end Props

end Verif.Json
