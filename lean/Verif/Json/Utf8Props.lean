import Verif.Json.Utf8

/-! # Property C30: UTF-8 -/

namespace Verif.Json

theorem byte_forall {p : Byte → Prop} (h : ∀ n : Fin 256, p (UInt8.ofNat n.1)) (c : Byte) : p c := by
  have := h ⟨c.toNat, c.toNat_lt⟩
  rwa [UInt8.ofNat_toNat] at this

/-! ## arithmetic forms of the bit operations -/

theorem isTrail_iff (c : Byte) : isTrail c = true ↔ 128 ≤ c.toNat ∧ c.toNat < 192 := by
  revert c; apply byte_forall; decide +kernel

theorem and63 (c : Byte) : (c &&& 0x3F).toNat = c.toNat % 64 := by
  revert c; apply byte_forall; decide +kernel

theorem trailLength_eq (c : Byte) : trailLength c =
    if c.toNat < 128 then some 0 else if c.toNat < 194 then none else if c.toNat < 224 then some 1
    else if c.toNat < 240 then some 2 else if c.toNat ≤ 244 then some 3 else none := by
  revert c; apply byte_forall; decide +kernel

theorem shl6_or (c x : Nat) (h : x < 64) : c <<< 6 ||| x = 64 * c + x := by
  rw [Nat.shiftLeft_eq, Nat.mul_comm, ← Nat.two_pow_add_eq_or_of_lt (i := 6) h]

theorem and_3f (v : Nat) : v &&& 0x3F = v % 64 := Nat.and_two_pow_sub_one_eq_mod v 6

theorem or_80 {x : Nat} (h : x < 64) : x ||| 0x80 = 128 + x := by
  rw [Nat.or_comm]; exact (Nat.two_pow_add_eq_or_of_lt (i := 7) (by omega) 1).symm

theorem or_c0 {x : Nat} (h : x < 32) : x ||| 0xC0 = 192 + x := by
  rw [Nat.or_comm]; exact (Nat.two_pow_add_eq_or_of_lt (i := 6) (by omega) 3).symm

theorem or_e0 {x : Nat} (h : x < 16) : x ||| 0xE0 = 224 + x := by
  rw [Nat.or_comm]; exact (Nat.two_pow_add_eq_or_of_lt (i := 5) (by omega) 7).symm

theorem or_f0 {x : Nat} (h : x < 8) : x ||| 0xF0 = 240 + x := by
  rw [Nat.or_comm]; exact (Nat.two_pow_add_eq_or_of_lt (i := 4) (by omega) 15).symm

theorem mask1 (x : Nat) : x &&& ((1 <<< (6 - 1)) - 1) = x % 32 := Nat.and_two_pow_sub_one_eq_mod x 5
theorem mask2 (x : Nat) : x &&& ((1 <<< (6 - 2)) - 1) = x % 16 := Nat.and_two_pow_sub_one_eq_mod x 4
theorem mask3 (x : Nat) : x &&& ((1 <<< (6 - 3)) - 1) = x % 8 := Nat.and_two_pow_sub_one_eq_mod x 3

theorem encode_arith (v : Nat) (h : v ≤ 0x10FFFF) : encode v =
    if v ≤ 0x7F then [UInt8.ofNat v]
    else if v ≤ 0x7FF then [UInt8.ofNat (192 + v / 64), UInt8.ofNat (128 + v % 64)]
    else if v ≤ 0xFFFF then
      [UInt8.ofNat (224 + v / 4096), UInt8.ofNat (128 + v / 64 % 64), UInt8.ofNat (128 + v % 64)]
    else
      [UInt8.ofNat (240 + v / 262144), UInt8.ofNat (128 + v / 4096 % 64),
        UInt8.ofNat (128 + v / 64 % 64), UInt8.ofNat (128 + v % 64)] := by
  unfold encode
  have m : ∀ x, x % 64 < 64 := fun x => Nat.mod_lt _ (by omega)
  simp only [and_3f, Nat.shiftRight_eq_div_pow]
  split
  · rfl
  · split
    · rw [or_c0 (by omega), or_80 (m _)]
    · split
      · rw [or_e0 (by omega), or_80 (m _), or_80 (m _)]
      · rw [or_f0 (by omega), or_80 (m _), or_80 (m _), or_80 (m _)]

theorem utfValid_iff (v : Nat) : utfValid v = true ↔ v ≤ 0x10FFFF ∧ ¬ (0xD800 ≤ v ∧ v ≤ 0xDFFF) := by
  unfold utfValid
  split
  · simp; omega
  · split
    · rename_i h; simp at h; simp; omega
    · rename_i h; simp at h; simp; omega

/-! ## the specification -/

/-- a Unicode scalar value -/
def Scalar (v : Nat) : Prop := v < 0xD800 ∨ (0xDFFF < v ∧ v ≤ 0x10FFFF)

/-- a scalar value is the code of a `Char` -/
theorem scalar_iff (v : Nat) : Scalar v ↔ ∃ c : Char, c.toNat = v := by
  constructor
  · intro h
    have hv : v.isValidChar := by
      unfold Scalar at h
      unfold Nat.isValidChar; omega
    exact ⟨Char.ofNatAux v hv, by simp [Char.ofNatAux, Char.toNat]⟩
  · rintro ⟨c, rfl⟩
    have := c.valid
    unfold Scalar
    unfold UInt32.isValidChar Nat.isValidChar at this
    have e : c.toNat = c.val.toNat := rfl
    omega

theorem toNat_ofNat_small {n : Nat} (h : n < 256) : (UInt8.ofNat n).toNat = n := by
  rw [UInt8.toNat_ofNat']; omega

theorem isTrail_ofNat {x : Nat} (h : x < 64) : isTrail (UInt8.ofNat (128 + x)) = true := by
  rw [isTrail_iff, toNat_ofNat_small (by omega)]; omega

theorem and63_ofNat {x : Nat} (h : x < 64) : (UInt8.ofNat (128 + x) &&& 0x3F).toNat = x := by
  rw [and63, toNat_ofNat_small (by omega)]; omega

theorem trail_one {n c : Nat} {x : Nat} (h : x < 64) (p : List Byte) :
    trail (n + 1) c (UInt8.ofNat (128 + x) :: p) = trail n (64 * c + x) p := by
  rw [trail, if_pos (isTrail_ofNat h), and63_ofNat h, shl6_or _ _ h]

/-- decoding an encoded scalar value -/
theorem next_encode (v : Nat) (h : Scalar v) (rest : List Byte) :
    next false (encode v ++ rest) = (some v, rest) := by
  have hle : v ≤ 0x10FFFF := by unfold Scalar at h; omega
  have hv : utfValid v = true := by rw [utfValid_iff]; unfold Scalar at h; omega
  have m : ∀ x, x % 64 < 64 := fun x => Nat.mod_lt _ (by omega)
  rw [encode_arith v hle]
  by_cases h1 : v ≤ 0x7F
  · rw [if_pos h1, List.singleton_append, next, trailLength_eq, toNat_ofNat_small (by omega),
      if_pos (by omega)]
    simp
  · rw [if_neg h1]
    by_cases h2 : v ≤ 0x7FF
    · rw [if_pos h2, List.cons_append, next, trailLength_eq, toNat_ofNat_small (by omega),
        if_neg (by omega), if_neg (by omega), if_pos (by omega)]
      simp only
      rw [mask1, List.singleton_append, trail_one (m _), trail]
      have e : 64 * ((192 + v / 64) % 32) + v % 64 = v := by omega
      simp only
      rw [e, hv, width, if_neg h1, if_pos h2]
      simp
    · rw [if_neg h2]
      by_cases h3 : v ≤ 0xFFFF
      · rw [if_pos h3, List.cons_append, next, trailLength_eq, toNat_ofNat_small (by omega),
          if_neg (by omega), if_neg (by omega), if_neg (by omega), if_pos (by omega)]
        simp only
        rw [mask2, List.cons_append, trail_one (m _), List.singleton_append, trail_one (m _), trail]
        have e : 64 * (64 * ((224 + v / 4096) % 16) + v / 64 % 64) + v % 64 = v := by omega
        simp only
        rw [e, hv, width, if_neg h1, if_neg h2, if_pos h3]
        simp
      · rw [if_neg h3, List.cons_append, next, trailLength_eq, toNat_ofNat_small (by omega),
          if_neg (by omega), if_neg (by omega), if_neg (by omega), if_neg (by omega), if_pos (by omega)]
        simp only
        rw [mask3, List.cons_append, trail_one (m _), List.cons_append, trail_one (m _),
          List.singleton_append, trail_one (m _), trail]
        have e : 64 * (64 * (64 * ((240 + v / 262144) % 8) + v / 4096 % 64) + v / 64 % 64) + v % 64 = v := by
          omega
        simp only
        rw [e, hv, width, if_neg h1, if_neg h2, if_neg h3]
        simp

theorem trail_inv {n c : Nat} {p q : List Byte} {r : Nat} (h : trail (n + 1) c p = (some r, q)) :
    ∃ t p', p = t :: p' ∧ 128 ≤ t.toNat ∧ t.toNat < 192 ∧
      trail n (64 * c + (t.toNat - 128)) p' = (some r, q) := by
  cases p with
  | nil => simp [trail] at h
  | cons t p' =>
    rw [trail] at h
    split at h
    · rename_i ht
      rw [isTrail_iff] at ht
      rw [and63, shl6_or _ _ (Nat.mod_lt _ (by omega))] at h
      refine ⟨t, p', rfl, ht.1, ht.2, ?_⟩
      have : t.toNat % 64 = t.toNat - 128 := by omega
      rwa [this] at h
    · simp at h

theorem ofNat_of_eq {b : Byte} {n : Nat} (h : b.toNat = n) : b = UInt8.ofNat n := by
  rw [← h, UInt8.ofNat_toNat]

/-- what a successful decoding means -/
theorem next_some {bs rest : List Byte} {v : Nat} (h : next false bs = (some v, rest)) :
    Scalar v ∧ bs = encode v ++ rest := by
  cases bs with
  | nil => simp [next] at h
  | cons lead p =>
    have hb := lead.toNat_lt
    rw [next, trailLength_eq] at h
    by_cases h0 : lead.toNat < 128
    · rw [if_pos h0] at h
      simp only [Bool.not_false, Bool.true_or, if_true, Prod.mk.injEq, Option.some.injEq] at h
      obtain ⟨rfl, rfl⟩ := h
      refine ⟨by unfold Scalar; omega, ?_⟩
      rw [encode_arith _ (by omega), if_pos (by omega), UInt8.ofNat_toNat]; rfl
    · rw [if_neg h0] at h
      by_cases h1 : lead.toNat < 194
      · rw [if_pos h1] at h; simp at h
      · rw [if_neg h1] at h
        have key : ∀ n c q, (if !utfValid c then ((none : Option Nat), q)
            else if width c ≠ n + 1 then (none, q)
            else if (false && decide (c < 0xA0)) = true then (none, q) else (some c, q)) = (some v, rest) →
            c = v ∧ q = rest ∧ Scalar v ∧ width v = n + 1 := by
          intro n c q he
          split at he
          · simp at he
          · rename_i hval
            split at he
            · simp at he
            · rename_i hw
              simp only [Bool.false_and, Bool.false_eq_true, if_false, Prod.mk.injEq, Option.some.injEq] at he
              obtain ⟨rfl, rfl⟩ := he
              have hval' : utfValid c = true := by simpa using hval
              rw [utfValid_iff] at hval'
              exact ⟨rfl, rfl, by unfold Scalar; omega, by simpa using hw⟩
        by_cases h2 : lead.toNat < 224
        · rw [if_pos h2] at h
          simp only [mask1] at h
          split at h
          · simp at h
          · rename_i c q he
            obtain ⟨rfl, rfl, hs, hw⟩ := key 1 c q h
            obtain ⟨t1, p1, rfl, a1, b1, he⟩ := trail_inv he
            simp only [trail, Prod.mk.injEq, Option.some.injEq] at he
            obtain ⟨hc, rfl⟩ := he
            refine ⟨hs, ?_⟩
            rw [encode_arith _ (by unfold Scalar at hs; omega), if_neg (by omega), if_pos (by omega)]
            simp only [List.cons_append, List.nil_append]
            rw [← ofNat_of_eq (b := lead) (by omega), ← ofNat_of_eq (b := t1) (by omega)]
        · rw [if_neg h2] at h
          by_cases h3 : lead.toNat < 240
          · rw [if_pos h3] at h
            simp only [mask2] at h
            split at h
            · simp at h
            · rename_i c q he
              obtain ⟨rfl, rfl, hs, hw⟩ := key 2 c q h
              obtain ⟨t1, p1, rfl, a1, b1, he⟩ := trail_inv he
              obtain ⟨t2, p2, rfl, a2, b2, he⟩ := trail_inv he
              simp only [trail, Prod.mk.injEq, Option.some.injEq] at he
              obtain ⟨hc, rfl⟩ := he
              have hgt : ¬ c ≤ 0x7FF := by
                intro hle
                unfold width at hw
                split at hw
                · omega
                · omega
              refine ⟨hs, ?_⟩
              rw [encode_arith _ (by unfold Scalar at hs; omega), if_neg (by omega), if_neg hgt,
                if_pos (by omega)]
              simp only [List.cons_append, List.nil_append]
              rw [← ofNat_of_eq (b := lead) (by omega), ← ofNat_of_eq (b := t1) (by omega),
                ← ofNat_of_eq (b := t2) (by omega)]
          · rw [if_neg h3] at h
            by_cases h4 : lead.toNat ≤ 244
            · rw [if_pos h4] at h
              simp only [mask3] at h
              split at h
              · simp at h
              · rename_i c q he
                obtain ⟨rfl, rfl, hs, hw⟩ := key 3 c q h
                obtain ⟨t1, p1, rfl, a1, b1, he⟩ := trail_inv he
                obtain ⟨t2, p2, rfl, a2, b2, he⟩ := trail_inv he
                obtain ⟨t3, p3, rfl, a3, b3, he⟩ := trail_inv he
                simp only [trail, Prod.mk.injEq, Option.some.injEq] at he
                obtain ⟨hc, rfl⟩ := he
                have hgt : ¬ c ≤ 0xFFFF := by
                  intro hle
                  unfold width at hw
                  split at hw
                  · omega
                  · split at hw
                    · omega
                    · omega
                refine ⟨hs, ?_⟩
                rw [encode_arith _ (by unfold Scalar at hs; omega), if_neg (by omega),
                  if_neg (by omega), if_neg hgt]
                simp only [List.cons_append, List.nil_append]
                rw [← ofNat_of_eq (b := lead) (by omega), ← ofNat_of_eq (b := t1) (by omega),
                  ← ofNat_of_eq (b := t2) (by omega), ← ofNat_of_eq (b := t3) (by omega)]
            · rw [if_neg h4] at h; simp at h

theorem encode_ne_nil (v : Nat) : encode v ≠ [] := by
  unfold encode
  split
  · simp
  · split
    · simp
    · split <;> simp

theorem validate_cons (b : Byte) (p : List Byte) :
    validate (b :: p) = if (next false (b :: p)).1 = none then false else validate (next false (b :: p)).2 := by
  rw [validate]

theorem validate_encode (v : Nat) (h : Scalar v) (rest : List Byte) :
    validate (encode v ++ rest) = validate rest := by
  obtain ⟨b, p, hb⟩ := List.exists_cons_of_ne_nil (encode_ne_nil v)
  have := next_encode v h rest
  rw [hb, List.cons_append] at this ⊢
  rw [validate_cons, this]
  simp

theorem validate_flat (vs : List Nat) (h : ∀ v ∈ vs, Scalar v) (rest : List Byte) :
    validate (vs.flatMap encode ++ rest) = validate rest := by
  induction vs with
  | nil => rfl
  | cons v vs ih =>
    rw [List.flatMap_cons, List.append_assoc, validate_encode v (h v (by simp)),
      ih (fun w hw => h w (by simp [hw]))]

theorem validate_iff (bs : List Byte) :
    validate bs = true ↔ ∃ vs : List Nat, (∀ v ∈ vs, Scalar v) ∧ bs = vs.flatMap encode := by
  constructor
  · intro h
    have : ∀ n, ∀ bs : List Byte, bs.length = n → validate bs = true →
        ∃ vs : List Nat, (∀ v ∈ vs, Scalar v) ∧ bs = vs.flatMap encode := by
      intro n
      induction n using Nat.strongRecOn with
      | _ n ih =>
        intro bs hl h
        cases bs with
        | nil => exact ⟨[], by simp, rfl⟩
        | cons b p =>
          rw [validate_cons] at h
          split at h
          · simp at h
          · rename_i hn
            obtain ⟨v, hv⟩ := Option.ne_none_iff_exists'.1 hn
            have hlen := next_length false b p
            have e : next false (b :: p) = (some v, (next false (b :: p)).2) := by rw [← hv]
            obtain ⟨hs, hbs⟩ := next_some e
            obtain ⟨vs, hvs, he⟩ := ih _ (by rw [← hl, List.length_cons]; omega) _ rfl h
            exact ⟨v :: vs, by simpa using ⟨hs, hvs⟩, by rw [List.flatMap_cons, ← he]; exact hbs⟩
    exact this _ bs rfl h
  · rintro ⟨vs, hvs, rfl⟩
    have := validate_flat vs hvs []
    rwa [List.append_nil, validate] at this

namespace Props

/-- **C30**, round trip: decoding the encoding of a scalar value gives the value and consumes exactly
its bytes -/
theorem C30_roundtrip (v : Nat) (h : Scalar v) (rest : List Byte) :
    next false (encode v ++ rest) = (some v, rest) := next_encode v h rest

/-- **C30**: the encoder produces the UTF-8 encoding (as defined by Lean's core library) -/
theorem C30_encode_is_utf8 (c : Char) : encode c.toNat = String.utf8EncodeChar c := by
  have h : Scalar c.toNat := (scalar_iff _).2 ⟨c, rfl⟩
  have hle : c.toNat ≤ 0x10FFFF := by unfold Scalar at h; omega
  rw [encode_arith _ hle]
  have e : c.toNat = c.val.toNat := rfl
  unfold String.utf8EncodeChar
  rw [e] at hle ⊢
  generalize c.val.toNat = v at hle
  simp only
  by_cases h1 : v ≤ 0x7F
  · rw [if_pos h1, if_pos h1]
  · rw [if_neg h1, if_neg h1]
    by_cases h2 : v ≤ 0x7FF
    · rw [if_pos h2, if_pos h2, Nat.mod_eq_of_lt (show v / 64 < 0x20 by omega), Nat.add_comm,
        Nat.add_comm 128]
    · rw [if_neg h2, if_neg h2]
      by_cases h3 : v ≤ 0xFFFF
      · rw [if_pos h3, if_pos h3, Nat.mod_eq_of_lt (show v / 4096 < 0x10 by omega), Nat.add_comm,
          Nat.add_comm 128, Nat.add_comm 128]
      · rw [if_neg h3, if_neg h3, Nat.mod_eq_of_lt (show v / 262144 < 0x08 by omega), Nat.add_comm,
          Nat.add_comm 128, Nat.add_comm 128, Nat.add_comm 128]

/-- **C30**: decoding succeeds exactly on text that starts with the UTF-8 encoding of a character, and
then gives that character and the rest of the text -/
theorem C30_decode_exact (bs rest : List Byte) (v : Nat) :
    next false bs = (some v, rest) ↔ ∃ c : Char, c.toNat = v ∧ bs = String.utf8EncodeChar c ++ rest := by
  constructor
  · intro h
    obtain ⟨hs, hb⟩ := next_some h
    obtain ⟨c, hc⟩ := (scalar_iff v).1 hs
    exact ⟨c, hc, by rw [← C30_encode_is_utf8, hc, hb]⟩
  · rintro ⟨c, rfl, rfl⟩
    rw [← C30_encode_is_utf8]
    exact next_encode _ ((scalar_iff _).2 ⟨c, rfl⟩) rest

/-- **C30**: `utf8_validate` accepts exactly the byte strings that are the UTF-8 encoding of some text -/
theorem C30_validate_exact (bs : List Byte) :
    validate bs = true ↔ ∃ cs : List Char, bs = cs.flatMap String.utf8EncodeChar := by
  rw [validate_iff]
  constructor
  · rintro ⟨vs, hvs, rfl⟩
    induction vs with
    | nil => exact ⟨[], rfl⟩
    | cons v vs ih =>
      obtain ⟨cs, hcs⟩ := ih (fun w hw => hvs w (by simp [hw]))
      obtain ⟨c, hc⟩ := (scalar_iff v).1 (hvs v (by simp))
      exact ⟨c :: cs, by rw [List.flatMap_cons, List.flatMap_cons, hcs, ← C30_encode_is_utf8, hc]⟩
  · rintro ⟨cs, rfl⟩
    refine ⟨cs.map Char.toNat, ?_, ?_⟩
    · intro v hv
      obtain ⟨c, -, rfl⟩ := List.mem_map.1 hv
      exact (scalar_iff _).2 ⟨c, rfl⟩
    · rw [List.flatMap_map]
      congr 1
      funext c
      exact (C30_encode_is_utf8 c).symm

/-- **C30**: every surrogate pair denotes the code point it should, which is a scalar value -/
theorem C30_surrogates (w1 w2 : Nat) (h1 : isFirst w1 = true) (h2 : isSecond w2 = true) :
    combine w1 w2 = 0x10000 + (w1 - 0xD800) * 0x400 + (w2 - 0xDC00) ∧ Scalar (combine w1 w2) := by
  simp only [isFirst, isSecond, Bool.and_eq_true, decide_eq_true_eq] at h1 h2
  have e : combine w1 w2 = 0x10000 + (w1 - 0xD800) * 0x400 + (w2 - 0xDC00) := by
    unfold combine
    rw [show (0x3FF : Nat) = 2 ^ 10 - 1 from rfl, Nat.and_two_pow_sub_one_eq_mod,
      Nat.and_two_pow_sub_one_eq_mod, Nat.shiftLeft_eq, Nat.mul_comm,
      ← Nat.two_pow_add_eq_or_of_lt (i := 10) (Nat.mod_lt _ (by omega))]
    omega
  refine ⟨e, ?_⟩
  rw [e]; unfold Scalar; omega

/-- the euro sign and a character outside the basic plane -/
example : Scalar 0x20AC ∧ encode 0x20AC = [0xE2, 0x82, 0xAC] ∧ Scalar 0x1F600 ∧
    next false [0xF0, 0x9F, 0x98, 0x80, 65] = (some 0x1F600, [65]) := by
  refine ⟨by unfold Scalar; omega, by decide +kernel, by unfold Scalar; omega, by decide +kernel⟩

/-- an overlong form, a surrogate and a code above U+10FFFF are refused -/
example : (next false [0xC0, 0x80]).1 = none ∧ (next false [0xE0, 0x80, 0x80]).1 = none ∧
    (next false [0xED, 0xA0, 0x80]).1 = none ∧ (next false [0xF4, 0x90, 0x80, 0x80]).1 = none := by
  decide +kernel

example : isFirst 0xD83D = true ∧ isSecond 0xDE00 = true ∧ combine 0xD83D 0xDE00 = 0x1F600 := by
  decide +kernel

end Props

end Verif.Json
