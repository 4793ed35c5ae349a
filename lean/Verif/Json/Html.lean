import Verif.Json.Utf8Props

/-! # C30: decoding with `html` (`next`, cee-json/tokenizer.c:60-127) -/

namespace Verif.Json
namespace Props

/-- the characters allowed in HTML: no controls except tab, line feed and carriage return -/
def HtmlChar (v : Nat) : Prop := v = 0x9 ∨ v = 0xA ∨ v = 0xD ∨ (0x20 ≤ v ∧ v < 0x7F) ∨ 0xA0 ≤ v

theorem trailLength_zero {b : Byte} (h : trailLength b = some 0) : b.toNat < 128 := by
  unfold trailLength at h
  split at h
  · next g => exact g
  · split at h
    · cases h
    · split at h
      · cases h
      · split at h
        · cases h
        · split at h <;> cases h

theorem next_html (bs rest : List Byte) (v : Nat) :
    next true bs = (some v, rest) ↔ next false bs = (some v, rest) ∧ HtmlChar v := by
  cases bs with
  | nil => simp [next]
  | cons lead p =>
    simp only [next]
    split
    · simp
    · next h0 =>
      have hl := trailLength_zero h0
      have hcond : (0x20 ≤ lead && lead != 0x7F || lead == 0x9 || lead == 0x0A || lead == 0x0D) = true ↔ HtmlChar lead.toNat := by
        simp only [Bool.or_eq_true, Bool.and_eq_true, decide_eq_true_eq, bne_iff_ne, beq_iff_eq, UInt8.le_iff_toNat_le, ne_eq,
          ← UInt8.toNat_inj, HtmlChar]
        simp only [UInt8.reduceToNat]
        omega
      simp only [Bool.not_true, Bool.false_or, Bool.not_false, Bool.true_or, if_true]
      split
      · next g =>
        constructor
        · intro e
          refine ⟨e, ?_⟩
          cases e
          exact hcond.1 g
        · exact fun e => e.1
      · next g =>
        constructor
        · intro e
          cases e
        · rintro ⟨e, hv⟩
          cases e
          exact absurd (hcond.2 hv) g
    · next n hn h0 =>
      split
      · simp
      · next c q ht =>
        split
        · simp
        · split
          · simp
          · next hw =>
            have hc : 0x80 ≤ c := by
              by_contra hlt
              rw [width, if_pos (by omega)] at hw
              have : n ≠ 0 := hn
              omega
            simp only [Bool.true_and, Bool.false_and, decide_eq_true_eq, Bool.false_eq_true, if_false]
            split
            · next g =>
              constructor
              · intro e
                cases e
              · rintro ⟨e, hv⟩
                cases e
                unfold HtmlChar at hv
                omega
            · next g =>
              constructor
              · intro e
                refine ⟨e, ?_⟩
                cases e
                unfold HtmlChar
                omega
              · exact fun e => e.1

/-- **C30**: with `html` (which no caller sets) exactly the characters are decoded that are allowed in HTML -/
theorem C30_html (bs rest : List Byte) (v : Nat) : next true bs = (some v, rest) ↔
    ∃ c : Char, c.toNat = v ∧ HtmlChar v ∧ bs = String.utf8EncodeChar c ++ rest := by
  rw [next_html, C30_decode_exact]
  exact ⟨fun ⟨⟨c, h1, h2⟩, h3⟩ => ⟨c, h1, h3, h2⟩, fun ⟨c, h1, h3, h2⟩ => ⟨⟨c, h1, h2⟩, h3⟩⟩

/-- a tab and a character of two bytes are decoded, a NUL, a DEL and a control of two bytes are not -/
example : next true [9] = (some 9, []) ∧ next true [0xC2, 0xA0, 65] = (some 0xA0, [65]) ∧ (next true [0]).1 = none ∧
    (next true [0x7F]).1 = none ∧ (next true [0xC2, 0x85]).1 = none := by decide +kernel

end Props
end Verif.Json
