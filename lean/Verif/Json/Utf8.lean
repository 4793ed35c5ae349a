import Verif.Base
import Mathlib.Tactic.ByContra

/-!
# UTF-8 and UTF-16 helpers of the JSON tokenizer (cee-json/tokenizer.c:9-180, 221-245)

Text is a list of bytes; the pointer pair `p, e` of the C code is the list of bytes still to be read
(`*p == e` is the empty list), so every read is inside the range.
-/

namespace Verif.Json

abbrev Byte := UInt8

/-- `utf_valid` (tokenizer.c:10-17) -/
def utfValid (v : Nat) : Bool :=
  if 0x10FFFF < v then false else if 0xD800 ≤ v && v ≤ 0xDFFF then false else true

/-- `utf8_is_trail` (tokenizer.c:20-24) -/
def isTrail (c : Byte) : Bool := c &&& 0xC0 == 0x80

/-- `utf8_trail_length` (tokenizer.c:27-40), `none` for -1 -/
def trailLength (c : Byte) : Option Nat :=
  if c < 128 then some 0 else if c < 194 then none else if c < 224 then some 1
  else if c < 240 then some 2 else if c ≤ 244 then some 3 else none

/-- `utf8_width` (tokenizer.c:42-56) -/
def width (v : Nat) : Nat := if v ≤ 0x7F then 1 else if v ≤ 0x7FF then 2 else if v ≤ 0xFFFF then 3 else 4

/-- one case of the falling-through `switch` in `next` (tokenizer.c:89-112), `n` of them: the code built
so far (or `none`, `utf_illegal`) and the bytes left -/
def trail : Nat → Nat → List Byte → Option Nat × List Byte
  | 0, c, p => (some c, p)
  | _ + 1, _, [] => (none, [])
  | n + 1, c, tmp :: p => if isTrail tmp then trail n (c <<< 6 ||| (tmp &&& 0x3F).toNat) p else (none, p)

/-- `next` (tokenizer.c:60-127): the code point, or `none` for `utf_illegal`, and the bytes left -/
def next (html : Bool) : List Byte → Option Nat × List Byte
  | [] => (none, [])
  | lead :: p =>
    match trailLength lead with
    | none => (none, p)
    | some 0 =>
      if !html || (0x20 ≤ lead && lead != 0x7F) || lead == 0x9 || lead == 0x0A || lead == 0x0D then
        (some lead.toNat, p)
      else (none, p)
    | some n =>
      match trail n (lead.toNat &&& ((1 <<< (6 - n)) - 1)) p with
      | (none, q) => (none, q)
      | (some c, q) =>
        if !utfValid c then (none, q)
        else if width c ≠ n + 1 then (none, q)
        else if html && c < 0xA0 then (none, q)
        else (some c, q)

theorem trail_length (n : Nat) : ∀ c p, (trail n c p).2.length ≤ p.length := by
  induction n with
  | zero => intro c p; exact Nat.le_refl _
  | succ n ih =>
    intro c p
    cases p with
    | nil => exact Nat.le_refl _
    | cons t p =>
      rw [trail]
      split
      · exact Nat.le_succ_of_le (ih _ _)
      · exact Nat.le_succ _

theorem next_length (html : Bool) (lead : Byte) (p : List Byte) :
    (next html (lead :: p)).2.length ≤ p.length := by
  rw [next]
  split
  · exact Nat.le_refl _
  · split <;> exact Nat.le_refl _
  · rename_i n _ _
    have := trail_length n (lead.toNat &&& ((1 <<< (6 - n)) - 1)) p
    split
    · rename_i h; rw [h] at this; exact this
    · rename_i h; rw [h] at this
      split
      · exact this
      · split
        · exact this
        · split <;> exact this

/-- `utf8_validate` (tokenizer.c:142-148) -/
def validate : List Byte → Bool
  | [] => true
  | b :: p =>
    if (next false (b :: p)).1 = none then false else validate (next false (b :: p)).2
termination_by p => p.length
decreasing_by
  have := next_length false b p
  simp only [List.length_cons]; omega

/-- `utf8_encode` (tokenizer.c:156-180): the bytes `c[0..len)`, each truncated to a `char` -/
def encode (v : Nat) : List Byte :=
  if v ≤ 0x7F then [UInt8.ofNat v]
  else if v ≤ 0x7FF then
    [UInt8.ofNat (v >>> 6 ||| 0xC0), UInt8.ofNat (v &&& 0x3F ||| 0x80)]
  else if v ≤ 0xFFFF then
    [UInt8.ofNat (v >>> 12 ||| 0xE0), UInt8.ofNat (v >>> 6 &&& 0x3F ||| 0x80),
      UInt8.ofNat (v &&& 0x3F ||| 0x80)]
  else
    [UInt8.ofNat (v >>> 18 ||| 0xF0), UInt8.ofNat (v >>> 12 &&& 0x3F ||| 0x80),
      UInt8.ofNat (v >>> 6 &&& 0x3F ||| 0x80), UInt8.ofNat (v &&& 0x3F ||| 0x80)]

/-- `utf16_is_first_surrogate` (tokenizer.c:221-224) -/
def isFirst (x : Nat) : Bool := 0xD800 ≤ x && x ≤ 0xDBFF

/-- `utf16_is_second_surrogate` (tokenizer.c:226-229) -/
def isSecond (x : Nat) : Bool := 0xDC00 ≤ x && x ≤ 0xDFFF

/-- `utf16_combine_surrogate` (tokenizer.c:231-234) -/
def combine (w1 w2 : Nat) : Nat := ((w1 &&& 0x3FF) <<< 10 ||| (w2 &&& 0x3FF)) + 0x10000

end Verif.Json
