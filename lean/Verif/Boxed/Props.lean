import Verif.Boxed.Model
import Verif.Json.EscapeProps
import Verif.Json.RoundTrip

/-!
# Properties of boxed primitives (C43, C71)
-/

namespace Verif.Json

/-- the bytes of an ASCII string -/
def ascii (s : String) : List Byte := s.toList.map fun c => UInt8.ofNat c.toNat

theorem digit_byte (d : Nat) (h : d < 10) : UInt8.ofNat d.digitChar.toNat = UInt8.ofNat (48 + d) := by
  have : ∀ d : Fin 10, UInt8.ofNat d.val.digitChar.toNat = UInt8.ofNat (48 + d.val) := by decide
  exact this ⟨d, h⟩

/-- the digits of the model are those of the usual decimal representation -/
theorem dec_repr (n : Nat) : dec n = ascii n.repr := by
  unfold ascii
  rw [Nat.toList_repr]
  induction n using Nat.strongRecOn with
  | ind n ih =>
    rw [dec]
    split
    · rename_i h
      rw [Nat.toDigits_of_lt_base h, List.map_singleton, digit_byte n h]
    · rename_i h
      rw [Nat.toDigits_of_base_le (by decide) (by omega), List.map_append, ← ih (n / 10) (by omega),
        List.map_singleton, digit_byte _ (by omega)]

theorem intText_repr (i : Int) : intText i = ascii i.repr := by
  unfold intText
  cases i with
  | ofNat n => rw [if_neg (by simp), dec_repr]; rfl
  | negSucc n =>
    rw [if_pos (Int.negSucc_lt_zero n), dec_repr]
    have : (-(Int.negSucc n)).toNat = n + 1 := by rw [Int.neg_negSucc]; rfl
    rw [this]
    simp [Int.repr, ascii]

end Verif.Json

namespace Verif.Boxed

open Verif.Json (Byte ascii)

/-! ## Bytes -/

theorem le_length (w n : Nat) : (le w n).length = w := by
  induction w generalizing n with
  | zero => rfl
  | succ w ih => simp [le, ih]

theorem ofLe_le (w n : Nat) : ofLe (le w n) = n % 256 ^ w := by
  induction w generalizing n with
  | zero => simp [le, ofLe, Nat.mod_one]
  | succ w ih =>
    have h1 : (UInt8.ofNat (n % 256)).toNat = n % 256 := by
      rw [UInt8.toNat_ofNat']; omega
    rw [le, ofLe, ih, h1, Nat.pow_succ', Nat.mod_mul]

theorem load_store (b : Boxed) (w n : Nat) : load (store b w n) w = n % 256 ^ w := by
  rw [load, store, List.take_left' (le_length w n), ofLe_le]

theorem store_ty (b : Boxed) (w n : Nat) : (store b w n).ty = b.ty := rfl

theorem mkHeader_ty (t : Ty) : (mkHeader t).ty = t := rfl

/-! ## The values of C -/

/-- a value of one of the ten types -/
inductive Prim where
  | f64 (bits : UInt64) | f32 (bits : UInt32)
  | u64 (n : UInt64) | u32 (n : UInt32) | u16 (n : UInt16) | u8 (n : UInt8)
  | i64 (n : Int64) | i32 (n : Int32) | i16 (n : Int16) | i8 (n : Int8)
  deriving DecidableEq

def Prim.ty : Prim → Ty
  | .f64 _ => .f64 | .f32 _ => .f32 | .u64 _ => .u64 | .u32 _ => .u32 | .u16 _ => .u16 | .u8 _ => .u8
  | .i64 _ => .i64 | .i32 _ => .i32 | .i16 _ => .i16 | .i8 _ => .i8

/-- calls the constructor for the type of the value -/
def box : Prim → Boxed
  | .f64 d => fromDouble d | .f32 d => fromFloat d
  | .u64 n => fromU64 n | .u32 n => fromU32 n | .u16 n => fromU16 n | .u8 n => fromU8 n
  | .i64 n => fromI64 n | .i32 n => fromI32 n | .i16 n => fromI16 n | .i8 n => fromI8 n

/-- calls the reader of a type -/
def unbox (t : Ty) (x : Boxed) : Res Prim :=
  match t with
  | .f64 => (toDouble x).map .f64 | .f32 => (toFloat x).map .f32
  | .u64 => (toU64 x).map .u64 | .u32 => (toU32 x).map .u32 | .u16 => (toU16 x).map .u16 | .u8 => (toU8 x).map .u8
  | .i64 => (toI64 x).map .i64 | .i32 => (toI32 x).map .i32 | .i16 => (toI16 x).map .i16 | .i8 => (toI8 x).map .i8

/-- the number, for the integer types -/
def Prim.int? : Prim → Option Int
  | .f64 _ => none | .f32 _ => none
  | .u64 n => some n.toNat | .u32 n => some n.toNat | .u16 n => some n.toNat | .u8 n => some n.toNat
  | .i64 n => some n.toInt | .i32 n => some n.toInt | .i16 n => some n.toInt | .i8 n => some n.toInt

theorem box_ty (p : Prim) : (box p).ty = p.ty := by cases p <;> rfl

theorem rt64 (b : Boxed) (d : UInt64) : UInt64.ofNat (load (store b 8 d.toNat) 8) = d := by
  rw [load_store, Nat.mod_eq_of_lt (by have := d.toNat_lt; omega), UInt64.ofNat_toNat]
theorem rt32 (b : Boxed) (d : UInt32) : UInt32.ofNat (load (store b 4 d.toNat) 4) = d := by
  rw [load_store, Nat.mod_eq_of_lt (by have := d.toNat_lt; omega), UInt32.ofNat_toNat]
theorem rt16 (b : Boxed) (d : UInt16) : UInt16.ofNat (load (store b 2 d.toNat) 2) = d := by
  rw [load_store, Nat.mod_eq_of_lt (by have := d.toNat_lt; omega), UInt16.ofNat_toNat]
theorem rt8 (b : Boxed) (d : UInt8) : UInt8.ofNat (load (store b 1 d.toNat) 1) = d := by
  rw [load_store, Nat.mod_eq_of_lt (by have := d.toNat_lt; omega), UInt8.ofNat_toNat]

end Verif.Boxed

namespace Verif.Boxed.Props

open Verif.Json (Byte ascii)

/-- **C43**: reading a boxed value with its own type gives the value, with any other type the program is
stopped. -/
theorem C43_roundtrip (p : Prim) (t : Ty) : unbox t (box p) = if p.ty = t then .ok p else .segv := by
  by_cases h : p.ty = t
  · subst h
    rw [if_pos rfl]
    cases p <;>
      simp only [unbox, box, Prim.ty, toDouble, fromDouble, toFloat, fromFloat, toU64, fromU64, toU32, fromU32, toU16,
        fromU16, toU8, fromU8, toI64, fromI64, toI32, fromI32, toI16, fromI16, toI8, fromI8, store_ty, mkHeader_ty,
        rt64, rt32, rt16, rt8, if_true, Res.map_ok', Int64.toInt64_toUInt64, Int32.toInt32_toUInt32,
        Int16.toInt16_toUInt16, Int8.toInt8_toUInt8]
  · rw [if_neg h]
    have hb : (box p).ty ≠ t := by rw [box_ty]; exact h
    cases t <;> simp [unbox, toDouble, toFloat, toU64, toU32, toU16, toU8, toI64, toI32, toI16, toI8, hb, Res.map]

example : unbox .i16 (box (.i16 (-2))) = .ok (.i16 (-2)) ∧ unbox .u16 (box (.i16 (-2))) = .segv ∧
    (box (.i16 (-2))).bytes = [254, 255, 0, 0, 0, 0, 0, 0] :=
  ⟨C43_roundtrip _ _, C43_roundtrip _ _, by decide⟩

/-- the text given to `snprintf` -/
theorem text_box (fmt : Fmt) (p : Prim) :
    text fmt (box p) = match p with
      | .f64 d => fmt.lg d
      | .f32 d => fmt.g d
      | p => ascii ((p.int?.getD 0).repr) := by
  cases p <;>
    simp only [text, box, fromDouble, fromFloat, fromU64, fromU32, fromU16, fromU8, fromI64, fromI32, fromI16, fromI8,
      store_ty, mkHeader_ty, rt64, rt32, rt16, rt8, Prim.int?, Option.getD_some, ← Json.intText_repr,
      Int64.toInt64_toUInt64, Int32.toInt32_toUInt32, Int16.toInt16_toUInt16, Int8.toInt8_toUInt8]
  all_goals
    rename_i n
    rw [load_store, Nat.mod_eq_of_lt (by have := n.toNat_lt; omega), Json.intText, if_neg (by omega)]
    simp

/-- the result for a text that is not empty -/
theorem snprint_text (fmt : Fmt) (x : Boxed) (t : List Byte) (ht : text fmt x = t) (hp : t ≠ []) (buf : List Byte)
    (size : Nat) (hs : size ≤ buf.length) :
    ∃ out, snprint fmt buf size x = .ok (out, t.length) ∧ (size = 0 → out = buf) ∧
      (0 < size → out = t.take (size - 1) ++ 0 :: buf.drop (min size (t.length + 1))) := by
  have hp : 0 < t.length := List.length_pos_iff.mpr hp
  rw [snprint, ht, Json.snprintfAt]
  by_cases h0 : size = 0
  · rw [if_pos h0, Res.bind_ok, if_pos hp]
    exact ⟨buf, rfl, fun _ => rfl, fun h => by omega⟩
  · rw [if_neg h0]
    have hlen : (t.take (size - 1) ++ [0]).length = min size (t.length + 1) := by
      simp; omega
    have := Json.wrBs_ok (t.take (size - 1) ++ [0]) [] buf (by rw [hlen]; omega)
    rw [List.nil_append, List.length_nil, hlen, List.nil_append] at this
    rw [this, Res.bind_ok, if_pos hp]
    exact ⟨_, rfl, fun h => absurd h h0, fun _ => by simp⟩

/-- **C71**: for an integer `cee_boxed_snprint` returns the length of its decimal representation and writes
that, cut to the size with a NUL behind it, and nothing else; with size 0 nothing is written. -/
theorem C71_snprint (fmt : Fmt) (p : Prim) (n : Int) (hn : p.int? = some n) (buf : List Byte) (size : Nat)
    (hs : size ≤ buf.length) :
    ∃ out, snprint fmt buf size (box p) = .ok (out, n.repr.length) ∧
      (size = 0 → out = buf) ∧
      (0 < size → out = (ascii n.repr).take (size - 1) ++ 0 :: buf.drop (min size (n.repr.length + 1))) := by
  have ht : text fmt (box p) = ascii n.repr := by
    rw [text_box]; cases p <;> simp [Prim.int?] at hn <;> simp [Prim.int?, hn]
  have hl : (ascii n.repr).length = n.repr.length := by rw [ascii, List.length_map, String.length_toList]
  rw [← hl]
  refine snprint_text fmt _ _ ht ?_ buf size hs
  rw [← Json.intText_repr]
  unfold Json.intText
  split
  · simp
  · exact Json.dec_ne_nil _

/-- **C71** for floating point numbers, whatever the library prints (it prints something) -/
theorem C71_float (fmt : Fmt) (buf : List Byte) (size : Nat) (hs : size ≤ buf.length) (d : UInt64) (f : UInt32)
    (hd : fmt.lg d ≠ []) (hf : fmt.g f ≠ []) :
    (∃ out, snprint fmt buf size (box (.f64 d)) = .ok (out, (fmt.lg d).length) ∧ (size = 0 → out = buf) ∧
      (0 < size → out = (fmt.lg d).take (size - 1) ++ 0 :: buf.drop (min size ((fmt.lg d).length + 1)))) ∧
    (∃ out, snprint fmt buf size (box (.f32 f)) = .ok (out, (fmt.g f).length) ∧ (size = 0 → out = buf) ∧
      (0 < size → out = (fmt.g f).take (size - 1) ++ 0 :: buf.drop (min size ((fmt.g f).length + 1)))) :=
  ⟨snprint_text fmt _ _ (text_box fmt (.f64 d)) hd buf size hs,
    snprint_text fmt _ _ (text_box fmt (.f32 f)) hf buf size hs⟩

/-- a buffer of four bytes, size 3: `-1` of `-128` and a NUL; the length returned is 4 -/
example (fmt : Fmt) : snprint fmt [9, 9, 9, 9] 3 (box (.i8 (-128))) = .ok ([45, 49, 0, 9], 4) := by
  obtain ⟨out, h, -, ho⟩ := C71_snprint fmt (.i8 (-128)) (-128) (by decide) [9, 9, 9, 9] 3 (by decide)
  rw [h, ho (by decide)]; decide

end Verif.Boxed.Props
