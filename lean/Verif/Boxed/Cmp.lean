import Verif.Boxed.Props

/-!
# Comparing boxed primitives (boxed.c:36-226)

The functions are stored in the boxes (`cs.cmp`, cee.h:99); `cee_cmp`, which is to call them, is declared (cee.h:695) and nowhere defined.
They take values, not boxes.  `cee_boxed_from_u64` (boxed.c:106-111) does not store its function; where the functions are stored is not
part of this model.  `double` and `float` are those of IEEE 754 with 11 and 8 bits for the exponent, 52 and 23 for the mantissa.
-/

namespace Verif.Boxed

/-- the exponent field of a floating point number with `eb` bits for it and `mb` for the mantissa -/
def expo (eb mb bits : Nat) : Nat := bits / 2 ^ mb % 2 ^ eb
/-- the mantissa field -/
def mant (mb bits : Nat) : Nat := bits % 2 ^ mb
/-- the sign bit -/
def neg (eb mb bits : Nat) : Bool := bits / 2 ^ mb / 2 ^ eb % 2 == 1
/-- not a number -/
def nan (eb mb bits : Nat) : Bool := expo eb mb bits == 2 ^ eb - 1 && mant mb bits != 0
/-- the absolute value in units of the least positive number; infinity is greater than all others -/
def mag (mb e m : Nat) : Nat := if e = 0 then m else (2 ^ mb + m) * 2 ^ (e - 1)
/-- the value in these units -/
def scaled (eb mb bits : Nat) : Int :=
  if neg eb mb bits then -(mag mb (expo eb mb bits) (mant mb bits) : Int) else mag mb (expo eb mb bits) (mant mb bits)

/-- `==` of C -/
def feq (eb mb a b : Nat) : Bool := !nan eb mb a && !nan eb mb b && scaled eb mb a == scaled eb mb b
/-- `>` of C -/
def fgt (eb mb a b : Nat) : Bool := !nan eb mb a && !nan eb mb b && decide (scaled eb mb b < scaled eb mb a)

/-- `S(cmp_double)` (boxed.c:63-70) -/
def cmpDouble (a b : UInt64) : Int := if feq 11 52 a.toNat b.toNat then 0 else if fgt 11 52 a.toNat b.toNat then 1 else -1
/-- `S(cmp_float)` (boxed.c:80-87) -/
def cmpFloat (a b : UInt32) : Int := if feq 8 23 a.toNat b.toNat then 0 else if fgt 8 23 a.toNat b.toNat then 1 else -1
/-- `S(cmp_u64)` (boxed.c:97-104) -/
def cmpU64 (a b : UInt64) : Int := if a = b then 0 else if a > b then 1 else -1
/-- `S(cmp_u32)` (boxed.c:113-120) -/
def cmpU32 (a b : UInt32) : Int := if a = b then 0 else if a > b then 1 else -1
/-- `S(cmp_u16)` (boxed.c:131-138) -/
def cmpU16 (a b : UInt16) : Int := if a = b then 0 else if a > b then 1 else -1
/-- `S(cmp_u8)` (boxed.c:149-156) -/
def cmpU8 (a b : UInt8) : Int := if a = b then 0 else if a > b then 1 else -1
/-- `S(cmp_i64)` (boxed.c:167-174) -/
def cmpI64 (a b : Int64) : Int := if a = b then 0 else if a > b then 1 else -1
/-- `S(cmp_i32)` (boxed.c:184-191) -/
def cmpI32 (a b : Int32) : Int := if a = b then 0 else if a > b then 1 else -1
/-- `S(cmp_i16)` (boxed.c:201-208) -/
def cmpI16 (a b : Int16) : Int := if a = b then 0 else if a > b then 1 else -1
/-- `S(cmp_i8)` (boxed.c:218-225) -/
def cmpI8 (a b : Int8) : Int := if a = b then 0 else if a > b then 1 else -1

/-- the function for the type of both values; there is none for values of two types -/
def cmpPrim : Prim → Prim → Option Int
  | .f64 a, .f64 b => some (cmpDouble a b) | .f32 a, .f32 b => some (cmpFloat a b)
  | .u64 a, .u64 b => some (cmpU64 a b) | .u32 a, .u32 b => some (cmpU32 a b)
  | .u16 a, .u16 b => some (cmpU16 a b) | .u8 a, .u8 b => some (cmpU8 a b)
  | .i64 a, .i64 b => some (cmpI64 a b) | .i32 a, .i32 b => some (cmpI32 a b)
  | .i16 a, .i16 b => some (cmpI16 a b) | .i8 a, .i8 b => some (cmpI8 a b)
  | _, _ => none

/-- the number that a value is, for `double` and `float` in units of the least positive number; none if it is not a number -/
def Prim.num? : Prim → Option Int
  | .f64 d => if nan 11 52 d.toNat then none else some (scaled 11 52 d.toNat)
  | .f32 d => if nan 8 23 d.toNat then none else some (scaled 8 23 d.toNat)
  | p => p.int?

theorem sign_cmp (x y : Int) : (if x = y then 0 else if y < x then 1 else -1) = (x - y).sign := by
  rcases Int.lt_trichotomy x y with h | h | h
  · rw [if_neg (by omega), if_neg (by omega), Int.sign_eq_neg_one_of_neg (by omega)]
  · rw [if_pos h, h, Int.sub_self]; rfl
  · rw [if_neg (by omega), if_pos h, Int.sign_eq_one_of_pos (by omega)]

theorem sign_float {eb mb a b : Nat} (ha : nan eb mb a = false) (hb : nan eb mb b = false) :
    (if feq eb mb a b then (0 : Int) else if fgt eb mb a b then 1 else -1) = (scaled eb mb a - scaled eb mb b).sign := by
  rw [← sign_cmp]
  simp [feq, fgt, ha, hb]

/-! ## equal values of floating point numbers -/

theorem mag_lt {mb e e' m m' : Nat} (h : e < e') (hm : m < 2 ^ mb) : mag mb e m < mag mb e' m' := by
  rw [mag, mag, if_neg (by omega : ¬ e' = 0)]
  have hp : 1 ≤ 2 ^ (e' - 1) := Nat.one_le_two_pow
  have h2 : 2 ^ mb * 2 ^ (e' - 1) ≤ (2 ^ mb + m') * 2 ^ (e' - 1) := Nat.mul_le_mul_right _ (Nat.le_add_right _ _)
  split
  · have := Nat.mul_le_mul_left (2 ^ mb) hp
    omega
  · have h3 : (2 ^ mb + m) * 2 ^ (e - 1) < (2 ^ mb + 2 ^ mb) * 2 ^ (e - 1) := Nat.mul_lt_mul_of_pos_right (by omega) Nat.one_le_two_pow
    have h4 : (2 ^ mb + 2 ^ mb) * 2 ^ (e - 1) = 2 ^ mb * 2 ^ e := by
      rw [← Nat.mul_two, Nat.mul_assoc, Nat.mul_comm 2, ← Nat.pow_succ, Nat.succ_eq_add_one, Nat.sub_add_cancel (by omega)]
    have h5 : 2 ^ mb * 2 ^ e ≤ 2 ^ mb * 2 ^ (e' - 1) := Nat.mul_le_mul_left _ (Nat.pow_le_pow_right (by omega) (by omega))
    omega

theorem mag_inj {mb e e' m m' : Nat} (hm : m < 2 ^ mb) (hm' : m' < 2 ^ mb) (h : mag mb e m = mag mb e' m') : e = e' ∧ m = m' := by
  rcases Nat.lt_trichotomy e e' with h1 | h1 | h1
  · have := mag_lt (m' := m') h1 hm
    omega
  · subst h1
    refine ⟨rfl, ?_⟩
    rw [mag, mag] at h
    split at h
    · exact h
    · have := Nat.eq_of_mul_eq_mul_right (Nat.two_pow_pos (e - 1)) h
      omega
  · have := mag_lt (m' := m) h1 hm'
    omega

/-- the fields of a number -/
theorem fields_eq {eb mb a b : Nat} (ha : a < 2 ^ (1 + eb + mb)) (hb : b < 2 ^ (1 + eb + mb)) (hs : neg eb mb a = neg eb mb b)
    (he : expo eb mb a = expo eb mb b) (hm : mant mb a = mant mb b) : a = b := by
  have hq : ∀ {c : Nat}, c < 2 ^ (1 + eb + mb) → c / 2 ^ mb / 2 ^ eb < 2 := fun {c} hc => by
    rw [Nat.div_div_eq_div_mul, Nat.div_lt_iff_lt_mul (Nat.mul_pos (Nat.two_pow_pos _) (Nat.two_pow_pos _))]
    rw [Nat.pow_add, Nat.pow_add, Nat.pow_one, Nat.mul_assoc, Nat.mul_comm (2 ^ eb)] at hc
    exact hc
  have h1 : a / 2 ^ mb / 2 ^ eb = b / 2 ^ mb / 2 ^ eb := by
    have h1 := hq ha
    have h2 := hq hb
    rw [neg, neg, Nat.mod_eq_of_lt h1, Nat.mod_eq_of_lt h2, Bool.eq_iff_iff] at hs
    simp only [beq_iff_eq] at hs
    generalize a / 2 ^ mb / 2 ^ eb = x at *
    generalize b / 2 ^ mb / 2 ^ eb = y at *
    omega
  have h2 : a / 2 ^ mb = b / 2 ^ mb := by
    rw [← Nat.div_add_mod (a / 2 ^ mb) (2 ^ eb), ← Nat.div_add_mod (b / 2 ^ mb) (2 ^ eb), h1]
    rw [expo, expo] at he
    rw [he]
  rw [← Nat.div_add_mod a (2 ^ mb), ← Nat.div_add_mod b (2 ^ mb), h2]
  rw [mant, mant] at hm
  rw [hm]

/-- numbers of the same value have the same bits, unless both are zero, of which there are two -/
theorem scaled_inj {eb mb a b : Nat} (ha : a < 2 ^ (1 + eb + mb)) (hb : b < 2 ^ (1 + eb + mb)) :
    scaled eb mb a = scaled eb mb b ↔ a = b ∨ scaled eb mb a = 0 ∧ scaled eb mb b = 0 := by
  constructor
  · intro h
    have la : mant mb a < 2 ^ mb := Nat.mod_lt _ (Nat.two_pow_pos mb)
    have lb : mant mb b < 2 ^ mb := Nat.mod_lt _ (Nat.two_pow_pos mb)
    by_cases hs : neg eb mb a = neg eb mb b
    · left
      have : mag mb (expo eb mb a) (mant mb a) = mag mb (expo eb mb b) (mant mb b) := by
        rw [scaled, scaled, hs] at h
        split at h <;> omega
      obtain ⟨h1, h2⟩ := mag_inj la lb this
      exact fields_eq ha hb hs h1 h2
    · right
      have key : ∀ c, scaled eb mb c = -(mag mb (expo eb mb c) (mant mb c) : Int) ∧ neg eb mb c = true ∨
          scaled eb mb c = mag mb (expo eb mb c) (mant mb c) ∧ neg eb mb c = false := fun c => by
        cases hc : neg eb mb c <;> simp [scaled, hc]
      rcases key a with ⟨h1, h2⟩ | ⟨h1, h2⟩ <;> rcases key b with ⟨h3, h4⟩ | ⟨h3, h4⟩
      · exact absurd (h2.trans h4.symm) hs
      · omega
      · omega
      · exact absurd (h2.trans h4.symm) hs
  · rintro (rfl | ⟨h1, h2⟩)
    · rfl
    · rw [h1, h2]

namespace Props

/-- **C138**: on numbers of the same type, the comparison functions give the sign of the difference -/
theorem C138_order {p q : Prim} (ht : p.ty = q.ty) {a b : Int} (ha : p.num? = some a) (hb : q.num? = some b) :
    cmpPrim p q = some (a - b).sign := by
  cases p <;> cases q <;> first | cases ht | skip
  · simp only [Prim.num?] at ha hb
    split at ha
    · cases ha
    · split at hb
      · cases hb
      · next h1 h2 =>
        cases ha; cases hb
        exact congrArg some (sign_float (by simpa using h1) (by simpa using h2))
  · simp only [Prim.num?] at ha hb
    split at ha
    · cases ha
    · split at hb
      · cases hb
      · next h1 h2 =>
        cases ha; cases hb
        exact congrArg some (sign_float (by simpa using h1) (by simpa using h2))
  · cases ha; cases hb
    rw [cmpPrim, cmpU64, ← sign_cmp]
    simp only [Int.natCast_inj, Int.ofNat_lt, UInt64.toNat_inj, gt_iff_lt, UInt64.lt_iff_toNat_lt]
  · cases ha; cases hb
    rw [cmpPrim, cmpU32, ← sign_cmp]
    simp only [Int.natCast_inj, Int.ofNat_lt, UInt32.toNat_inj, gt_iff_lt, UInt32.lt_iff_toNat_lt]
  · cases ha; cases hb
    rw [cmpPrim, cmpU16, ← sign_cmp]
    simp only [Int.natCast_inj, Int.ofNat_lt, UInt16.toNat_inj, gt_iff_lt, UInt16.lt_iff_toNat_lt]
  · cases ha; cases hb
    rw [cmpPrim, cmpU8, ← sign_cmp]
    simp only [Int.natCast_inj, Int.ofNat_lt, UInt8.toNat_inj, gt_iff_lt, UInt8.lt_iff_toNat_lt]
  · cases ha; cases hb
    rw [cmpPrim, cmpI64, ← sign_cmp]
    simp only [Int64.toInt_inj, gt_iff_lt, Int64.lt_iff_toInt_lt]
  · cases ha; cases hb
    rw [cmpPrim, cmpI32, ← sign_cmp]
    simp only [Int32.toInt_inj, gt_iff_lt, Int32.lt_iff_toInt_lt]
  · cases ha; cases hb
    rw [cmpPrim, cmpI16, ← sign_cmp]
    simp only [Int16.toInt_inj, gt_iff_lt, Int16.lt_iff_toInt_lt]
  · cases ha; cases hb
    rw [cmpPrim, cmpI8, ← sign_cmp]
    simp only [Int8.toInt_inj, gt_iff_lt, Int8.lt_iff_toInt_lt]

/-- **C138**: the result is 0 for values that are the same, and for the two zeros of floating point numbers, and for no others -/
theorem C138_equal {p q : Prim} (ht : p.ty = q.ty) {a b : Int} (ha : p.num? = some a) (hb : q.num? = some b) :
    cmpPrim p q = some 0 ↔ p = q ∨ (p.ty = .f64 ∨ p.ty = .f32) ∧ a = 0 ∧ b = 0 := by
  rw [C138_order ht ha hb, Option.some_inj, Int.sign_eq_zero_iff_zero, Int.sub_eq_zero]
  cases p <;> cases q <;> first | cases ht | skip
  · simp only [Prim.num?] at ha hb
    split at ha
    · cases ha
    · split at hb
      · cases hb
      · next x y _ _ =>
        cases ha; cases hb
        rw [scaled_inj (eb := 11) (mb := 52) x.toNat_lt y.toNat_lt]
        simp [Prim.ty, UInt64.toNat_inj]
  · simp only [Prim.num?] at ha hb
    split at ha
    · cases ha
    · split at hb
      · cases hb
      · next x y _ _ =>
        cases ha; cases hb
        rw [scaled_inj (eb := 8) (mb := 23) x.toNat_lt y.toNat_lt]
        simp [Prim.ty, UInt32.toNat_inj]
  · cases ha; cases hb; simp [Prim.ty, Int.natCast_inj, UInt64.toNat_inj]
  · cases ha; cases hb; simp [Prim.ty, Int.natCast_inj, UInt32.toNat_inj]
  · cases ha; cases hb; simp [Prim.ty, Int.natCast_inj, UInt16.toNat_inj]
  · cases ha; cases hb; simp [Prim.ty, Int.natCast_inj, UInt8.toNat_inj]
  · cases ha; cases hb; simp [Prim.ty, Int64.toInt_inj]
  · cases ha; cases hb; simp [Prim.ty, Int32.toInt_inj]
  · cases ha; cases hb; simp [Prim.ty, Int16.toInt_inj]
  · cases ha; cases hb; simp [Prim.ty, Int8.toInt_inj]

/-- **C138**: numbers of the same type are totally ordered: the result in the other order is the opposite, and less is transitive -/
theorem C138_laws {p q r : Prim} (h1 : p.ty = q.ty) (h2 : q.ty = r.ty) (hp : p.num?.isSome) (hq : q.num?.isSome) (hr : r.num?.isSome) :
    cmpPrim q p = (cmpPrim p q).map (-·) ∧ (cmpPrim p q = some (-1) → cmpPrim q r = some (-1) → cmpPrim p r = some (-1)) ∧
      (cmpPrim p q = some 0 → cmpPrim p r = cmpPrim q r) := by
  obtain ⟨a, ha⟩ := Option.isSome_iff_exists.1 hp
  obtain ⟨b, hb⟩ := Option.isSome_iff_exists.1 hq
  obtain ⟨c, hc⟩ := Option.isSome_iff_exists.1 hr
  rw [C138_order h1 ha hb, C138_order h1.symm hb ha, C138_order h2 hb hc, C138_order (h1.trans h2) ha hc]
  simp only [Option.map_some, Option.some_inj, Int.sign_eq_neg_one_iff_neg, Int.sign_eq_zero_iff_zero]
  refine ⟨by rw [← Int.sign_neg, Int.neg_sub], fun _ _ => by omega, fun h => by rw [show a = b by omega]⟩

/-- **C138** is false with NaN: whatever it is compared with, in either order, the first is less; even with itself -/
theorem C138_nan_false {p q : Prim} (ht : p.ty = q.ty) (h : p.num? = none) : cmpPrim p q = some (-1) ∧ cmpPrim q p = some (-1) := by
  cases p with
  | f64 d => cases q with
    | f64 d' =>
      have hn : nan 11 52 d.toNat = true := by
        simp only [Prim.num?] at h
        split at h
        · assumption
        · cases h
      simp [cmpPrim, cmpDouble, feq, fgt, hn]
    | _ => cases ht
  | f32 d => cases q with
    | f32 d' =>
      have hn : nan 8 23 d.toNat = true := by
        simp only [Prim.num?] at h
        split at h
        · assumption
        · cases h
      simp [cmpPrim, cmpFloat, feq, fgt, hn]
    | _ => cases ht
  | _ => simp [Prim.num?, Prim.int?] at h

/-- the hypotheses of `C138_order` are met by -1 and 1 as `int8_t`, of which the first is less (as `uint8_t` it is 255) -/
example : cmpPrim (.i8 (-1)) (.i8 1) = some (-1) :=
  (C138_order (p := .i8 (-1)) (q := .i8 1) rfl (a := -1) (b := 1) (by decide) (by decide)).trans (by decide)

/-- and by -1.5 and 1.0 as `float` -/
example : cmpPrim (.f32 0xBFC00000) (.f32 0x3F800000) = some (-1) := by
  obtain ⟨a, ha, ha'⟩ : ∃ a, (Prim.f32 0xBFC00000).num? = some a ∧ a < 0 := ⟨_, rfl, by decide +kernel⟩
  obtain ⟨b, hb, hb'⟩ : ∃ b, (Prim.f32 0x3F800000).num? = some b ∧ 0 < b := ⟨_, rfl, by decide +kernel⟩
  rw [C138_order (p := .f32 0xBFC00000) (q := .f32 0x3F800000) rfl ha hb, Int.sign_eq_neg_one_of_neg (by omega)]

/-- the hypotheses of `C138_laws` are met by three numbers of type `uint64_t` -/
example (x y z : UInt64) (h : cmpPrim (.u64 x) (.u64 y) = some (-1)) (h' : cmpPrim (.u64 y) (.u64 z) = some (-1)) :
    cmpPrim (.u64 x) (.u64 z) = some (-1) :=
  (C138_laws (p := .u64 x) (q := .u64 y) (r := .u64 z) rfl rfl rfl rfl rfl).2.1 h h'

/-- the two zeros are equal though their bits are not -/
example : cmpPrim (.f32 0x80000000) (.f32 0) = some 0 :=
  (C138_equal (p := .f32 0x80000000) (q := .f32 0) rfl (a := 0) (b := 0) (by decide +kernel) (by decide +kernel)).2 (.inr ⟨.inr rfl, rfl, rfl⟩)

/-- the hypotheses of `C138_nan_false` are met by a NaN, which is less than itself -/
example : cmpPrim (.f64 0x7FF8000000000000) (.f64 0x7FF8000000000000) = some (-1) := (C138_nan_false rfl (by decide +kernel)).1

end Props
end Verif.Boxed
