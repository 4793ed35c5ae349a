/-!
# Outcomes of C code

`Res α` is the outcome of running a piece of C: a normal result, undefined behaviour
(out-of-bounds access, NULL dereference, use after free, double free, ...), or a deliberate
crash through `cee_segfault()` (cee.h:756-758).
-/

namespace Verif

/-- Outcome of a C computation.  `ub` is undefined behaviour, `segv` is a call of the macro
`cee_segfault()` (cee.h:756-758). -/
inductive Res (α : Type u) where
  | ok (a : α)
  | ub
  | segv
  deriving DecidableEq, Repr

namespace Res

@[inline] def bind (x : Res α) (f : α → Res β) : Res β :=
  match x with
  | ok a => f a
  | ub => ub
  | segv => segv

@[inline] def map (f : α → β) (x : Res α) : Res β :=
  match x with
  | ok a => ok (f a)
  | ub => ub
  | segv => segv

instance : Monad Res where
  pure := ok
  bind := bind

@[simp] theorem pure_eq (a : α) : (pure a : Res α) = ok a := rfl
@[simp] theorem ok_bind (a : α) (f : α → Res β) : (ok a >>= f) = f a := rfl
@[simp] theorem ub_bind (f : α → Res β) : ((ub : Res α) >>= f) = ub := rfl
@[simp] theorem segv_bind (f : α → Res β) : ((segv : Res α) >>= f) = segv := rfl
@[simp] theorem map_ok (f : α → β) (a : α) : (f <$> (ok a : Res α)) = ok (f a) := rfl

theorem bind_ok (a : α) (f : α → Res β) : Res.bind (ok a) f = f a := rfl
theorem map_ok' (f : α → β) (a : α) : Res.map f (ok a) = ok (f a) := rfl

/-- the computation ended normally -/
def isOk : Res α → Bool
  | ok _ => true
  | _ => false

theorem bind_eq_ok {x : Res α} {f : α → Res β} {b : β} :
    (x >>= f) = ok b ↔ ∃ a, x = ok a ∧ f a = ok b := by
  cases x <;> simp

end Res

end Verif

namespace Verif

/-- `enum cee_del_policy` (cee.h:71-75). -/
inductive Policy where
  | rc | del | noop
  deriving DecidableEq, Repr

/-- `x --` on a 64-bit unsigned number. -/
@[irreducible] def decr64 (n : Nat) : Nat := if n = 0 then 18446744073709551615 else n - 1

/-- `x ++` on a 64-bit unsigned number. -/
@[irreducible] def incr64 (n : Nat) : Nat := if n = 18446744073709551615 then 0 else n + 1

/-- `x + y` on 64-bit unsigned numbers. -/
@[irreducible] def add64 (x y : Nat) : Nat := (x + y) % 18446744073709551616

/-- `x * y` on 64-bit unsigned numbers. -/
@[irreducible] def mul64 (x y : Nat) : Nat := (x * y) % 18446744073709551616

theorem add64_small {x y : Nat} (h : x + y < 2 ^ 64) : add64 x y = x + y := by
  unfold add64; exact Nat.mod_eq_of_lt (by omega)

theorem mul64_small {x y : Nat} (h : x * y < 2 ^ 64) : mul64 x y = x * y := by
  unfold mul64; exact Nat.mod_eq_of_lt (by omega)

theorem add64_mod_two_pow (x y : Nat) {k : Nat} (hk : k ≤ 64) :
    add64 x y % 2 ^ k = (x + y) % 2 ^ k := by
  unfold add64
  have : (18446744073709551616 : Nat) = 2 ^ 64 := by decide
  rw [this]
  exact Nat.mod_mod_of_dvd _ (Nat.pow_dvd_pow 2 hk)

/-- `x - y` on 64-bit unsigned numbers. -/
@[irreducible] def sub64 (x y : Nat) : Nat := if y ≤ x then x - y else x + 18446744073709551616 - y

theorem decr64_succ (n : Nat) : decr64 (n + 1) = n := by unfold decr64; simp

theorem incr64_decr64 {n : Nat} (h : n < 2 ^ 64) : incr64 (decr64 n) = n := by
  unfold incr64 decr64
  split <;> split <;> omega

theorem decr64_incr64 {n : Nat} (h : n < 2 ^ 64) : decr64 (incr64 n) = n := by
  unfold incr64 decr64
  split <;> split <;> omega

theorem sub64_le {x y : Nat} (h : y ≤ x) : sub64 x y = x - y := by
  unfold sub64; simp [h]

/-- Conversion of a C `int` to an unsigned 64-bit number. -/
@[irreducible] def toU64 (i : Int) : Nat := (i % 18446744073709551616).toNat

theorem toU64_nonneg {i : Int} (h0 : 0 ≤ i) (h : i < 2 ^ 63) : toU64 i = i.toNat := by
  unfold toU64
  rw [Int.emod_eq_of_lt h0 (by omega)]

theorem toU64_neg {i : Int} (h0 : i < 0) (h : -2 ^ 31 ≤ i) : 2 ^ 63 ≤ toU64 i := by
  unfold toU64
  have : i % 18446744073709551616 = i + 18446744073709551616 := by omega
  omega

/-- Conversion of a (non-negative) 64-bit value to C `int` (implementation-defined wrap-around on
the platforms in question). -/
@[irreducible] def cInt (n : Nat) : Int := Int.bmod n (2 ^ 32)

theorem cInt_small {n : Nat} (h : n < 2 ^ 31) : cInt n = n := by
  unfold cInt
  rw [Int.bmod_eq_of_le] <;> omega

end Verif
