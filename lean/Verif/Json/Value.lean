import Verif.Json.Unescape

/-!
# JSON values (cee-json/cee-json.h:19-50)

A value is a finite tree.  An object is the list of its entries in insertion order, with distinct keys
(that is what C01 and C02 prove about `cee_map`, which is what an object is); an array is the list of its
elements.  Sharing between subtrees is left out here: printing and parsing do not modify values.
Doubles are their 64-bit representation; what `printf("%lg")` and `strtod` do with them is a parameter
(`Libc`).
-/

namespace Verif.Json

/-- the values that are no containers (`enum cee_json_type`, cee-json.h:19-31) -/
inductive Atom where
  | undef
  | null
  | bool (b : Bool)
  /-- a double, by its bits -/
  | dbl (bits : UInt64)
  | i64 (n : Int)
  | u64 (n : Nat)
  /-- a `cee_str`, the bytes before the NUL -/
  | str (s : List Byte)
  /-- a buffer with a length -/
  | strn (s : List Byte)
  /-- a blob of the given size; its bytes are never printed -/
  | blob (size : Nat)
  deriving DecidableEq, Repr

/-- `struct cee_json` (cee-json.h:33-48) -/
inductive Val where
  | atom (a : Atom)
  | arr (xs : List Val)
  | obj (kvs : List (List Byte × Val))
  deriving Repr

/-- induction over values -/
theorem Val.ind {P : Val → Prop} (h0 : ∀ a, P (.atom a)) (ha : ∀ xs, (∀ x ∈ xs, P x) → P (.arr xs))
    (ho : ∀ kvs, (∀ kv ∈ kvs, P kv.2) → P (.obj kvs)) (v : Val) : P v := by
  refine Val.rec (motive_1 := P) (motive_2 := fun xs => ∀ x ∈ xs, P x)
    (motive_3 := fun xs => ∀ x ∈ xs, P x.2) (motive_4 := fun x => P x.2) h0 ?_ ?_ ?_ ?_ ?_ ?_ ?_ v
  · intro xs h; exact ha xs h
  · intro xs h; exact ho xs h
  · simp
  · intro x xs h1 h2; simpa using ⟨h1, h2⟩
  · simp
  · intro x xs h1 h2; rw [List.forall_mem_cons]; exact ⟨h1, h2⟩
  · intro k v h; exact h

mutual
/-- number of values nested into one another, counting the atoms -/
def Val.height : Val → Nat
  | .atom _ => 1
  | .arr xs => 1 + heightL xs
  | .obj kvs => 1 + heightF kvs
/-- the highest element -/
def heightL : List Val → Nat
  | [] => 0
  | x :: xs => max x.height (heightL xs)
/-- the highest entry -/
def heightF : List (List Byte × Val) → Nat
  | [] => 0
  | (_, x) :: xs => max x.height (heightF xs)
end

theorem heightL_mem {xs : List Val} {x : Val} (h : x ∈ xs) : x.height ≤ heightL xs := by
  induction xs with
  | nil => simp at h
  | cons y ys ih =>
    rw [heightL]
    rcases List.mem_cons.1 h with rfl | h
    · omega
    · have := ih h; omega

theorem heightF_mem {xs : List (List Byte × Val)} {x : List Byte × Val} (h : x ∈ xs) :
    x.2.height ≤ heightF xs := by
  induction xs with
  | nil => simp at h
  | cons y ys ih =>
    obtain ⟨k, y⟩ := y
    rw [heightF]
    rcases List.mem_cons.1 h with rfl | h
    · simp only; omega
    · have := ih h; omega

theorem Val.height_pos (v : Val) : 1 ≤ v.height := by
  cases v <;> rw [Val.height] <;> omega

/-- the C library functions that turn doubles into text and back; nothing is assumed of their results
except that the text is not empty and has no NUL in it -/
class Libc where
  /-- the text `printf("%lg")` gives (boxed.c:240-242) -/
  lg : UInt64 → List Byte
  lg_ne (d : UInt64) : lg d ≠ []
  lg_nul (d : UInt64) : 0 ∉ lg d
  /-- `strtod` on a text that consists of exactly one number (tokenizer.c:437) -/
  strtod : List Byte → UInt64

/-- the digits `printf` writes for an unsigned number in base ten -/
def dec (n : Nat) : List Byte :=
  if n < 10 then [UInt8.ofNat (48 + n)] else dec (n / 10) ++ [UInt8.ofNat (48 + n % 10)]
termination_by n
decreasing_by omega

/-- `%d` and `PRId64` -/
def intText (i : Int) : List Byte := if i < 0 then 45 :: dec (-i).toNat else dec i.toNat

end Verif.Json
