import Verif.Base

/-!
# Model of `strview.c`

A view is an array of bytes (`mem`, the object its pointer points into), the offset of the pointer and
a count.  Reads are checked against the array; a pointer beyond one past the end of the array is
undefined.  `isspace`/`isdigit` are those of glibc in the "C" locale (defined for negative `char`s
too).  NULL views are not modelled.
-/

namespace Verif.Strview

abbrev Byte := UInt8

/-- `String_View` (strview.c:35-38) -/
structure View where
  mem : List Byte
  data : Nat
  count : Nat
  deriving DecidableEq, Repr

/-- `sv.data[i]` -/
def rd (v : View) (i : Nat) : Res Byte :=
  match v.mem[v.data + i]? with
  | some b => .ok b
  | none => .ub

/-- libc `isspace`: space, \t \n \v \f \r -/
def isspace (c : Byte) : Bool := c == 32 || (9 ≤ c && c ≤ 13)

/-- libc `isdigit` -/
def isdigit (c : Byte) : Bool := 48 ≤ c && c ≤ 57

/-- `sv_from_parts(sv.data + i, n)` (strview.c:79-85): forming the pointer is defined up to one past the
end -/
def part (v : View) (i n : Nat) : Res View :=
  if v.data + i ≤ v.mem.length then .ok ⟨v.mem, v.data + i, n⟩ else .ub

/-- `sv_from_cstr` (strview.c:87-90) of the NUL terminated bytes `s` -/
def fromCstr (s : List Byte) : View := ⟨s ++ [0], 0, s.length⟩

/-- `while (i < sv.count && p(sv.data[i])) i += 1` (strview.c:95-97, 147-149, 164-166, 185-187,
303-305, 312-314), `n` iterations left -/
def scan (p : Byte → Bool) (v : View) : Nat → Nat → Res Nat
  | 0, i => .ok i
  | n + 1, i => (rd v i).bind fun b => if p b then scan p v n (i + 1) else .ok i

/-- `sv_trim_left` (strview.c:92-100) -/
def trimLeft (v : View) : Res View :=
  (scan isspace v v.count 0).bind fun i => part v i (v.count - i)

/-- the loop of `sv_trim_right` (strview.c:105-107) -/
def scanRight (v : View) : Nat → Nat → Res Nat
  | 0, i => .ok i
  | n + 1, i =>
    (rd v (v.count - 1 - i)).bind fun b => if isspace b then scanRight v n (i + 1) else .ok i

/-- `sv_trim_right` (strview.c:102-110) -/
def trimRight (v : View) : Res View :=
  (scanRight v v.count 0).bind fun i => part v 0 (v.count - i)

/-- `sv_trim` (strview.c:112-115) -/
def trim (v : View) : Res View := (trimLeft v).bind trimRight

/-- `sv_chop_left` (strview.c:117-129): the result and the remaining view -/
def chopLeft (v : View) (n : Nat) : Res (View × View) :=
  let n := if v.count < n then v.count else n
  (part v 0 n).bind fun r => (part v n (v.count - n)).map fun v' => (r, v')

/-- `sv_chop_right` (strview.c:131-142) -/
def chopRight (v : View) (n : Nat) : Res (View × View) :=
  let n := if v.count < n then v.count else n
  (part v (v.count - n) n).bind fun r => (part v 0 (v.count - n)).map fun v' => (r, v')

/-- `sv_index_of` (strview.c:144-159): `none` for `false` -/
def indexOf (v : View) (c : Byte) : Res (Option Nat) :=
  (scan (· != c) v v.count 0).map fun i => if i < v.count then some i else none

/-- `sv_try_chop_by_delim` (strview.c:161-180): on `true` the chunk and the remaining view -/
def tryChopByDelim (v : View) (d : Byte) : Res (Option (View × View)) :=
  (scan (· != d) v v.count 0).bind fun i =>
  (part v 0 i).bind fun r =>
  if i < v.count then (part v (i + 1) (v.count - (i + 1))).map fun v' => some (r, v')
  else .ok none

/-- `sv_chop_by_delim` (strview.c:182-200) -/
def chopByDelim (v : View) (d : Byte) : Res (View × View) :=
  (scan (· != d) v v.count 0).bind fun i =>
  (part v 0 i).bind fun r =>
  if i < v.count then (part v (i + 1) (v.count - (i + 1))).map fun v' => (r, v')
  else (part v i (v.count - i)).map fun v' => (r, v')

/-- `memcmp(a.data, b.data, n) == 0`: all `n` bytes must be readable -/
def memeq (a b : View) : Nat → Nat → Res Bool
  | 0, _ => .ok true
  | n + 1, i =>
    (rd a i).bind fun x => (rd b i).bind fun y => (memeq a b n (i + 1)).map fun r => x == y && r

/-- `sv_eq` (strview.c:248-255) -/
def eq (a b : View) : Res Bool := if a.count ≠ b.count then .ok false else memeq a b a.count 0

/-- the loop of `sv_chop_by_sv` (strview.c:206-211); `n` bounds the iterations -/
def chopLoop (v d : View) : Nat → Nat → Res Nat
  | 0, i => .ok i
  | n + 1, i =>
    if i + d.count < v.count then
      (part v i d.count).bind fun w =>
      (eq w d).bind fun e => if e then .ok i else chopLoop v d n (i + 1)
    else .ok i

/-- `sv_chop_by_sv` (strview.c:202-226); the count wraps around when the delimiter is longer than the
text -/
def chopBySv (v d : View) : Res (View × View) :=
  (chopLoop v d v.count 0).bind fun i =>
  (part v 0 (if i + d.count = v.count then i + d.count else i)).bind fun r =>
  (part v (i + d.count) (sub64 v.count (i + d.count))).map fun v' => (r, v')

/-- `sv_starts_with` (strview.c:228-236) -/
def startsWith (v p : View) : Res Bool :=
  if p.count ≤ v.count then (part v 0 p.count).bind fun a => eq p a else .ok false

/-- `sv_ends_with` (strview.c:238-246) -/
def endsWith (v p : View) : Res Bool :=
  if p.count ≤ v.count then (part v (v.count - p.count) p.count).bind fun a => eq p a else .ok false

/-- `'A' <= c && c <= 'Z' ? c + 32 : c` (strview.c:265-271) -/
def lower (c : Byte) : Byte := if 65 ≤ c && c ≤ 90 then c + 32 else c

/-- the loop of `sv_eq_ignorecase` (strview.c:264-274) -/
def eqLoop (a b : View) : Nat → Nat → Res Bool
  | 0, _ => .ok true
  | n + 1, i =>
    (rd a i).bind fun x => (rd b i).bind fun y =>
    if lower x = lower y then eqLoop a b n (i + 1) else .ok false

/-- `sv_eq_ignorecase` (strview.c:257-276) -/
def eqIgnorecase (a b : View) : Res Bool :=
  if a.count ≠ b.count then .ok false else eqLoop a b a.count 0

/-- the loop of `sv_to_u64` (strview.c:282-284) -/
def u64Loop (v : View) : Nat → Nat → Nat → Res Nat
  | 0, _, acc => .ok acc
  | n + 1, i, acc =>
    (rd v i).bind fun c =>
    if isdigit c then u64Loop v n (i + 1) (sub64 (add64 (mul64 acc 10) c.toNat) 48) else .ok acc

/-- `sv_to_u64` (strview.c:278-287) -/
def toU64 (v : View) : Res Nat := u64Loop v v.count 0 0

/-- `sv_chop_u64` (strview.c:289-298), `n` iterations left: the number and the remaining view -/
def chopU64Loop : Nat → View → Nat → Res (Nat × View)
  | 0, v, acc => .ok (acc, v)
  | n + 1, v, acc =>
    if 0 < v.count then
      (rd v 0).bind fun c =>
      if isdigit c then
        (part v 1 (v.count - 1)).bind fun v' =>
        chopU64Loop n v' (sub64 (add64 (mul64 acc 10) c.toNat) 48)
      else .ok (acc, v)
    else .ok (acc, v)

/-- `sv_chop_u64` (strview.c:289-298) -/
def chopU64 (v : View) : Res (Nat × View) := chopU64Loop (v.count + 1) v 0

/-- `sv_chop_left_while` (strview.c:300-307) -/
def chopLeftWhile (v : View) (p : Byte → Bool) : Res (View × View) :=
  (scan p v v.count 0).bind fun i => chopLeft v i

/-- `sv_take_left_while` (strview.c:309-316) -/
def takeLeftWhile (v : View) (p : Byte → Bool) : Res View :=
  (scan p v v.count 0).bind fun i => part v 0 i

end Verif.Strview
