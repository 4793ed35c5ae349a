import Verif.Base
import Verif.Json.Escape

/-!
# Boxed primitives (boxed.c)

The union is its eight bytes, least significant first (x86-64).  A `double` or `float` is its bit pattern.
Chaining into the state and the (never called) comparison pointer are not part of this model.
-/

namespace Verif.Boxed

open Verif.Json (Byte)

/-- `enum cee_boxed_primitive_type` (cee.h:565-576) -/
inductive Ty where
  | f64 | f32 | u64 | u32 | u16 | u8 | i64 | i32 | i16 | i8
  deriving DecidableEq, Repr

/-- `struct S(header)` (boxed.c:12-16) without the section -/
structure Boxed where
  ty : Ty
  bytes : List Byte

/-- the `w` bytes of a number -/
def le : Nat → Nat → List Byte
  | 0, _ => []
  | w + 1, n => UInt8.ofNat (n % 256) :: le w (n / 256)

/-- the number in some bytes -/
def ofLe : List Byte → Nat
  | [] => 0
  | b :: bs => b.toNat + 256 * ofLe bs

/-- assignment to a member of `w` bytes of the union (cee.h:577-588) -/
def store (b : Boxed) (w n : Nat) : Boxed := { b with bytes := le w n ++ b.bytes.drop w }

/-- reading a member of `w` bytes of the union -/
def load (b : Boxed) (w : Nat) : Nat := ofLe (b.bytes.take w)

/-- `S(mk_header)` (boxed.c:44-61): the whole union is set to 0 -/
def mkHeader (t : Ty) : Boxed := store ⟨t, List.replicate 8 0⟩ 8 0

/-- `cee_boxed_from_double` (boxed.c:72-78) -/
def fromDouble (d : UInt64) : Boxed := store (mkHeader .f64) 8 d.toNat
/-- `cee_boxed_from_float` (boxed.c:89-95) -/
def fromFloat (d : UInt32) : Boxed := store (mkHeader .f32) 4 d.toNat
/-- `cee_boxed_from_u64` (boxed.c:106-111) -/
def fromU64 (d : UInt64) : Boxed := store (mkHeader .u64) 8 d.toNat
/-- `cee_boxed_from_u32` (boxed.c:122-128) -/
def fromU32 (d : UInt32) : Boxed := store (mkHeader .u32) 4 d.toNat
/-- `cee_boxed_from_u16` (boxed.c:140-146) -/
def fromU16 (d : UInt16) : Boxed := store (mkHeader .u16) 2 d.toNat
/-- `cee_boxed_from_u8` (boxed.c:158-164) -/
def fromU8 (d : UInt8) : Boxed := store (mkHeader .u8) 1 d.toNat
/-- `cee_boxed_from_i64` (boxed.c:176-182) -/
def fromI64 (d : Int64) : Boxed := store (mkHeader .i64) 8 d.toUInt64.toNat
/-- `cee_boxed_from_i32` (boxed.c:193-199) -/
def fromI32 (d : Int32) : Boxed := store (mkHeader .i32) 4 d.toUInt32.toNat
/-- `cee_boxed_from_i16` (boxed.c:210-216) -/
def fromI16 (d : Int16) : Boxed := store (mkHeader .i16) 2 d.toUInt16.toNat
/-- `cee_boxed_from_i8` (boxed.c:227-233) -/
def fromI8 (d : Int8) : Boxed := store (mkHeader .i8) 1 d.toUInt8.toNat

/-- `cee_boxed_to_double` (boxed.c:280-286) -/
def toDouble (x : Boxed) : Res UInt64 := if x.ty = .f64 then .ok (.ofNat (load x 8)) else .segv
/-- `cee_boxed_to_float` (boxed.c:288-294) -/
def toFloat (x : Boxed) : Res UInt32 := if x.ty = .f32 then .ok (.ofNat (load x 4)) else .segv
/-- `cee_boxed_to_u64` (boxed.c:296-302) -/
def toU64 (x : Boxed) : Res UInt64 := if x.ty = .u64 then .ok (.ofNat (load x 8)) else .segv
/-- `cee_boxed_to_u32` (boxed.c:304-310) -/
def toU32 (x : Boxed) : Res UInt32 := if x.ty = .u32 then .ok (.ofNat (load x 4)) else .segv
/-- `cee_boxed_to_u16` (boxed.c:312-318) -/
def toU16 (x : Boxed) : Res UInt16 := if x.ty = .u16 then .ok (.ofNat (load x 2)) else .segv
/-- `cee_boxed_to_u8` (boxed.c:320-326) -/
def toU8 (x : Boxed) : Res UInt8 := if x.ty = .u8 then .ok (.ofNat (load x 1)) else .segv
/-- `cee_boxed_to_i64` (boxed.c:329-335) -/
def toI64 (x : Boxed) : Res Int64 := if x.ty = .i64 then .ok (UInt64.ofNat (load x 8)).toInt64 else .segv
/-- `cee_boxed_to_i32` (boxed.c:337-343) -/
def toI32 (x : Boxed) : Res Int32 := if x.ty = .i32 then .ok (UInt32.ofNat (load x 4)).toInt32 else .segv
/-- `cee_boxed_to_i16` (boxed.c:345-351) -/
def toI16 (x : Boxed) : Res Int16 := if x.ty = .i16 then .ok (UInt16.ofNat (load x 2)).toInt16 else .segv
/-- `cee_boxed_to_i8` (boxed.c:353-359) -/
def toI8 (x : Boxed) : Res Int8 := if x.ty = .i8 then .ok (UInt8.ofNat (load x 1)).toInt8 else .segv

/-- what the C library prints for floating point numbers: `%lg` and `%g` on bit patterns -/
structure Fmt where
  lg : UInt64 → List Byte
  g : UInt32 → List Byte

/-- the text `cee_boxed_snprint` gives to `snprintf` (boxed.c:238-272): the member of the type is printed -/
def text (fmt : Fmt) (x : Boxed) : List Byte :=
  match x.ty with
  | .f64 => fmt.lg (.ofNat (load x 8))
  | .f32 => fmt.g (.ofNat (load x 4))
  | .u64 => Json.dec (load x 8)
  | .u32 => Json.dec (load x 4)
  | .u16 => Json.dec (load x 2)
  | .u8 => Json.dec (load x 1)
  | .i64 => Json.intText (UInt64.ofNat (load x 8)).toInt64.toInt
  | .i32 => Json.intText (UInt32.ofNat (load x 4)).toInt32.toInt
  | .i16 => Json.intText (UInt16.ofNat (load x 2)).toInt16.toInt
  | .i8 => Json.intText (UInt8.ofNat (load x 1)).toInt8.toInt

/-- `cee_boxed_snprint` (boxed.c:235-278): the buffer and the returned length -/
def snprint (fmt : Fmt) (buf : List Byte) (size : Nat) (x : Boxed) : Res (List Byte × Nat) :=
  (Json.snprintfAt buf 0 size (text fmt x)).bind fun buf =>
  if 0 < (text fmt x).length then .ok (buf, (text fmt x).length) else .segv

end Verif.Boxed
