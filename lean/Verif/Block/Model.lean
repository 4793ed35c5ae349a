import Verif.Base

/-!
# Model of `block.c` (C117)

Blocks of bytes without structure, with their headers at the level of bytes.  A pointer is an offset into the
region it was derived from; reading or writing outside the region, and reading a byte that was never written, is
undefined behaviour.  `malloc` succeeds and gives unwritten memory of the size asked for.  Sizes and offsets are
those of the 64-bit ABI: `struct cee_sect` (cee.h:86-104) has 56 bytes.
-/

namespace Verif.Block

abbrev Byte := UInt8

/-- a region of memory; an unwritten byte is `none` -/
abbrev Cells := List (Option Byte)

/-- the bytes, if all are written -/
def allInit : Cells → Res (List Byte)
  | [] => .ok []
  | none :: _ => .ub
  | some b :: r => (allInit r).map (b :: ·)

/-- read `n` bytes -/
def load (r : Cells) (off : Int) (n : Nat) : Res (List Byte) :=
  if off < 0 then .ub
  else if r.length < off.toNat + n then .ub
  else allInit ((r.drop off.toNat).take n)

/-- write bytes -/
def store (r : Cells) (off : Int) (bs : List Byte) : Res Cells :=
  if off < 0 then .ub
  else if r.length < off.toNat + bs.length then .ub
  else .ok (r.take off.toNat ++ bs.map some ++ r.drop (off.toNat + bs.length))

/-- a number in `n` bytes, the lowest first -/
def bytes : Nat → Nat → List Byte
  | 0, _ => []
  | n + 1, v => UInt8.ofNat (v % 256) :: bytes n (v / 256)

/-- the number in some bytes -/
def value : List Byte → Nat
  | [] => 0
  | b :: bs => b.toNat + 256 * value bs

/-- `sizeof(struct S(header))` (block.c:18-23): `capacity` at 0, `del_policy` at 8, `cs` at 16, `_[1]` at 72, and
seven bytes of padding -/
def headerSize : Nat := 80

/-- `offsetof(struct S(header), _)` -/
def dataOffset : Nat := 72

/-- addresses that are stored in the header: the state, the last block of the chain, the functions -/
structure Links where
  state : Nat
  prev : Nat
  trace : Nat
  memcmp : Nat

/-- `cee_block_mk_nonzero` (block.c:48-66), with `S(chain)` (cee-resize.h:6-13) as far as it writes into the new
block.  The sum `n + sizeof(header)` is taken modulo 2^64. -/
def mkNonzero (L : Links) (n : Nat) : Res Cells := do
  let size := (n + headerSize) % 2 ^ 64
  let r ← store (List.replicate size none) 16 (List.replicate 56 0)
  let r ← store r 8 (bytes 4 0)
  let r ← store r 24 (bytes 8 L.state)
  let r ← store r 40 (bytes 8 L.prev)
  let r ← store r 64 (bytes 8 L.trace)
  let r ← store r 16 (bytes 1 2)
  let r ← store r 48 (bytes 8 size)
  let r ← store r 56 (bytes 8 L.memcmp)
  store r 0 (bytes 8 n)

/-- `cee_block_mk` (block.c:68-72) -/
def mk (L : Links) (n : Nat) : Res Cells := do
  let r ← mkNonzero L n
  store r dataOffset (List.replicate n 0)

/-- writes of the client through the pointer `_` -/
def writes (r : Cells) : List (Nat × List Byte) → Res Cells
  | [] => .ok r
  | (i, bs) :: ws => (store r ((dataOffset + i : Nat) : Int) bs).bind fun r => writes r ws

/-- `cee_block_mk_e` (block.c:77-81): `init_f` is a sequence of writes -/
def mkE (L : Links) (n : Nat) (init : List (Nat × List Byte)) : Res Cells :=
  (mkNonzero L n).bind fun r => writes r init

/-- `cee_block_size` (block.c:84-88) of the pointer `p` -/
def sizeOf (r : Cells) (p : Int) : Res Nat := (load r (p - dataOffset) 8).map value

/-- `cee_block_empty` (str.c:156-164): a static `struct S(header)` of str.c, that is `capacity` at 0, `cs` at 8 and
`_[1]` at 64, 72 bytes in all; returned is offset 64.  Static memory is zero. -/
def empty : Res Cells := do
  let r ← store ((List.replicate 72 (some 0) : Cells)) 40 (bytes 8 72)
  let r ← store r 0 (bytes 8 1)
  store r 64 [0]

/-- offset of `_` in the header of str.c (str.c:19-23) -/
def strDataOffset : Nat := 64

/-- the block of `cee_json_blob_mk` (cee-json/value.c:307-312).  The source is NULL or some bytes; `memcpy` from NULL
is undefined also for no bytes (C11 7.24.1). -/
def blobMk (L : Links) (src : Option (List Byte)) (n : Nat) : Res Cells :=
  (mkNonzero L n).bind fun r =>
  match src with
  | none => .ub
  | some s => if n ≤ s.length then store r dataOffset (s.take n) else .ub

/-- `sizeof(struct cee_sqlite3_bind_data)` (sqlite3/cee-sqlite3.h:44-52) -/
def dataSize : Nat := 40

/-- `sizeof(struct cee_sqlite3_bind_info)` (sqlite3/cee-sqlite3.h:54-80) -/
def infoSize : Nat := 80

/-- `new_cee_sqlite3_db_op` (sqlite3/cee-sqlite3.c:948-959): the copy of the three pointers of the operation `op`, the
last replaced by the pointer to new data (`p`), and the data.  `sizeOfInfos` is the parameter
`size_of_bind_infos`. -/
def newDbOp (L : Links) (op : Nat × Nat × Nat) (p sizeOfInfos : Nat) : Res (Cells × Cells) := do
  let o ← mkNonzero L 24
  let o ← store o dataOffset (bytes 8 op.1 ++ bytes 8 op.2.1 ++ bytes 8 op.2.2)
  let d ← mk L (dataSize * sizeOfInfos % 2 ^ 64 / infoSize)
  let o ← store o ((dataOffset + 16 : Nat) : Int) (bytes 8 p)
  return (o, d)

end Verif.Block
