import Verif.Json.Select

/-!
# Escaping into a buffer, and conversion of members to integers (cee-json/value.c:333-363, 855-886)
-/

namespace Verif.Json

/-- `dest[j] = b`: writing outside the buffer is undefined behaviour -/
def wrB (dest : List Byte) (j : Nat) (b : Byte) : Res (List Byte) :=
  if j < dest.length then .ok (dest.set j b) else .ub

/-- writing several bytes from `j` on -/
def wrBs (dest : List Byte) (j : Nat) : List Byte → Res (List Byte)
  | [] => .ok dest
  | b :: bs => (wrB dest j b).bind fun dest => wrBs dest (j + 1) bs

/-- a digit of `%x` -/
def hexDigit (n : Nat) : Byte := if n < 10 then UInt8.ofNat (48 + n) else UInt8.ofNat (87 + n)

/-- `"%04x"` of a number below 256 -/
def hex04 (n : Nat) : List Byte := [48, 48, hexDigit (n / 16), hexDigit (n % 16)]

/-- `snprintf(dest + j, size, "%s", text)`: at most `size - 1` bytes and a NUL; nothing for size 0 -/
def snprintfAt (dest : List Byte) (j size : Nat) (text : List Byte) : Res (List Byte) :=
  if size = 0 then .ok dest else wrBs dest j (text.take (size - 1) ++ [0])

/-- the letter of a two character escape (value.c:861-867) -/
def escLetter (c : Byte) : Option Byte :=
  if c == 34 then some 34
  else if c == 92 then some 92
  else if c == 8 then some 98
  else if c == 12 then some 102
  else if c == 10 then some 110
  else if c == 13 then some 114
  else if c == 9 then some 116
  else none

/-- one turn of the loop (value.c:858-877): the buffer and the new `j`.  A byte of 128 or more is negative as
`char` and is copied.  `dest_size - j - 2` is unsigned. -/
def escStep (dest : List Byte) (j : Nat) (c : Byte) : Res (List Byte × Nat) :=
  match escLetter c with
  | some e => (wrBs dest j [92, e]).map fun dest => (dest, j + 2)
  | none =>
    if c ≤ 0x1f then
      (wrBs dest j [92, 117]).bind fun d =>
      (snprintfAt d (j + 2) (sub64 (sub64 dest.length j) 2) (hex04 c.toNat)).map fun d => (d, j + 4)
    else (wrB dest j c).map fun dest => (dest, j + 1)

/-- the loop; `i` and `j` are `int` (both are below twice the length of the text) -/
def escLoop (dest : List Byte) (j : Nat) : List Byte → Res (List Byte × Nat)
  | [] => .ok (dest, j)
  | c :: s => if 2 ^ 31 ≤ j + 4 then .ub else (escStep dest j c).bind fun r => escLoop r.1 r.2 s

/-- `cee_json_escape_string` (value.c:855-886) on a buffer of `dest.length` bytes: the buffer, the returned
value, and `*next_dest_p - dest` and `*next_dest_size` -/
def escapeString (s dest : List Byte) : Res (List Byte × Nat × Nat × Nat) :=
  (escLoop dest 0 s).map fun r => (r.1, r.2, r.2, sub64 dest.length r.2)

/-! ## `cee_json_object_convert_to_i64` -/

/-- `str2i64` (value.c:333-345): `sscanf("%lld%c")` must convert the number and nothing more -/
def str2i64 (s : List Byte) : Option Int :=
  let s := s.dropWhile isSpace
  let neg := s.head? == some 45
  let s := if neg || s.head? == some 43 then s.drop 1 else s
  let ds := s.takeWhile isDigit
  if ds.isEmpty || ds.length ≠ s.length then none else some (strtoll neg ds)

/-- `cee_json_object_convert_to_i64` (value.c:347-363).  The type of `j`, not that of the value, is tested. -/
def convertToI64 (j : Val) (key : List Byte) : Res (Bool × Val) :=
  match j with
  | .obj kvs =>
    match kvs.lookup key with
    | none => .ub
    | some (.atom (.i64 _)) => .ok (true, j)
    | some _ =>
      match j with
      | .atom (.str s) =>
        match str2i64 s with
        | some n => .ok (true, .obj (kvs.map fun e => if e.1 = key then (key, .atom (.i64 n)) else e))
        | none => .ok (false, j)
      | _ => .ok (false, j)
  | _ => .ok (false, j)

end Verif.Json
