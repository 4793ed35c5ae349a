import Verif.Json.Utf8

/-!
# Decoding of JSON string literals (cee-json/tokenizer.c:198-219, 236-386)

Memory is the list of bytes that may be read from the current position on; reading past its end is
undefined (`Res.ub`).  The output buffer of `json_string_unescape` has `cap` bytes (`calloc(1,
input_len)`); writing past it is undefined too.
-/

namespace Verif.Json

/-- `isxdigit` and the value `sscanf("%x")` gives to the digit (tokenizer.c:209, 215) -/
def hexVal (c : Byte) : Option Nat :=
  if 48 ≤ c && c ≤ 57 then some (c.toNat - 48)
  else if 65 ≤ c && c ≤ 70 then some (c.toNat - 55)
  else if 97 ≤ c && c ≤ 102 then some (c.toNat - 87)
  else none

/-- `read_4_digits` (tokenizer.c:198-219) on the bytes up to `buf_end` -/
def read4 : List Byte → Option (Nat × List Byte)
  | a :: b :: c :: d :: s =>
    match hexVal a, hexVal b, hexVal c, hexVal d with
    | some a, some b, some c, some d => some (((a * 16 + b) * 16 + c) * 16 + d, s)
    | _, _, _, _ => none
  | _ => none

theorem read4_length {s r : List Byte} {x : Nat} (h : read4 s = some (x, r)) :
    s.length = r.length + 4 := by
  unfold read4 at h
  split at h
  · split at h
    · simp only [Option.some.injEq, Prod.mk.injEq] at h
      obtain ⟨-, rfl⟩ := h
      simp
    · simp at h
  · simp at h

/-- `*d = ..; d++` into the output buffer of `cap` bytes, `out` being what was written so far; for
several bytes this is `append` (tokenizer.c:236-245) -/
def put (cap : Nat) (out bs : List Byte) : Res (List Byte) :=
  if out.length + bs.length ≤ cap then .ok (out ++ bs) else .ub

/-- the one-letter escapes (tokenizer.c:295-303) -/
def simpleEsc (c : Byte) : Option Byte :=
  if c == 34 || c == 92 || c == 47 then some c
  else if c == 98 then some 8
  else if c == 102 then some 12
  else if c == 110 then some 10
  else if c == 114 then some 13
  else if c == 116 then some 9
  else none

/-- the loop in state `UNESCAPING` (tokenizer.c:267-328); `sur` is the first surrogate when a second one
is expected.  `none` is `goto return_err`. -/
def pass2 (cap : Nat) (input : List Byte) (sur : Option Nat) (out : List Byte) :
    Res (Option (List Byte)) :=
  match input with
  | [] => .ok (some out)
  | c :: s =>
    if sur.isSome && c != 92 then .ok none
    else if c ≤ 0x1F then .ok none
    else if c == 92 then
      match s with
      | [] => .ok none
      | e :: s =>
        if sur.isSome && e != 117 then .ok none
        else
          match simpleEsc e with
          | some b => (put cap out [b]).bind fun out => pass2 cap s sur out
          | none =>
            if e == 117 then
              match h : read4 s with
              | none => .ok none
              | some (x, r) =>
                match sur with
                | some w =>
                  if !isSecond x then .ok none
                  else (put cap out (encode (combine w x))).bind fun out => pass2 cap r none out
                | none =>
                  if isFirst x then pass2 cap r (some x) out
                  else (put cap out (encode x)).bind fun out => pass2 cap r none out
            else .ok none
    else (put cap out [c]).bind fun out => pass2 cap s sur out
termination_by input.length
decreasing_by
  all_goals simp_wf
  all_goals first
    | (have := read4_length h; omega)
    | omega

/-- the loop in state `TESTING` (tokenizer.c:267-328): `none` is `goto return_err`, `some true` is the
`break` at the first backslash -/
def pass1 : List Byte → Option Bool
  | [] => some false
  | c :: s => if c ≤ 0x1F then none else if c == 92 then some true else pass1 s

/-- what `json_string_unescape` leaves in `*output_p` -/
inductive Unescaped where
  /-- `return 0` -/
  | err
  /-- the input itself (tokenizer.c:345-348) -/
  | same
  /-- a fresh buffer of `input_len` bytes starting with these (the rest is zero) -/
  | fresh (out : List Byte)
  deriving DecidableEq, Repr

/-- `json_string_unescape` (tokenizer.c:247-357) -/
def unescape (input : List Byte) : Res Unescaped :=
  match pass1 input with
  | none => .ok .err
  | some false => .ok .same
  | some true =>
    (pass2 input.length input none []).bind fun r =>
    match r with
    | none => .ok .err
    | some out => if validate out then .ok (.fresh out) else .ok .err

/-- the scan of `parse_string` for the closing quote (tokenizer.c:364-369): the body and the memory after
the quote, or `none` when a NUL comes first -/
def scanStr : List Byte → Res (Option (List Byte × List Byte))
  | [] => .ub
  | c :: m =>
    if c == 0 then .ok none
    else if c == 34 then .ok (some ([], m))
    else if c == 92 then
      match m with
      | [] => .ub
      | d :: m' =>
        if d != 0 then (scanStr m').map fun r => r.map fun r => (c :: d :: r.1, r.2)
        else .ok none
    else (scanStr m).map fun r => r.map fun r => (c :: r.1, r.2)

/-- the C string at the start of a buffer of the given bytes -/
def cstr : List Byte → Res (List Byte)
  | [] => .ub
  | c :: m => if c == 0 then .ok [] else (cstr m).map (c :: ·)

/-- `parse_string` (tokenizer.c:359-386) on the memory after the opening quote: the text of the new
`cee_str` and the memory left, or `none` for `false`.  In the branch without escapes the length is
passed for the `int` precision of `%.*s` (tokenizer.c:375); lengths that are no `int` are undefined. -/
def parseString (m : List Byte) : Res (Option (List Byte × List Byte)) :=
  (scanStr m).bind fun r =>
  match r with
  | none => .ok none
  | some (body, rest) =>
    (unescape body).bind fun u =>
    match u with
    | .err => .ok none
    | .same => if body.length < 2 ^ 31 then .ok (some (body.takeWhile (· != 0), rest)) else .ub
    | .fresh out =>
      (cstr (out ++ List.replicate (body.length - out.length) 0)).map fun text => some (text, rest)

/-! ## escaping, as the printer does it (cee-json/snprint.c:131-178) -/

/-- `tohex[n]` (snprint.c:152-154) -/
def toHex (n : Nat) : Byte := if n < 10 then UInt8.ofNat (48 + n) else UInt8.ofNat (87 + n)

/-- the `addon` of a byte (snprint.c:140-158) -/
def addon (c : Byte) : Option (List Byte) :=
  if c == 0x22 then some [92, 34]
  else if c == 0x5C then some [92, 92]
  else if c == 8 then some [92, 98]
  else if c == 12 then some [92, 102]
  else if c == 10 then some [92, 110]
  else if c == 13 then some [92, 114]
  else if c == 9 then some [92, 116]
  else if c ≤ 0x1F then some [92, 117, 48, 48, toHex (c.toNat / 16), toHex (c.toNat % 16)]
  else none

end Verif.Json
