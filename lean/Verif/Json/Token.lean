import Verif.Json.Value

/-!
# The JSON tokenizer (cee-json/tokenizer.c:182-196, 388-517)

The tokenizer's position is the list `mem` of bytes that may be read from `t->buf` on, and the number `left`
of bytes to `t->buf_end` (zero when `t->buf` is at or past it).  Only `cee_json_next_token` itself looks at
`buf_end`; the functions for strings, words and numbers read on until the text tells them to stop.  Reading
past `mem` is undefined.
-/

namespace Verif.Json

/-- `enum token` (tokenizer.h:3-11) with the value that belongs to it, and the characters that stand for
themselves -/
inductive Tok where
  | eof
  | err
  /-- `[`, `]`, `{`, `}`, `:` and `,` -/
  | lb | rb | lc | rc | colon | comma
  /-- `tock_str` with `t->str` -/
  | str (s : List Byte)
  /-- `tock_number`, `tock_true`, `tock_false` and `tock_null` with the value they stand for -/
  | lit (a : Atom)
  deriving DecidableEq, Repr

/-- `struct tokenizer` (tokenizer.h:13-29) -/
structure Tz where
  mem : List Byte
  left : Nat
  line : Nat
  deriving DecidableEq, Repr

/-- `check` (tokenizer.c:182-196): the memory after the word, or `none` when it is not there -/
def check : List Byte → List Byte → Res (Option (List Byte))
  | [], m => .ok (some m)
  | _ :: _, [] => .ub
  | p :: ps, c :: m => if c == p then check ps m else .ok none

/-- `isdigit` in the C locale -/
def isDigit (c : Byte) : Bool := 48 ≤ c && c ≤ 57

/-- reading `*end` -/
def peek : List Byte → Res Byte
  | [] => .ub
  | c :: _ => .ok c

/-- the loops `while (isdigit(*++end)) continue;`: the digits and the memory after them -/
def digits : List Byte → Res (List Byte × List Byte)
  | [] => .ub
  | c :: m => if isDigit c then (digits m).map fun r => (c :: r.1, r.2) else .ok ([], c :: m)

/-- the number digits denote in base ten -/
def decVal (ds : List Byte) : Nat := ds.foldl (fun (acc : Nat) (c : Byte) => acc * 10 + (c.toNat - 48)) 0

/-- `strtoll` on an optional minus sign and digits: out of range values are clamped -/
def strtoll (neg : Bool) (ds : List Byte) : Int :=
  if neg then max (-(2 ^ 63)) (-(decVal ds : Int)) else min (2 ^ 63 - 1) (decVal ds)

/-- the fraction (tokenizer.c:406-412): its lexeme, empty when there is none, and the rest; `none` is
`return false` -/
def fraction (m : List Byte) : Res (Option (List Byte × List Byte)) :=
  (peek m).bind fun c =>
  if c == 46 then
    (digits (m.drop 1)).map fun r => if r.1.isEmpty then none else some (46 :: r.1, r.2)
  else .ok (some ([], m))

/-- the exponent (tokenizer.c:415-423) after the `e`: the lexeme of sign and digits, and the rest; `none` is
`return false` -/
def exponent (m : List Byte) : Res (Option (List Byte × List Byte)) :=
  (peek m).bind fun c =>
  let sg : List Byte := if c == 43 || c == 45 then [c] else []
  (digits (m.drop sg.length)).map fun r =>
  if r.1.isEmpty then none else some (sg ++ r.1, r.2)

/-- `parse_number` (tokenizer.c:388-446) from the first character on.  The first digit is read by
`isdigit(*end)` and the following ones by `isdigit(*++end)`, which together are `digits`. -/
def parseNumber [Libc] (m : List Byte) : Res (Option (Atom × List Byte)) :=
  (peek m).bind fun c =>
  let neg := c == 45
  let m := if neg then m.drop 1 else m
  let sign : List Byte := if neg then [45] else []
  (digits m).bind fun (ds, m) =>
  if ds.isEmpty then .ok none
  else
    (fraction m).bind fun r =>
    match r with
    | none => .ok none
    | some (frac, m) =>
      (peek m).bind fun c =>
      if c == 101 || c == 69 then
        (exponent (m.drop 1)).map fun r =>
        match r with
        | none => none
        | some (ex, m) => some (.dbl (Libc.strtod (sign ++ ds ++ frac ++ c :: ex)), m)
      else if frac.isEmpty then
        if ds.length ≠ 1 && ds.head? == some 48 then .ok none
        else .ok (some (.i64 (strtoll neg ds), m))
      else .ok (some (.dbl (Libc.strtod (sign ++ ds ++ frac)), m))

/-- the rest of a comment (tokenizer.c:503-508): up to a NUL it is the end of the input, a newline or
`buf_end` is an error -/
def comment : Nat → List Byte → Res Tok
  | 0, _ => .ok .err
  | _ + 1, [] => .ub
  | n + 1, c :: m => if c == 0 then .ok .eof else if c == 10 then .ok .err else comment n m

/-- the new position when the memory left is `m` -/
def Tz.to (t : Tz) (m : List Byte) : Tz := { t with mem := m, left := t.left - (t.mem.length - m.length) }

/-- a token that a sub-function reads, or an error; after an error the position does not matter and is left
as it was -/
def Tz.take (t : Tz) (r : Res (Option (Tok × List Byte))) : Res (Tok × Tz) :=
  r.map fun r =>
  match r with
  | none => (.err, t)
  | some (tok, m) => (tok, t.to m)

/-- one turn of the loop of `cee_json_next_token` (tokenizer.c:449-516): `none` is `break`, i.e. white space -/
def tokenStep [Libc] (t : Tz) : Res (Option (Tok × Tz)) :=
  if t.left = 0 then .ok (some (.eof, t))
  else
    match t.mem with
    | [] => .ub
    | c :: m =>
      if c == 91 then .ok (some (.lb, t.to m))
      else if c == 123 then .ok (some (.lc, t.to m))
      else if c == 58 then .ok (some (.colon, t.to m))
      else if c == 44 then .ok (some (.comma, t.to m))
      else if c == 125 then .ok (some (.rc, t.to m))
      else if c == 93 then .ok (some (.rb, t.to m))
      else if c == 10 || c == 13 || c == 32 || c == 9 then .ok none
      else if c == 34 then
        (t.take ((parseString m).map fun r => r.map fun (s, m) => (.str s, m))).map some
      else if c == 116 then
        (t.take ((check [114, 117, 101] m).map fun r => r.map fun m => (.lit (.bool true), m))).map some
      else if c == 110 then
        (t.take ((check [117, 108, 108] m).map fun r => r.map fun m => (.lit .null, m))).map some
      else if c == 102 then
        (t.take ((check [97, 108, 115, 101] m).map fun r => r.map fun m => (.lit (.bool false), m))).map some
      else if c == 45 || isDigit c then
        (t.take ((parseNumber (c :: m)).map fun r => r.map fun (a, m) => (.lit a, m))).map some
      else if c == 47 then
        (check [47] m).bind fun r =>
        match r with
        | none => .ok (some (.err, t))
        | some m => (comment (t.left - 2) m).map fun tok => some (tok, t)
      else .ok (some (.err, t))

/-- skipping a character of white space; newlines and returns are counted (tokenizer.c:465-470) -/
def Tz.skip (t : Tz) : Tz :=
  match t.mem with
  | [] => t
  | c :: m => { mem := m, left := t.left - 1, line := if c == 10 || c == 13 then t.line + 1 else t.line }

/-- `cee_json_next_token` (tokenizer.c:448-517), with at most `n` characters of white space before the token
(`n = t.mem.length` is always enough) -/
def nextTokenN [Libc] : Nat → Tz → Res (Tok × Tz)
  | 0, t =>
    (tokenStep t).bind fun r =>
    match r with
    | some r => .ok r
    | none => .ub
  | n + 1, t =>
    (tokenStep t).bind fun r =>
    match r with
    | some r => .ok r
    | none => nextTokenN n t.skip

/-- `cee_json_next_token` (tokenizer.c:448-517) -/
def nextToken [Libc] (t : Tz) : Res (Tok × Tz) := nextTokenN t.mem.length t

end Verif.Json
