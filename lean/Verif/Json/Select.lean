import Verif.Json.Token

/-!
# Path selection (cee-json/value.c:747-852)

The path is a NUL terminated string; reading behind the NUL is undefined behaviour.  Objects are the lists of
their entries (see Value.lean).
-/

namespace Verif.Json

/-- `enum next_selector_token` (value.c:750-756) -/
inductive Sel where
  | invalid | obj | arr | check
  deriving DecidableEq

/-- an argument behind the path -/
inductive Arg where
  | int (i : Int)
  | str (s : List Byte)

/-- `isspace` in the C locale -/
def isSpace (c : Byte) : Bool := c == 32 || (9 ≤ c && c ≤ 13)

/-- `atoi`: white space, sign, digits; a number that is no `int` is undefined behaviour -/
def atoi (s : List Byte) : Res Int :=
  let s := s.dropWhile isSpace
  let neg := s.head? == some 45
  let s := if neg || s.head? == some 43 then s.drop 1 else s
  let n := decVal (s.takeWhile isDigit)
  let i : Int := if neg then -(n : Int) else n
  if -2 ^ 31 ≤ i ∧ i < 2 ^ 31 then .ok i else .ub

/-- one of the characters that end a token, or the NUL (value.c:768) -/
def isEnd (c : Byte) : Bool := c == 0 || c == 46 || c == 91 || c == 93 || c == 58

/-- `cee_json_array_get` (value.c:587-595) on the elements -/
def elemAt (xs : List Val) (i : Int) : Option Val := if 0 ≤ i then xs[i.toNat]? else none

/-- the type checks (value.c:782-787); another letter checks nothing -/
def typeOk (c : Byte) (v : Val) : Bool :=
  if c == 115 then (match v with | .atom (.str _) => true | _ => false)
  else if c == 110 then (match v with | .atom (.i64 _) => true | _ => false)
  else if c == 111 then (match v with | .obj _ => true | _ => false)
  else if c == 97 then (match v with | .arr _ => true | _ => false)
  else if c == 98 then (match v with | .atom (.bool _) => true | _ => false)
  else if c == 33 then (match v with | .atom .null => true | _ => false)
  else true

/-- what is done with a complete token (value.c:769-788); `none` is `goto notfound` -/
def selToken (o : Val) (next : Sel) (token : List Byte) : Res (Option Val) :=
  match next with
  | .invalid => .ok none
  | .arr =>
    match o with
    | .arr xs => (atoi token).map fun i => elemAt xs i
    | _ => .ok none
  | .obj =>
    match o with
    | .obj kvs => .ok (kvs.lookup token)
    | _ => .ok none
  | .check =>
    match token with
    | [] => .ub
    | c :: _ => .ok (if typeOk c o then some o else none)

/-- the selector a character begins (value.c:829-834): `none` is `goto notfound`, `some none` the end -/
def selKind (c : Byte) : Option (Option Sel) :=
  if c == 0 then some none
  else if c == 46 then some (some .obj)
  else if c == 91 then some (some .arr)
  else if c == 58 then some (some .check)
  else none

/-- a `*` in the path (value.c:801-825): the token and the remaining arguments; `none` is `goto notfound`.  The
name of a key is copied from `buf`, which is not initialised, instead of from the argument (value.c:822). -/
def selStar (next : Sel) (token : List Byte) (args : List Arg) : Res (Option (List Byte × List Arg)) :=
  match next, args with
  | .arr, .int i :: args =>
    .ok (if 256 < token.length + (intText i).length then none else some (token ++ intText i, args))
  | .arr, _ => .ub
  | .obj, .str s :: args =>
    if 256 < token.length + s.length then .ok none
    else if s.isEmpty then .ok (some (token, args))
    else .ub
  | .obj, _ => .ub
  | _, _ => .ok none

/-- the loop (value.c:765-836) with the current value, the kind of the current token, its bytes and the
arguments, on the rest of the path.  `token` has room for 257 bytes.  `skipped`: a `]` was skipped (value.c:828)
and the character after it is looked at. -/
def selLoop (skipped : Bool) (o : Val) (next : Sel) (token : List Byte) (args : List Arg) :
    List Byte → Res (Option Val)
  | [] => .ub
  | c :: p =>
    let bottom (o : Val) : Res (Option Val) :=
      match selKind c with
      | none => .ok none
      | some none => .ok (some o)
      | some (some next) => selLoop false o next [] args p
    if skipped then bottom o
    else if !token.isEmpty && isEnd c then
      (selToken o next token).bind fun r =>
      match r with
      | none => .ok none
      | some o => if c == 93 then selLoop true o next token args p else bottom o
    else if next != .invalid then
      if c != 42 then
        if 257 ≤ token.length then .ub
        else if 256 < token.length + 1 then .ok none
        else selLoop false o next (token ++ [c]) args p
      else
        (selStar next token args).bind fun r =>
        match r with
        | none => .ok none
        | some (token, args) => selLoop false o next token args p
    else if c == 93 then selLoop true o next token args p
    else bottom o

/-- `cee_json_select` (value.c:747-845) for a value that is not NULL; `none` is NULL -/
def select (o : Val) (path : List Byte) (args : List Arg) : Res (Option Val) :=
  selLoop false o .invalid [] args (path ++ [0])

/-- `cee_json_to_intx` (value.c:171-178): the number is converted to `int`; `none` is EINVAL -/
def toIntx : Val → Option Int
  | .atom (.i64 n) => some (cInt (toU64 n))
  | _ => none

/-- `cee_json_select_as_int` (value.c:848-853); the path is read without arguments -/
def selectAsInt (o : Val) (path : List Byte) : Res (Option Int) :=
  (select o path []).map fun r => r.bind toIntx

end Verif.Json
