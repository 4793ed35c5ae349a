import Verif.Json.Token

/-!
# The JSON parser (cee-json/parser.c)

The explicit stack holds the containers that are still open.  In C a new container is put into its parent
when it is opened and filled through the pointer on the stack; here it is put into its parent, under the key
remembered in its frame, when it is closed.  In between nobody looks at the parent, so the outcome is the
same.
-/

namespace Verif.Json

/-- `enum state_type` (parser.c:13-24) -/
inductive PState where
  | value
  | keyOrClose
  | colon
  | objValue
  | objCloseOrComma
  | arrValueOrClose
  | arrCloseOrComma
  | error
  | done
  deriving DecidableEq, Repr

/-- the tuple of state to return to and container (`SPI`, parser.c:29), with the key it will have in its
parent; `none` is `NULL` -/
structure PFrame where
  ret : PState
  j : Option Val
  key : List Byte

/-- the variables of `cee_json_parsex` (parser.c:35-46) -/
structure PSt where
  st : PState
  stk : List PFrame
  key : List Byte
  result : Option Val

/-- `cee_map_add` on an object: the last value of a key wins, the position of the first one stays
(map.c:117-152; C01, C02) -/
def insertKey (k : List Byte) (v : Val) : List (List Byte × Val) → List (List Byte × Val)
  | [] => [(k, v)]
  | (k', v') :: r => if k' = k then (k', v) :: r else (k', v') :: insertKey k v r

/-- putting a finished value into the container `p` -/
def attach (p : Option Val) (key : List Byte) (v : Val) : Res Val :=
  match p with
  | some (.arr xs) => .ok (.arr (xs ++ [v]))
  | some (.obj kvs) => .ok (.obj (insertKey key v kvs))
  | some (.atom _) => .segv
  | none => .ub

/-- `state = TOPS; POP(sp);` (parser.c:48-50), and putting the value into the parent -/
def popFrame (s : PSt) (top : PFrame) (rest : List PFrame) : Res PSt :=
  match rest with
  | [] => .ok { s with st := top.ret, stk := [], result := top.j }
  | p :: rest =>
    match top.j with
    | none => .ub
    | some v => (attach p.j top.key v).map fun pj =>
        { s with st := top.ret, stk := { p with j := some pj } :: rest, result := some v }

/-- the value of a token that is a complete value -/
def Tok.atom? : Tok → Option Atom
  | .str s => some (.str s)
  | .lit a => some a
  | _ => none

/-- one turn of the loop of `cee_json_parsex` (parser.c:65-241) with the token `c` -/
def pstep (s : PSt) (c : Tok) : Res PSt :=
  match s.stk with
  | [] => .ub
  | top :: rest =>
    match s.st with
    | .value =>
      match c with
      | .lb => .ok { s with st := .arrValueOrClose, stk := { top with j := some (.arr []) } :: rest }
      | .lc => .ok { s with st := .keyOrClose, stk := { top with j := some (.obj []) } :: rest }
      | c =>
        match c.atom? with
        | some a => popFrame s { top with j := some (.atom a) } rest
        | none => .ok { s with st := .error }
    | .keyOrClose =>
      match c with
      | .rc => popFrame s top rest
      | .str k => .ok { s with st := .colon, key := k }
      | _ => .ok { s with st := .error }
    | .colon => if c = .colon then .ok { s with st := .objValue } else .ok { s with st := .error }
    | .objValue =>
      match top.j with
      | some (.obj kvs) =>
        match c with
        | .lb => .ok { s with st := .arrValueOrClose, stk := ⟨.objCloseOrComma, some (.arr []), s.key⟩ :: top :: rest }
        | .lc => .ok { s with st := .keyOrClose, stk := ⟨.objCloseOrComma, some (.obj []), s.key⟩ :: top :: rest }
        | c =>
          match c.atom? with
          | some a =>
            .ok { s with st := .objCloseOrComma,
                         stk := { top with j := some (.obj (insertKey s.key (.atom a) kvs)) } :: rest }
          | none => .ok { s with st := .error }
      | some _ => .segv
      | none => .ub
    | .objCloseOrComma =>
      match c with
      | .comma => .ok { s with st := .keyOrClose }
      | .rc => popFrame s top rest
      | _ => .ok { s with st := .error }
    | .arrValueOrClose =>
      match c with
      | .rb => popFrame s top rest
      | c =>
        match top.j with
        | some (.arr xs) =>
          match c with
          | .lb => .ok { s with st := .arrValueOrClose, stk := ⟨.arrCloseOrComma, some (.arr []), []⟩ :: top :: rest }
          | .lc => .ok { s with st := .keyOrClose, stk := ⟨.arrCloseOrComma, some (.obj []), []⟩ :: top :: rest }
          | c =>
            match c.atom? with
            | some a =>
              .ok { s with st := .arrCloseOrComma,
                           stk := { top with j := some (.arr (xs ++ [.atom a])) } :: rest }
            | none => .ok { s with st := .error }
        | some _ => .segv
        | none => .ub
    | .arrCloseOrComma =>
      match c with
      | .rb => popFrame s top rest
      | .comma => .ok { s with st := .arrValueOrClose }
      | _ => .ok { s with st := .error }
    | .error => .ok s
    | .done => .ok s

/-- the condition of the loop (parser.c:54-55) -/
def PSt.goes (s : PSt) : Bool :=
  !s.stk.isEmpty && s.stk.length < 512 && s.st != .error && s.st != .done

/-- the loop (parser.c:54-241) with any source of tokens; `none`: more than `n` tokens were needed -/
def prun {σ : Type} (next : σ → Res (Tok × σ)) : Nat → PSt → σ → Res (Option (PSt × σ))
  | n, s, t =>
    if !s.goes then .ok (some (s, t))
    else
      match n with
      | 0 => .ok none
      | n + 1 =>
        (next t).bind fun (c, t) =>
        (pstep s c).bind fun s => prun next n s t

/-- the variables at the start (parser.c:35-52) -/
def pinit : PSt := ⟨.value, [⟨.done, none, []⟩], [], none⟩

/-- what `cee_json_parsex` returns: `EINVAL`, or the value (`*out`) -/
inductive PResult where
  | einval
  | value (v : Option Val)

/-- the end of `cee_json_parsex` (parser.c:243-257); the value comes with the position after it -/
def pfinish {σ : Type} (next : σ → Res (Tok × σ)) (forceEof : Bool) (s : PSt) (t : σ) : Res (PResult × σ) :=
  if s.st = .done then
    if forceEof then
      (next t).map fun (c, t) => if c = .eof then (.value s.result, t) else (.einval, t)
    else .ok (.value s.result, t)
  else .ok (.einval, t)

/-- `cee_json_parsex` (parser.c:32-261) over any source of tokens -/
def parseWith {σ : Type} (next : σ → Res (Tok × σ)) (n : Nat) (forceEof : Bool) (t : σ) :
    Res (Option (PResult × σ)) :=
  (prun next n pinit t).bind fun r =>
  match r with
  | none => .ok none
  | some (s, t) => (pfinish next forceEof s t).map some

/-- `cee_json_parsex` (parser.c:32-261) on `len` bytes at the start of the memory `mem` -/
def parsex [Libc] (n : Nat) (mem : List Byte) (len : Nat) (forceEof : Bool) : Res (Option (PResult × Tz)) :=
  parseWith nextToken n forceEof ⟨mem, len, 0⟩

end Verif.Json
