import Verif.Base

/-!
# Binding values to SQL statements (sqlite3/cee-sqlite3.c:74-220)

SQLite itself is not modelled: a prepared statement is the list of its parameters (`none` for a parameter without
name; SQLite gives a name one index only), a call of a `sqlite3_bind_*` function is an entry of a log.  Tables of
rows that end with `var_name == NULL` are lists.
-/

/-- a mapped outcome is a value if the outcome is one -/
theorem Verif.Res.map_eq_ok {α β : Type} {x : Verif.Res α} {f : α → β} {b : β} :
    x.map f = .ok b ↔ ∃ a, x = .ok a ∧ f a = b := by
  cases x <;> simp [Verif.Res.map]

namespace Verif.Sqlite

abbrev Byte := UInt8

/-- `enum cee_sqlite3_type` (cee-sqlite3.h:33-39) -/
inductive STy where
  | undef | text | int | int64 | blob
  deriving DecidableEq, Repr

/-- `struct cee_sqlite3_bind_data` (cee-sqlite3.h:44-52) -/
structure Data where
  i : Int := 0
  i64 : Int := 0
  value : Option (List Byte) := none
  size : Nat := 0
  hasValue : Bool := false
  isNull : Bool := false
  deriving DecidableEq

/-- `struct cee_sqlite3_bind_info` (cee-sqlite3.h:54-78) -/
structure Info where
  var : List Byte
  col : List Byte
  type : STy
  data : Data := {}
  noUpdate : Bool := false
  notNull : Bool := false
  noReturn : Bool := false
  noLabel : Bool := false

/-- the second argument of the bind calls and what is bound; a text of size `none` ends at its NUL (-1) -/
inductive Bound where
  | int (i : Int)
  | int64 (i : Int)
  | text (s : Option (List Byte)) (size : Option Nat)
  | blob (s : Option (List Byte)) (size : Nat)
  | null
  deriving DecidableEq

/-- `enum stmt_type` (cee-sqlite3.c:74-80) -/
inductive StmtType where
  | select | insert | update | delete | other
  deriving DecidableEq, Repr

/-- `isspace` in the C locale -/
def isSpace (c : Byte) : Bool := c == 32 || (9 ≤ c && c ≤ 13)

/-- `tolower` -/
def toLower (c : Byte) : Byte := if 65 ≤ c && c ≤ 90 then c + 32 else c

/-- the text begins with the word, case ignored -/
def prefixCI : List Byte → List Byte → Bool
  | [], _ => true
  | _ :: _, [] => false
  | w :: ws, c :: cs => toLower w == toLower c && prefixCI ws cs

/-- `strcasestr(p, word)`: the distance of the first place where the word stands -/
def strcasestr (word : List Byte) : List Byte → Option Nat
  | [] => if prefixCI word [] then some 0 else none
  | c :: cs => if prefixCI word (c :: cs) then some 0 else (strcasestr word cs).map (· + 1)

def kwSelect : List Byte := [115, 101, 108, 101, 99, 116]
def kwInsert : List Byte := [105, 110, 115, 101, 114, 116]
def kwUpdate : List Byte := [117, 112, 100, 97, 116, 101]
def kwDelete : List Byte := [100, 101, 108, 101, 116, 101]

/-- `get_stmt_type` (cee-sqlite3.c:82-96); `loc == p` is distance 0 -/
def getStmtType (stmt : List Byte) : StmtType :=
  let p := stmt.dropWhile isSpace
  if strcasestr kwSelect p = some 0 then .select
  else if strcasestr kwInsert p = some 0 then .insert
  else if strcasestr kwUpdate p = some 0 then .update
  else if strcasestr kwDelete p = some 0 then .delete
  else .other

/-- `sqlite3_bind_parameter_index`: the number of the parameter, from 1 on; 0 if there is none of this name -/
def paramIndex (params : List (Option (List Byte))) (name : List Byte) : Nat :=
  match params.findIdx? (· == some name) with
  | some k => k + 1
  | none => 0

/-- the default for a column that must not be NULL (cee-sqlite3.c:153-174) -/
def bindDefault (t : STy) : Res Bound :=
  match t with
  | .undef => .segv
  | .int => .ok (.int 0)
  | .int64 => .ok (.int64 0)
  | .text => .ok (.text (some []) (some 0))
  | .blob => .ok (.blob (some []) 0)

/-- binding of present data (cee-sqlite3.c:178-203); sizes are below 2^31 -/
def bindData (info : Info) (d : Data) : Res Bound :=
  if d.isNull && !info.notNull then .ok .null
  else
    match info.type with
    | .undef => .segv
    | .int => .ok (.int d.i)
    | .int64 => .ok (.int64 d.i64)
    | .text => .ok (.text d.value (if d.size = 0 then none else some d.size))
    | .blob => .ok (.blob d.value d.size)

/-- the choice of the value for row `i` of the table (cee-sqlite3.c:149-203); `none`: nothing is bound.  `data` is
the caller's array, `none` for NULL -/
def bindRow (st : StmtType) (data : Option (List Data)) (i : Nat) (info : Info) : Res (Option Bound) :=
  let rest : Res (Option Bound) :=
    if info.data.hasValue then (bindData info info.data).map some
    else if st = .insert && info.notNull then (bindDefault info.type).map some
    else .ok none
  match data with
  | none => rest
  | some ds =>
    match ds[i]? with
    | none => .ub
    | some d => if d.hasValue then (bindData info d).map some else rest

/-- the loop (cee-sqlite3.c:143-204): the array `bound` and the log of the bind calls, a parameter number and
what was bound -/
def bindLoop (st : StmtType) (params : List (Option (List Byte))) (data : Option (List Data)) :
    Nat → List Info → List Bool → List (Nat × Bound) → Res (List Bool × List (Nat × Bound))
  | _, [], bound, log => .ok (bound, log)
  | i, info :: infos, bound, log =>
    match paramIndex params info.var with
    | 0 => bindLoop st params data (i + 1) infos bound log
    | k + 1 =>
      if bound.length ≤ k then .ub
      else
        (bindRow st data i info).bind fun b =>
        bindLoop st params data (i + 1) infos (bound.set k true)
          (match b with | none => log | some b => log ++ [(k + 1, b)])

/-- the first entry that is 0 (cee-sqlite3.c:205-206) -/
def firstUnbound (bound : List Bool) : Option Nat := bound.findIdx? (· == false)

/-- the calls of SQLite after `sqlite3_prepare_v2`, and the message -/
inductive Ev where
  | bind (k : Nat) (b : Bound)
  | step
  | finalize
  /-- the message for a statement that was not prepared -/
  | prepError
  /-- the message that parameter `k` is not bound -/
  | unbound (k : Nat)
  deriving DecidableEq

/-- where the returned code comes from -/
inductive RetCode where
  | ofPrepare | ofStep | sqliteError
  deriving DecidableEq, Repr

/-- `cee_sqlite3_bind_run_sql` (cee-sqlite3.c:106-220).  `prep`: the parameters of the prepared statement, `none` if
SQLite rejects the text.  `pp`: the caller wants the statement (`sql_stmt_pp` is not NULL).  Codes returned by the bind
functions are ignored by the code -/
def bindRun (sql : List Byte) (prep : Option (List (Option (List Byte)))) (infos : Option (List Info))
    (data : Option (List Data)) (pp : Bool) : Res (List Ev × RetCode) :=
  let fin : List Ev := if pp then [] else [.finalize]
  match prep, infos with
  | none, _ => .ok ([.prepError], .ofPrepare)
  | some _, none => .ok (.step :: fin, .ofStep)
  | some params, some infos =>
    (bindLoop (getStmtType sql) params data 0 infos (List.replicate params.length false) []).map fun r =>
    let binds := r.2.map fun p => Ev.bind p.1 p.2
    match firstUnbound r.1 with
    | some k => (binds ++ [.unbound (k + 1)], .sqliteError)
    | none => (binds ++ .step :: fin, .ofStep)

end Verif.Sqlite
