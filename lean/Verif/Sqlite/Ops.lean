import Verif.Sqlite.Json
import Verif.Sqlite.Dbm
import Verif.Json.HeapProps

/-!
# Operations on a database (sqlite3/cee-sqlite3.c:223-598, 776-1016, 1066-1099)

SQLite is a parameter (`Engine`): what preparing and stepping a statement gives.  Values are trees (`Val`), an object is
the list of its entries; that merging two values in memory gives `mergeVal` is C40, what `cee_json_object_append` does is
C65.  `cee_str_mk` is taken to format its arguments.
-/

namespace Verif.Sqlite

open Verif.Json (Val insertKey mergeVal mergeable intText toIntx)
open Verif.Dbm (str)

/-- the codes that are used by name -/
def sqliteOk : Nat := 0
def sqliteError : Nat := 1
def sqliteRow : Nat := 100
def sqliteDone : Nat := 101

/-- the value of a column (`sqlite3_column_type`) -/
inductive Col where
  | int (i : Int)
  | float (bits : UInt64)
  | text (s : List Byte)
  | null
  | blob (b : List Byte)
  deriving DecidableEq

/-- what `sqlite3_step` gives -/
inductive Step where
  | row (cols : List Col)
  | done
  /-- another code -/
  | err (code : Nat)
  deriving DecidableEq

/-- the code returned by `sqlite3_step` -/
def Step.code : Step → Nat
  | .row _ => sqliteRow
  | .done => sqliteDone
  | .err n => n

/-- SQLite and the content of a database -/
structure Engine (S : Type) where
  /-- `sqlite3_prepare_v2`: the parameters, or the code -/
  prep : S → List Byte → Except Nat (List (Option (List Byte)))
  /-- the names of the columns of a statement -/
  names : S → List Byte → List (List Byte)
  /-- the `k`-th call of `sqlite3_step` for a statement with these bindings -/
  step : S → List Byte → List (Nat × Bound) → Nat → S × Step
  rowid : S → Int
  changes : S → Int
  totalChanges : S → Int
  errmsg : S → List Byte

/-- `struct cee_json **status`: `none` is NULL, `some none` points to NULL -/
abbrev Status := Option (Option Val)

/-- the key of errors -/
def kError : List Byte := str "error"

/-- `accept_result` (cee-sqlite3.c:223-234) -/
def acceptResult : Status → Status
  | none => none
  | some none => some (some (.obj []))
  | some (some v) => some (some v)

/-- `cee_json_select(v, ".error")` -/
def errorOf : Option Val → Option Val
  | some (.obj kvs) => kvs.lookup kError
  | _ => none

/-- `cee_json_object_set` and its variants (cee-json/value.c:405-477) through a pointer that may be NULL -/
def setKey (s : Status) (key : List Byte) (v : Val) : Res Status :=
  match s with
  | none => .ok none
  | some none => .ok (some none)
  | some (some (.obj kvs)) => .ok (some (some (.obj (insertKey key v kvs))))
  | some (some _) => .segv

/-- `cee_json_set_error` (cee-json/value.c:381-396) -/
def setError (s : Status) (msg : List Byte) : Res Status :=
  match s with
  | none => .ok none
  | some none => .ok (some none)
  | some (some (.obj kvs)) =>
    if (kvs.lookup kError).isSome then .ok s else .ok (some (some (.obj (insertKey kError (.atom (.str msg)) kvs))))
  | some (some _) => .segv

/-- adding to an array (cee-json/value.c:420-424, 427-430) -/
def addTo (ys : List Val) : Val → List Val
  | .arr zs => ys ++ zs
  | v => ys ++ [v]

/-- `cee_json_object_append` (cee-json/value.c:416-437); a NULL value changes nothing -/
def objAppend (j : Val) (key : List Byte) (v : Option Val) : Res Val :=
  match v with
  | none => .ok j
  | some v =>
    match j with
    | .obj kvs =>
      match kvs.lookup key with
      | none => .ok (.obj (insertKey key v kvs))
      | some (.arr ys) => .ok (.obj (insertKey key (.arr (addTo ys v)) kvs))
      | some (.atom (.str s)) => .ok (.obj (insertKey key (.arr (addTo [.atom (.str s)] v)) kvs))
      | some (.obj _) => .ub
      | some (.atom _) => .segv
    | _ => .segv

/-- `cee_json_merge(a, b)`: `a` afterwards -/
def mergeInto (a b : Val) : Val := if mergeable a b then mergeVal a b else a

/-- the message of a failed statement (cee-sqlite3.c:217, 260, …) -/
def failMsg (name : List Byte) (rc : Nat) (sql errmsg : List Byte) : List Byte :=
  str "SQL:" ++ name ++ str ":[" ++ intText rc ++ str "]'" ++ sql ++ str "' -> " ++ errmsg

/-- the message of a parameter that is not bound (cee-sqlite3.c:208) -/
def unboundMsg (name sql : List Byte) (k : Nat) (param : Option (List Byte)) : List Byte :=
  str "SQL:" ++ name ++ str ":'" ++ sql ++ str "' the " ++ intText k ++ str "th parameter '" ++ param.getD [] ++
    str "' is not bound"

/-- `struct cee_sqlite3` (cee-sqlite3.h:16-21) with the table, the data and the engine of a call -/
structure Ctx (S : Type) where
  eng : Engine S
  name : List Byte
  infos : Option (List Info)
  data : Option (List Data)

/-- a statement up to the first step -/
inductive Started (S : Type) where
  /-- not run: the code, the message, and whether a prepared statement is left -/
  | failed (code : Nat) (msg : List Byte) (left : Bool)
  /-- the bindings, and what the first step gives -/
  | stepped (binds : List (Nat × Bound)) (s : S) (r : Step)

/-- the bind calls in a log -/
def bindsOf (evs : List Ev) : List (Nat × Bound) :=
  evs.filterMap fun
    | .bind k b => some (k, b)
    | _ => none

/-- the parameter that is reported as not bound -/
def unboundOf (evs : List Ev) : Option Nat :=
  evs.findSome? fun
    | .unbound k => some k
    | _ => none

/-- `cee_sqlite3_bind_run_sql` (cee-sqlite3.c:106-219) with an engine; NULL is no statement -/
def start {S : Type} (c : Ctx S) (s : S) (sql : Option (List Byte)) : Res (Started S) :=
  match sql with
  | none => .ub
  | some sql =>
    match c.eng.prep s sql with
    | .error n => .ok (.failed n (failMsg c.name n sql (c.eng.errmsg s)) false)
    | .ok params =>
      (bindRun sql (some params) c.infos c.data true).map fun r =>
      match unboundOf r.1 with
      | some k => .failed sqliteError (unboundMsg c.name sql k (params[k - 1]?.getD none)) true
      | none =>
        let q := c.eng.step s sql (bindsOf r.1) 0
        .stepped (bindsOf r.1) q.1 q.2

/-- `cee_sqlite3_bind_run_sql` without a place for the statement: the database, the code, the status.  If the caller wants
a status it is an object afterwards (cee-sqlite3.c:125-132). -/
def runSql {S : Type} (c : Ctx S) (s : S) (sql : Option (List Byte)) (status : Status) : Res (S × Nat × Status) :=
  (start c s sql).bind fun
    | .failed n msg _ => (setError (acceptResult status) msg).map fun st => (s, n, st)
    | .stepped _ s' r => .ok (s', r.code, acceptResult status)

/-- `struct cee_sqlite3_stmt_strs` (cee-sqlite3.h:81-108) -/
structure Stmts where
  table : List Byte := []
  select : Option (List Byte) := none
  insert : Option (List Byte) := none
  insertDynamic : Bool := false
  insertX : Option (List Byte) := none
  update : Option (List Byte) := none
  template : Option (List Byte) := none
  updateX : Option (List Byte) := none

/-- the statement for an insertion (cee-sqlite3.c:263, 554, 586) -/
def Stmts.insertStmt (st : Stmts) : Option (List Byte) := if st.insertDynamic then st.insertX else st.insert

/-- the statement for an update (cee-sqlite3.c:250, 357) -/
def Stmts.updateStmt (st : Stmts) : Option (List Byte) := st.update.orElse fun _ => st.updateX

/-- running a statement that must end with `SQLITE_DONE` (cee-sqlite3.c:258-260, 289-291, …); `true`: it did -/
def runDone {S : Type} (c : Ctx S) (s : S) (sql : Option (List Byte)) (status : Status) :
    Res (S × Nat × Status × Bool) :=
  (runSql c s sql status).bind fun (s, rc, status) =>
  if rc ≠ sqliteDone then
    (setError status (failMsg c.name rc (sql.getD []) (c.eng.errmsg s))).map fun status => (s, rc, status, false)
  else .ok (s, rc, status, true)

/-- the update when the row exists (cee-sqlite3.c:249-261, 356-371); `more`: what is added to the status at the end -/
def runUpdate {S : Type} (c : Ctx S) (s : S) (stmts : Stmts) (status : Status) (more : S → Status → Res Status) :
    Res (S × Nat × Status) :=
  match stmts.updateStmt with
  | none =>
    match status with
    | none => .segv
    | some _ =>
      (setKey status (str "warning") (.atom (.str (str "nothing to update " ++ stmts.table)))).map fun st =>
      (s, sqliteDone, st)
  | some u =>
    (runDone c s (some u) status).bind fun (s, rc, status, ok) =>
    if ok then (more s status).map fun status => (s, rc, status) else .ok (s, rc, status)

/-- the insertion (cee-sqlite3.c:262-271, 287-300, 585-596): the number of the row is put under `key` -/
def runInsert {S : Type} (c : Ctx S) (s : S) (sql : Option (List Byte)) (status : Status) (key : List Byte) :
    Res (S × Nat × Status) :=
  (runDone c s sql status).bind fun (s, rc, status, ok) =>
  if ok then (setKey status key (.atom (.i64 (cInt (toU64 (c.eng.rowid s)))))).map fun status => (s, rc, status)
  else .ok (s, rc, status)

/-- the key of the number of the row -/
def kRowid : List Byte := str "last_insert_rowid"

/-- `cee_sqlite3_update_or_insert` (cee-sqlite3.c:236-273) -/
def updateOrInsert {S : Type} (c : Ctx S) (s : S) (stmts : Stmts) (status : Status) : Res (S × Nat × Status) :=
  (runSql c s stmts.select (acceptResult status)).bind fun (s, rc, status) =>
  if rc = sqliteRow then runUpdate c s stmts status fun _ st => .ok st
  else runInsert c s stmts.insertStmt status kRowid

/-- `cee_sqlite3_insert` (cee-sqlite3.c:275-301); `*id` is left out -/
def insert {S : Type} (c : Ctx S) (s : S) (sql : Option (List Byte)) (status : Status) (key : Option (List Byte)) :
    Res (S × Nat × Status) :=
  runInsert c s sql (acceptResult status) (key.getD kRowid)

/-- `cee_sqlite3_delete` (cee-sqlite3.c:304-325) -/
def delete {S : Type} (c : Ctx S) (s : S) (sql : Option (List Byte)) (status : Status) (key : Option (List Byte)) :
    Res (S × Nat × Status) :=
  (runDone c s sql (acceptResult status)).bind fun (s, rc, status, _) =>
  (setKey status (key.getD (str "deleted")) (.atom (.i64 (c.eng.changes s)))).map fun status => (s, rc, status)

/-- `cee_sqlite3_update_if_exists` (cee-sqlite3.c:343-373) -/
def updateIfExists {S : Type} (c : Ctx S) (s : S) (stmts : Stmts) (status : Status) : Res (S × Nat × Status) :=
  (runSql c s stmts.select (acceptResult status)).bind fun (s, rc, status) =>
  if rc = sqliteRow then
    runUpdate c s stmts status fun s st => setKey st (str "updated_rows") (.atom (.i64 (c.eng.totalChanges s)))
  else .ok (s, rc, status)

/-- `cee_sqlite3_update` (cee-sqlite3.c:328-341) -/
def update {S : Type} (c : Ctx S) (s : S) (stmts : Stmts) (status : Status) : Res (S × Nat × Status) :=
  (updateIfExists c s stmts status).bind fun (s, rc, status) =>
  if rc = sqliteOk then
    (setError status (failMsg c.name rc (stmts.select.getD []) (c.eng.errmsg s))).map fun st => (s, rc, st)
  else .ok (s, rc, status)

/-! ## rows -/

/-- the row of the table for a column (cee-sqlite3.c:375-395); `false` without one -/
def flagOf (infos : Option (List Info)) (flag : Info → Bool) (name : List Byte) : Bool :=
  match infos with
  | none => false
  | some infos =>
    match infos.find? (fun i => i.col == name) with
    | some i => flag i
    | none => false

/-- the value made of a column (cee-sqlite3.c:457-480): a text is read up to its NUL -/
def colVal : Col → Val
  | .int i => .atom (.i64 i)
  | .float b => .atom (.dbl b)
  | .text s => .atom (.str (s.takeWhile (· != 0)))
  | .null => .atom .null
  | .blob b => .atom (.blob b.length)

/-- the loop of `get_a_row` (cee-sqlite3.c:451-482): the object, the last value, the last label flag -/
def rowLoop (infos : Option (List Info)) :
    List (List Byte × Col) → List (List Byte × Val) → Option Val → Bool → List (List Byte × Val) × Option Val × Bool
  | [], obj, single, noLabel => (obj, single, noLabel)
  | (name, c) :: cols, obj, single, noLabel =>
    if flagOf infos (·.noReturn) name then rowLoop infos cols obj single noLabel
    else rowLoop infos cols (insertKey name (colVal c) obj) (some (colVal c)) (flagOf infos (·.noLabel) name)

/-- `get_a_row` (cee-sqlite3.c:441-488): what is appended to the array; `NULL` cannot be appended -/
def rowVal (infos : Option (List Info)) (cols : List (List Byte × Col)) : Res Val :=
  let r := rowLoop infos cols [] none false
  if cols.length = 1 ∧ r.2.2 = true then
    match r.2.1 with
    | some v => .ok v
    | none => .ub
  else .ok (.obj r.1)

/-- the columns the callback sees: without a row `sqlite3_column_type` gives NULL -/
def visible (names : List (List Byte)) : Step → List (List Byte × Col)
  | .row cols => names.zip cols
  | _ => names.map fun n => (n, .null)

/-- the loop of `cee_sqlite3_select_iter` (cee-sqlite3.c:430-438).  `f` gives the next state of the caller, and `true` to
stop.  `none`: not finished with this fuel.  The statement is finalized in the end. -/
def iterLoop {S A : Type} (c : Ctx S) (sql : List Byte) (names : List (List Byte)) (binds : List (Nat × Bound))
    (f : A → List (List Byte × Col) → Res (A × Bool)) : Nat → Nat → S → Step → A → Res (Option (S × Nat × A))
  | 0, _, _, _, _ => .ok none
  | n + 1, k, s, r, a =>
    if r.code = sqliteDone then .ok (some (s, sqliteDone, a))
    else
      (f a (visible names r)).bind fun (a, stop) =>
      if stop then .ok (some (s, sqliteDone, a))
      else
        let q := c.eng.step s sql binds k
        iterLoop c sql names binds f n (k + 1) q.1 q.2 a

/-- what an iteration leaves -/
structure Sel (S A : Type) where
  s : S
  code : Nat
  status : Status
  acc : A
  /-- a prepared statement is left that was not finalized -/
  left : Bool

/-- the failure (cee-sqlite3.c:422-429); `msg`: the error of `my_status`, if there is one -/
def iterFail (name : List Byte) (sql errmsg : List Byte) (code : Nat) (msg : Option (List Byte)) (status : Status) :
    Res Status :=
  match acceptResult status with
  | none => .ok none
  | some none => .ok (some none)
  | some (some v) =>
    (objAppend v kError (msg.map fun m => .atom (.str m))).bind fun v =>
    setError (some (some v)) (failMsg name code sql errmsg)

/-- the result of the loop -/
def iterDone {S A : Type} (status : Status) (r : Option (S × Nat × A)) : Option (Sel S A) :=
  r.map fun q => { s := q.1, code := q.2.1, status := status, acc := q.2.2, left := false }

/-- `cee_sqlite3_select_iter` (cee-sqlite3.c:400-439) -/
def selectIter {S A : Type} (c : Ctx S) (fuel : Nat) (s : S) (sql : List Byte)
    (f : A → List (List Byte × Col) → Res (A × Bool)) (a : A) (status : Status) : Res (Option (Sel S A)) :=
  match status with
  | some (some (.atom _)) => .segv
  | some (some (.obj _)) => .segv
  | _ =>
    (start c s (some sql)).bind fun
      | .failed n msg left =>
        (iterFail c.name sql (c.eng.errmsg s) n (some msg) status).map fun st =>
          some { s := s, code := n, status := st, acc := a, left := left }
      | .stepped binds s' r =>
        if r.code ≠ sqliteRow ∧ r.code ≠ sqliteDone then
          (iterFail c.name sql (c.eng.errmsg s') r.code none status).map fun st =>
            some { s := s', code := r.code, status := st, acc := a, left := true }
        else (iterLoop c sql (c.eng.names s sql) binds f fuel 1 s' r a).map (iterDone status)

/-- the callback of `cee_sqlite3_select` -/
def addRow (infos : Option (List Info)) (rows : List Val) (cols : List (List Byte × Col)) : Res (List Val × Bool) :=
  (rowVal infos cols).map fun v => (rows ++ [v], false)

/-- `cee_sqlite3_select` (cee-sqlite3.c:492-506): the database, the code, the status, and whether a statement is left -/
def select {S : Type} (c : Ctx S) (fuel : Nat) (s : S) (sql : List Byte) (status : Status) :
    Res (Option (S × Nat × Status × Bool)) :=
  (selectIter c fuel s sql (addRow c.infos) [] status).map fun r => r.map fun r =>
    (r.s, r.code,
      (match r.status with
        | none => none
        | some none => if r.code = sqliteDone then some (some (.arr r.acc)) else some none
        | some (some v) => if r.code = sqliteDone then some (some (mergeInto v (.arr r.acc))) else some (some v)),
      r.left)

/-- what is done with a value found (cee-sqlite3.c:529-534) -/
def giveOne (status : Status) (one : Val) : Status :=
  match status with
  | none => none
  | some none => some (some one)
  | some (some v) => some (some (mergeInto v one))

/-- an error is added to the status (cee-sqlite3.c:520-525) -/
def giveError (status : Status) (error : Val) : Res Status :=
  match acceptResult status with
  | some (some v) => (objAppend v kError (some error)).map fun v => some (some v)
  | st => .ok st

/-- the first element: `cee_json_select(result, "[0]")` -/
def firstOf : Option Val → Option Val
  | some (.arr (v :: _)) => some v
  | _ => none

/-- `cee_sqlite3_select1` (cee-sqlite3.c:511-536) -/
def select1 {S : Type} (c : Ctx S) (fuel : Nat) (s : S) (sql : List Byte) (status : Status) :
    Res (Option (S × Nat × Status)) :=
  (select c fuel s sql (some none)).bind fun
    | none => .ok none
    | some (s, rc, result, _) =>
      match errorOf (result.getD none) with
      | some e => (giveError status e).map fun st => some (s, rc, st)
      | none =>
        match firstOf (result.getD none) with
        | some one => .ok (some (s, rc, giveOne status one))
        | none => .ok (some (s, rc, status))

/-- the result of `cee_sqlite3_select1` when there is one (cee-sqlite3.c:567-582) -/
def orFound (status : Status) (v : Val) : Res Status :=
  match status with
  | none => .ok none
  | some none => .ok (some (some v))
  | some (some old) =>
    match errorOf (some v) with
    | some e => (objAppend old kError (some e)).map fun v => some (some v)
    | none => .ok (some (some (mergeInto old v)))

/-- `cee_sqlite3_select1_or_insert` (cee-sqlite3.c:558-598) -/
def select1OrInsert {S : Type} (c : Ctx S) (fuel : Nat) (s : S) (stmts : Stmts) (status : Status) :
    Res (Option (S × Nat × Status)) :=
  match stmts.select with
  | none => .ub
  | some sel =>
    (select1 c fuel s sel (some none)).bind fun
      | none => .ok none
      | some (s, rc, result) =>
        match result.getD none with
        | some v => (orFound status v).map fun st => some (s, rc, st)
        | none => (runInsert c s stmts.insertStmt (acceptResult status) kRowid).map some

/-- `cee_sqlite3_select1_as` (cee-sqlite3.c:961-986).  Without a row the NULL pointer `one` is merged, which changes
nothing, or stored: `is_json` dereferences it. -/
def select1As {S : Type} (c : Ctx S) (fuel : Nat) (s : S) (sql : List Byte) (status : Status) (key : List Byte) :
    Res (Option (S × Nat × Status)) :=
  (select1 c fuel s sql (some none)).bind fun
    | none => .ok none
    | some (s, rc, one) =>
      match status, errorOf (one.getD none) with
      | none, _ => .ok (some (s, rc, none))
      | some _, some _ => .ok (some (s, rc, one))
      | some _, none =>
        match acceptResult status, one.getD none with
        | some (some (.obj kvs)), some v =>
          .ok (some (s, rc, some (some (.obj (insertKey key (match kvs.lookup key with
            | some old => mergeInto old v
            | none => v) kvs)))))
        | some (some (.obj kvs)), none =>
          match kvs.lookup key with
          | some old => .ok (some (s, rc, some (some (.obj (insertKey key old kvs)))))
          | none => .ub
        | _, _ => .segv

/-- `cee_sqlite3_select_as` (cee-sqlite3.c:990-1016) -/
def selectAs {S : Type} (c : Ctx S) (fuel : Nat) (s : S) (sql : List Byte) (status : Status) (key : List Byte) :
    Res (Option (S × Nat × Status)) :=
  (select c fuel s sql (some none)).bind fun
    | none => .ok none
    | some (s, rc, array, _) =>
      match status with
      | none => .ok (some (s, rc, none))
      | some none => .ok (some (s, rc, array))
      | some (some v) =>
        match errorOf (array.getD none) with
        | some e => (objAppend v kError (some e)).map fun v => some (s, rc, some (some v))
        | none => (objAppend v key (array.getD none)).map fun v => some (s, rc, some (some v))

/-! ## the next number -/

/-- the query (cee-sqlite3.c:1077-1079), cut to 127 bytes -/
def nextQuery (column clause : List Byte) : List Byte :=
  Dbm.cut (str "select max(" ++ column ++ str ") as max_value " ++ clause ++ str ";")

/-- `return int_value + 1` (cee-sqlite3.c:1089-1090) -/
def succInt (n : Int) : Res Int := if n = 2 ^ 31 - 1 then .ub else .ok (n + 1)

/-- the value under `max_value` (cee-sqlite3.c:1087-1094); `none`: it is of no use -/
def maxValue (input : Option Val) : Res (Option Int) :=
  match input with
  | some (.obj kvs) =>
    match kvs.lookup (str "max_value") with
    | some (.atom (.i64 n)) => (succInt (cInt (toU64 n))).map some
    | some (.atom .null) => .ok (some 1)
    | _ => .ok none
  | _ => .ok none

/-- `cee_sqlite3_next_int` (cee-sqlite3.c:1074-1099): the number and the status; `*status` is set in case of an error -/
def nextInt {S : Type} (c : Ctx S) (fuel : Nat) (s : S) (column clause : List Byte) (status : Status) :
    Res (Option (S × Int × Status)) :=
  (select1 { c with infos := none, data := none } fuel s (nextQuery column clause) (some none)).bind fun
    | none => .ok none
    | some (s, _, input) =>
      let fail : Res (Option (S × Int × Status)) :=
        match status with
        | none => .ub
        | some _ => .ok (some (s, -1, input))
      match errorOf (input.getD none) with
      | some _ => fail
      | none =>
        (maxValue (input.getD none)).bind fun
          | some n => .ok (some (s, n, status))
          | none => fail

/-! ## operations with a JSON object -/

/-- `cee_str_mk(state, template, set)`: the first `%s` is replaced -/
def fill (set : List Byte) : List Byte → List Byte
  | [] => []
  | 37 :: 115 :: t => set ++ t
  | c :: t => c :: fill set t

/-- the table and the data of an object (cee-sqlite3.c:814-822) -/
def genericData {S : Type} (c : Ctx S) (json : List (List Byte × Val)) : Res (Ctx S × Use) :=
  match c.infos with
  | some infos =>
    (populateAll true infos { data := c.data.getD [] } json).map fun u => ({ c with data := c.data.map fun _ => u.data }, u)
  | none =>
    match c.data with
    | some _ => .segv
    | none => (jsonToBindInfo json).map fun infos => ({ c with infos := some infos }, { data := [] })

/-- the statements (cee-sqlite3.c:823-835) from the texts of `compose_dyn_stmts` -/
def genericStmts (stmts : Stmts) (r : Option (List Byte) × Option (List Byte × List Byte)) : Stmts :=
  { stmts with
    updateX := (match stmts.template, r.1 with
      | some t, some set => if set.length = 0 then none else some (fill set t)
      | _, _ => stmts.updateX)
    insertX := (match r.2 with
      | some p => some (str "insert into " ++ stmts.table ++ str " (" ++ p.1 ++ str ") values (" ++ p.2 ++ str ")")
      | none => stmts.insertX) }

/-- the array of the messages, here only the names of the columns -/
def namesVal (l : List (List Byte)) : Val := .arr (l.map fun s => .atom (.str s))

/-- the object `debug` (cee-sqlite3.c:839-859); glibc prints a NULL pointer as `(null)` -/
def debugVal (stmts : Stmts) (u : Use) : Val :=
  .obj ((if stmts.template.isSome then [(str "update", .atom (.str (stmts.updateX.getD (str "(null)"))))] else []) ++
    (if stmts.insertDynamic then [(str "insert", .atom (.str (stmts.insertX.getD (str "(null)"))))] else []) ++
    [(str "used_keys", namesVal u.used)] ++
    (if u.unused = [] then [] else [(str "unused_keys", namesVal u.unused)]))

/-- what is added to the status at the end (cee-sqlite3.c:851-863) -/
def genericEnd (stmts : Stmts) (u : Use) (status : Status) : Res Status :=
  (setKey status (str "debug") (debugVal stmts u)).bind fun status =>
  if u.errors = [] then .ok status else setKey status kError (namesVal u.errors)

/-- `cee_sqlite3_generic_opcode` (cee-sqlite3.c:776-866) for an object; `none` if `f` does not end with its fuel -/
def generic {S : Type} (c : Ctx S) (s : S) (json : List (List Byte × Val)) (stmts : Stmts) (status : Status)
    (f : Ctx S → S → Stmts → Status → Res (Option (S × Nat × Status))) : Res (Option (S × Nat × Status)) :=
  (genericData c json).bind fun (c, u) =>
  (compose json c.data 0 (c.infos.getD []) (stmts.template.map fun _ => [])
    (if stmts.insertDynamic then some ([], []) else none)).bind fun r =>
  let stmts := genericStmts stmts r
  (f c s stmts (acceptResult status)).bind fun
    | none => .ok none
    | some (s, rc, status) => (genericEnd stmts u status).map fun status => some (s, rc, status)

/-- `cee_sqlite3_update_or_insert_op` (cee-sqlite3.c:896-906) -/
def updateOrInsertOp {S : Type} (c : Ctx S) (s : S) (json : List (List Byte × Val)) (stmts : Stmts) (status : Status) :
    Res (Option (S × Nat × Status)) :=
  generic c s json stmts status fun c s stmts status => (updateOrInsert c s stmts status).map some

/-- `cee_sqlite3_update_op` (cee-sqlite3.c:908-919) -/
def updateOp {S : Type} (c : Ctx S) (s : S) (json : List (List Byte × Val)) (stmts : Stmts) (status : Status) :
    Res (Option (S × Nat × Status)) :=
  generic c s json stmts status fun c s stmts status => (update c s stmts status).map some

/-- `cee_sqlite3_update_if_exists_op` (cee-sqlite3.c:921-932) -/
def updateIfExistsOp {S : Type} (c : Ctx S) (s : S) (json : List (List Byte × Val)) (stmts : Stmts) (status : Status) :
    Res (Option (S × Nat × Status)) :=
  generic c s json stmts status fun c s stmts status => (updateIfExists c s stmts status).map some

/-- `cee_sqlite3_select_op` (cee-sqlite3.c:934-945) with `cee_sqlite3_select_wrapper` (cee-sqlite3.c:541-547) -/
def selectOp {S : Type} (c : Ctx S) (fuel : Nat) (s : S) (json : List (List Byte × Val)) (stmts : Stmts)
    (status : Status) : Res (Option (S × Nat × Status)) :=
  generic c s json stmts status fun c s stmts status =>
    match stmts.select with
    | none => .ub
    | some sql => (select c fuel s sql status).map fun r => r.map fun q => (q.1, q.2.1, q.2.2.1)

/-- `cee_map_rename` (map.c:202-210) on the entries -/
def renameKey (old new : List Byte) (kvs : List (List Byte × Val)) : List (List Byte × Val) :=
  match kvs.lookup old with
  | none => kvs
  | some v => insertKey new v (kvs.filter fun e => e.1 != old)

/-- `cee_sqlite3_insert_op` (cee-sqlite3.c:882-894) with `cee_sqlite3_insert_wrapper` (cee-sqlite3.c:549-556); `*status`
is read although `status` may be NULL -/
def insertOp {S : Type} (c : Ctx S) (s : S) (json : List (List Byte × Val)) (stmts : Stmts) (status : Status) :
    Res (Option (S × Nat × Status)) :=
  (generic c s json stmts status fun c s stmts status =>
    (insert c s stmts.insertStmt status none).map some).bind fun
    | none => .ok none
    | some (s, rc, status) =>
      match status with
      | none => .ub
      | some (some (.obj kvs)) => .ok (some (s, rc, some (some (.obj (renameKey kRowid (str "id") kvs)))))
      | st => .ok (some (s, rc, st))

end Verif.Sqlite
