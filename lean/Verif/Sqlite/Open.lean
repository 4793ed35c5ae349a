import Verif.Sqlite.Dbm

/-!
# Opening, initializing and attaching databases (sqlite3/cee-sqlite3.c:7-72, 98-104, 869-878, 1194-1206,
sqlite3/cee_dbm.c:117-171, 204-211)

A connection has the content that is on disk and, within a transaction, the content it is working on.  A script is a list of
statements; a statement gives a new content or an error, and SQLite stops at the first error.
-/

namespace Verif.Dbm

open Verif.Json (Byte)

/-- a connection: the content of the file, and the content seen within a transaction -/
structure Conn (D : Type) where
  disk : D
  open_ : Option D

/-- the content that statements see -/
def Conn.view {D : Type} (c : Conn D) : D := c.open_.getD c.disk

/-- a change goes to the transaction, if there is one, or to the disk -/
def Conn.put {D : Type} (c : Conn D) (d : D) : Conn D :=
  match c.open_ with
  | none => { c with disk := d }
  | some _ => { c with open_ := some d }

/-- `sqlite3_exec` of a script without `begin` and `commit`: whether it succeeds -/
def execAll {D : Type} : Conn D → List (D → Option D) → Conn D × Bool
  | c, [] => (c, true)
  | c, f :: fs =>
    match f c.view with
    | none => (c, false)
    | some d => execAll (c.put d) fs

/-- which of the calls that may fail because of something else (a lock, the disk) succeed -/
structure Faults where
  open_ : Bool
  begin_ : Bool
  commit : Bool

/-- `begin transaction;` fails within a transaction -/
def execBegin {D : Type} (o : Faults) (c : Conn D) : Conn D × Bool :=
  match c.open_ with
  | some _ => (c, false)
  | none => if o.begin_ then ({ c with open_ := some c.disk }, true) else (c, false)

/-- `commit;` -/
def execCommit {D : Type} (o : Faults) (c : Conn D) : Conn D × Bool :=
  match c.open_ with
  | none => (c, false)
  | some d => if o.commit then ({ disk := d, open_ := none }, true) else (c, false)

/-- what `cee_sqlite3_init_db` leaves: how it ended, `*db_p` (`none`: `db_p` is NULL; `some none`: `*db_p` is NULL), the
connection it used, whether it opened and whether it closed it -/
structure Inited (D : Type) where
  ret : Res Unit
  dbp : Option (Option (Conn D))
  conn : Option (Conn D)
  opened : Bool
  closed : Bool

/-- the statements in their transaction (cee-sqlite3.c:25-55): the connection and whether all went well -/
def initRun {D : Type} (o : Faults) (sql : List (D → Option D)) (transaction : Bool) (c : Conn D) : Conn D × Bool :=
  if transaction then
    let r := execBegin o c
    if r.2 then
      let r := execAll r.1 sql
      if r.2 then execCommit o r.1 else r
    else r
  else execAll c sql

/-- from `my_ret` on (cee-sqlite3.c:57-64); closing undoes an open transaction -/
def initEnd {D : Type} (dbp : Option (Option (Conn D))) (c : Conn D) (opened ok : Bool) : Inited D :=
  match dbp with
  | none =>
    if ok then ⟨.ok (), none, some { c with open_ := none }, opened, true⟩ else ⟨.segv, none, some c, opened, false⟩
  | some _ => if ok then ⟨.ok (), some (some c), some c, opened, false⟩ else ⟨.segv, some none, some c, opened, false⟩

/-- `cee_sqlite3_init_db` (cee-sqlite3.c:7-65); `file` is the content of the file.  After a failed `sqlite3_open` the message
is asked of `*db_p`. -/
def initDb {D : Type} (o : Faults) (dbp : Option (Option (Conn D))) (file : D) (sql : Option (List (D → Option D)))
    (transaction : Bool) : Inited D :=
  match dbp with
  | some (some c) =>
    match sql with
    | none => initEnd dbp c false true
    | some s => let r := initRun o s transaction c; initEnd dbp r.1 false r.2
  | _ =>
    if o.open_ then
      match sql with
      | none => initEnd dbp ⟨file, none⟩ true true
      | some s => let r := initRun o s transaction ⟨file, none⟩; initEnd dbp r.1 true r.2
    else
      match dbp with
      | none => ⟨.ub, none, none, true, false⟩
      | some _ => ⟨.ok (), some none, none, true, false⟩

/-- `snprintf (buf, size, …)` as a text -/
def cutTo (size : Nat) (s : List Byte) : List Byte := s.take (size - 1)

/-- a path of two parts (cee_dbm.c:122, 134, 206) -/
def joined (dir file : List Byte) : List Byte := dir ++ [47] ++ file

/-- `cee_dbm_db_exist` (cee_dbm.c:204-211); `there` says whether `access (name, F_OK)` succeeds -/
def dbExist (there : List Byte → Bool) (p : Paths) (file : List Byte) : Bool := there (cutTo 128 (joined p.db file))

/-- `struct cee_sqlite3` (cee-sqlite3.h:16-21) as `cee_sqlite3_init` (cee-sqlite3.c:98-104) fills it -/
structure Handle where
  name : List Byte
  path : List Byte
  /-- the file that was opened -/
  file : List Byte
  deriving DecidableEq

/-- `cee_dbm_open_db` (cee_dbm.c:117-128) -/
def dbmOpen (there : List Byte → Bool) (p : Paths) (kind file : List Byte) : Res Handle :=
  let f := cutTo 128 (joined p.db file)
  if there f then .ok ⟨cutTo 64 kind, cutTo 128 f, f⟩ else .segv

/-- the statement of `cee_dbm_attach_db` (cee_dbm.c:140-141) before it is cut -/
def attachText (p : Paths) (file as_ : List Byte) : List Byte :=
  str "attach 'file:" ++ p.db ++ [47] ++ file ++ str "?mode=ro' as " ++ as_ ++ [59]

/-- `cee_dbm_attach_db` (cee_dbm.c:130-149): the statement that is run; `runs` says whether it succeeds -/
def dbmAttach (there : List Byte → Bool) (runs : List Byte → Bool) (p : Paths) (file as_ : List Byte) : Res (List Byte) :=
  if there (cutTo 256 (joined p.db file)) then
    let s := cutTo 256 (attachText p file as_)
    if runs s then .ok s else .segv
  else .segv

/-- the part before the last slash, `none` without a slash: `strrchr (filename, '/')` (cee-sqlite3.c:1198) -/
def beforeSlash (s : List Byte) : Option (List Byte) :=
  match s.reverse.dropWhile (· != 47) with
  | [] => none
  | _ :: r => some r.reverse

/-- `cee_sqlite3_attach_db` (cee-sqlite3.c:1194-1200): the statement that is run.  `main` is what `sqlite3_db_filename` gives,
empty for a database in memory; without a slash NULL is subtracted from. -/
def attachDb (main file as_ : List Byte) (size : Nat) : Res (List Byte) :=
  match beforeSlash main with
  | none => .ub
  | some dir => .ok (cutTo size (str "attach database \"" ++ dir ++ [47] ++ file ++ str "\" as " ++ as_ ++ [59]))

/-- `cee_sqlite3_detach_db` (cee-sqlite3.c:1202-1206): the statement that is run -/
def detachDb (as_ : List Byte) (size : Nat) : List Byte := cutTo size (str "detach database '" ++ as_ ++ str "';")

/-- the statement of `cee_sqlite3_get_pragma_variable` (cee-sqlite3.c:869-873) -/
def pragmaText (name : List Byte) : List Byte := cutTo 256 (str "PRAGMA " ++ name ++ [59])

/-- `cee_sqlite3_get_pragma_variable` (cee-sqlite3.c:869-878): `value` is what SQLite knows for a statement, `none` if it
cannot be prepared or gives no row (`sqlite3_column_int` is 0 then, also of a NULL statement) -/
def pragma (value : List Byte → Option Int) (name : List Byte) : Int := (value (pragmaText name)).getD 0

/-- `get_user_version` (cee_dbm.c:151-158): `opens` says whether the file can be opened -/
def userVersion (opens : Bool) (value : List Byte → Option Int) : Int :=
  pragma (fun s => if opens then value s else none) (str "user_version")

end Verif.Dbm
