import Verif.Sqlite.Mkdir
import Verif.Sqlite.Open

/-!
# Start-up with its directories and its log (sqlite3/cee_dbm.c:151-202, 213-325)

As `Verif.Dbm.dbInit`, but with the file system of `Verif.Dbm.mkdirP`, with the log database, and with what is on disk when
the program ends in a crash.  Scripts are looked up by name in a separate table (`cee_load_whole_file` is not part of the
repository: it is assumed to return NULL for a missing file), and a script is a list of statements.  No other process uses
the databases: `begin` and `commit` succeed.
-/

namespace Verif.Dbm

open Verif.Json (Byte intText)

/-- a position in the file system -/
abbrev Pos := List (List Byte)

/-- a row of the table `log` (cee_dbm.c:164-167) without its time -/
structure Row where
  kind : List Byte
  action : List Byte
  info : List Byte
  deriving DecidableEq

/-- the file system, and what the databases in it contain -/
structure Sys (D : Type) where
  fs : Fs
  content : Pos → D

/-- what does not change -/
structure Env (D : Type) where
  /-- where entries can be made -/
  allow : Pos → Bool
  cwd : Pos
  script : List Byte → Option (List (D → Option D))
  /-- the content of a new file -/
  empty : D
  /-- the statements of `cee_sqlite3_drop_all_tables` (cee-sqlite3.c:67-72) -/
  drop : D → D
  /-- the value of `PRAGMA user_version;` -/
  version : D → Int
  /-- `create table if not exists log(…)` (cee_dbm.c:164-168) -/
  logTable : D → Option D
  /-- `insert into log …` (cee_dbm.c:186-188) -/
  logInsert : Row → D → Option D

/-- a program on a system that may end in a crash, and the system it leaves -/
def M (D α : Type) := Sys D → Sys D × Res α

def M.pure {D α : Type} (a : α) : M D α := fun s => (s, .ok a)

def M.bind {D α β : Type} (m : M D α) (f : α → M D β) : M D β := fun s =>
  match m s with
  | (s, .ok a) => f a s
  | (s, .ub) => (s, .ub)
  | (s, .segv) => (s, .segv)

def setAt {α : Type} (f : Pos → α) (q : Pos) (a : α) : Pos → α := fun z => if z = q then a else f z

/-- `sqlite3_open (path, …)`: the file, which is made if it is missing -/
def openFile {D : Type} (e : Env D) (s : Sys D) (path : List Byte) : Option (Sys D × Pos) :=
  match resolve s.fs e.cwd path with
  | some q => if s.fs q = some .file then some (s, q) else none
  | none =>
    match (split path).dropLast.foldlM (walkStep s.fs) (startOf e.cwd path), (split path).getLast? with
    | some d, some c =>
      if s.fs d = some .dir ∧ c ≠ [] ∧ c ≠ dot ∧ c ≠ dots ∧ s.fs (c :: d) = none ∧ e.allow (c :: d) = true then
        some (⟨setAt s.fs (c :: d) (some .file), setAt s.content (c :: d) e.empty⟩, c :: d)
      else none
    | _, _ => none

/-- nothing goes wrong but what the statements do -/
def noFaults : Faults := ⟨true, true, true⟩

/-- the content after `cee_sqlite3_init_db` -/
def Inited.disk {D : Type} (r : Inited D) (d : D) : D :=
  match r.conn with
  | some c => c.disk
  | none => d

/-- `cee_sqlite3_init_db (NULL, path, sql, transaction)` (cee-sqlite3.c:7-65); if the file cannot be opened, NULL is
dereferenced for the message -/
def runInit {D : Type} (e : Env D) (path : List Byte) (sql : Option (List (D → Option D))) (transaction : Bool) : M D Unit :=
  fun s =>
    match openFile e s path with
    | none => (s, .ub)
    | some (s, q) =>
      let r := initDb noFaults none (s.content q) sql transaction
      ({ s with content := setAt s.content q (r.disk (s.content q)) }, r.ret)

/-- `open_dbm_log` (cee_dbm.c:160-171): the log database; `none` is NULL -/
def openLog {D : Type} (e : Env D) (p : Paths) : M D (Option Pos) := fun s =>
  match openFile e s (cut (p.db ++ str "/cee_dbm_log.db")) with
  | none => (s, .ok none)
  | some (s, q) =>
    let r := initDb noFaults (some none) (s.content q) (some [e.logTable]) true
    ({ s with content := setAt s.content q (r.disk (s.content q)) }, r.ret.map fun _ => some q)

/-- `add_log` (cee_dbm.c:173-191): a failure only gives a message; with NULL for the database the statement cannot be
prepared -/
def addLog {D : Type} (e : Env D) (log : Option Pos) (r : Row) : M D Unit := fun s =>
  match log with
  | none => (s, .ok ())
  | some q =>
    match e.logInsert r (s.content q) with
    | none => (s, .ok ())
    | some d => ({ s with content := setAt s.content q d }, .ok ())

/-- `my_apply_script` (cee_dbm.c:193-202) -/
def applyFile {D : Type} (e : Env D) (log : Option Pos) (kind file script : List Byte) : M D Unit :=
  (addLog e log ⟨kind, str "apply", cutTo 64 (script ++ str " to " ++ file)⟩).bind fun _ =>
  runInit e file (e.script script) false

/-- `access (path, F_OK) == 0` for a database -/
def there {D : Type} (e : Env D) (path : List Byte) : M D Bool := fun s => (s, .ok (statOk s.fs e.cwd path))

/-- `get_user_version` (cee_dbm.c:151-157); of a file that cannot be opened the version is 0 -/
def fileVersion {D : Type} (e : Env D) (path : List Byte) : M D Int := fun s =>
  match openFile e s path with
  | none => (s, .ok 0)
  | some (s, q) => (s, .ok (e.version (s.content q)))

/-- the directories (cee_dbm.c:235-243); `n` is the fuel of `mkdirP`.  `rindex` finds what `beforeSlash` finds. -/
def makeDir {D : Type} (e : Env D) (n : Nat) (file : List Byte) : M D Unit := fun s =>
  match beforeSlash file with
  | none => (s, .ok ())
  | some dir =>
    match mkdirP e.allow e.cwd n s.fs (some dir) with
    | none => (s, .ub)
    | some ⟨fs, none⟩ => ({ s with fs := fs }, .segv)
    | some ⟨fs, some r⟩ => ({ s with fs := fs }, if r = 0 then .ok () else .segv)

/-- creation (cee_dbm.c:247-260): whether the database is new -/
def createFile {D : Type} (e : Env D) (log : Option Pos) (s : Settings) (file create : List Byte) : M D Bool :=
  (there e file).bind fun t =>
  if t then
    if s.recreate then
      (addLog e log ⟨s.kind, str "recreate",
        cutTo 256 (str "drop all tables of " ++ file ++ str " to RECREATE a fresh db")⟩).bind fun _ =>
      (runInit e file (some [fun d => some (e.drop d)]) true).bind fun _ =>
      (applyFile e log s.kind file create).bind fun _ => M.pure true
    else M.pure false
  else
    (addLog e log ⟨s.kind, str "create", cutTo 256 (str "create a new " ++ file ++ str " with " ++ create)⟩).bind fun _ =>
    (applyFile e log s.kind file create).bind fun _ => M.pure true

/-- a script that is run if it exists (cee_dbm.c:277-286, 293-302) -/
def optFile {D : Type} (e : Env D) (log : Option Pos) (kind file script : List Byte) (word missing : String) : M D Unit :=
  if (e.script script).isSome then
    (addLog e log ⟨kind, str "restore", cutTo 256 (str "run " ++ script ++ str word ++ file)⟩).bind fun _ =>
    applyFile e log kind file script
  else addLog e log ⟨kind, str "restore", cutTo 256 (str missing ++ script)⟩

/-- restoration and customization (cee_dbm.c:266-304) -/
def restoreFile {D : Type} (e : Env D) (log : Option Pos) (p : Paths) (s : Settings) (file : List Byte)
    (pre : Option (List Byte)) (v : Int) : M D Unit :=
  (optFile e log s.kind file (scriptName p.data (pre.getD s.kind) "insert" v) " to restore data "
    "cannot find restoration script ").bind fun _ =>
  if s.customize then
    optFile e log s.kind file (scriptName p.data s.kind "customize" v) " to customize data "
      "cannot find customization script "
  else M.pure ()

/-- migration (cee_dbm.c:307-320) -/
def migrateFile {D : Type} (e : Env D) (log : Option Pos) (kind file script : List Byte) (v : Int) : M D Unit :=
  if (e.script script).isSome then
    (applyFile e log kind file script).bind fun _ =>
    (fileVersion e file).bind fun v' =>
    if v' ≠ v then
      addLog e log ⟨kind, str "migrate",
        cutTo 256 (str "ran " ++ script ++ str " to migrate " ++ file ++ str " to version " ++ intText v')⟩
    else M.pure ()
  else addLog e log ⟨kind, str "migrate", cutTo 256 (str "cannot find " ++ script ++ str ", no migration")⟩

/-- `cee_dbm_db_init` (cee_dbm.c:213-325): whether the database is new, and its version -/
def start {D : Type} (e : Env D) (n : Nat) (p : Paths) (s : Settings) (file pre : Option (List Byte)) : M D (Bool × Int) :=
  (openLog e p).bind fun log =>
  let f := cut (p.db ++ [47] ++ file.getD s.file)
  (addLog e log ⟨s.kind, str "open", f⟩).bind fun _ =>
  (makeDir e n f).bind fun _ =>
  (createFile e log s f (scriptName p.schema s.kind "create" s.createVersion)).bind fun new =>
  (fileVersion e f).bind fun v =>
  (addLog e log ⟨s.kind, str "open", cutTo 256 (str "user_version " ++ intText v)⟩).bind fun _ =>
  (if new && s.restore then restoreFile e log p s f pre v else M.pure ()).bind fun _ =>
  (migrateFile e log s.kind f (scriptName p.schema s.kind "migrate" v) v).bind fun _ =>
  (fileVersion e f).bind fun v => M.pure (new, v)

end Verif.Dbm
