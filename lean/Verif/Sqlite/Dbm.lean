import Verif.Json.Escape
import Verif.Json.Value

/-!
# Database management (sqlite3/cee_dbm.c)

The content of a database is an abstract `D`.  Scripts are looked up by name in a separate table; a script is what it
does to a content (`cee_sqlite3_init_db` crashes if SQLite reports an error).  `cee_load_whole_file` is not part of the
repository: it is assumed to return NULL for a missing file, for which `cee_sqlite3_init_db` runs nothing
(cee-sqlite3.c:21-22).  The log database is left out, directories can be made.
-/

namespace Verif.Dbm

open Verif.Json (Byte snprintfAt intText)

/-- the bytes of a text -/
def str (s : String) : List Byte := s.toList.map fun c => UInt8.ofNat c.toNat

/-- `snprintf(buf, 128, …)` as a text -/
def cut (s : List Byte) : List Byte := s.take 127

/-- `struct cee_dbm_path_info` (cee_dbm.h:9-13) -/
structure Paths where
  schema : List Byte
  data : List Byte
  db : List Byte

/-- `struct cee_dbm_db_info` (cee_dbm.h:18-26) -/
structure Settings where
  kind : List Byte
  file : List Byte
  recreate : Bool
  restore : Bool
  customize : Bool
  createVersion : Int

/-- databases and scripts by their names -/
structure World (D : Type) where
  db : List Byte → Option D
  script : List Byte → Option (D → Res D)
  /-- the content of a new file -/
  empty : D
  /-- `cee_sqlite3_drop_all_tables` (cee-sqlite3.c:67-72) -/
  drop : D → D
  /-- `get_user_version` (cee_dbm.c:151-157) -/
  version : D → Int

/-- what is done to the database -/
inductive Act where
  | drop
  | apply (name : List Byte)
  deriving DecidableEq

/-- `my_apply_script` (cee_dbm.c:193-202) -/
def applyScript {D : Type} (w : World D) (name : List Byte) (d : D) : Res D :=
  match w.script name with
  | none => .ok d
  | some f => f d

/-- `<dir>/<stem>_<word>.<version>.sql`, cut to 127 bytes (cee_dbm.c:245, 268-275, 289-291, 307-308) -/
def scriptName (dir stem : List Byte) (word : String) (v : Int) : List Byte :=
  cut (dir ++ [47] ++ stem ++ [95] ++ str word ++ [46] ++ intText v ++ str ".sql")

/-- what `cee_dbm_db_init` leaves: the content, the version, whether the database is new, and what was done -/
structure Done (D : Type) where
  content : D
  version : Int
  isNew : Bool
  acts : List Act

/-- a script that is run if it exists, `access(db_script, F_OK) == 0` (cee_dbm.c:277-281, 293-297, 309-310) -/
def optScript {D : Type} (w : World D) (name : List Byte) (d : D) : Res (D × List Act) :=
  if (w.script name).isSome then (applyScript w name d).map fun d => (d, [.apply name]) else .ok (d, [])

/-- creation (cee_dbm.c:227-230, 245-260): the content, whether it is new, what was done -/
def createDb {D : Type} (w : World D) (p : Paths) (s : Settings) (file : Option (List Byte)) :
    Res (D × Bool × List Act) :=
  let create := scriptName p.schema s.kind "create" s.createVersion
  match w.db (cut (p.db ++ [47] ++ file.getD s.file)) with
  | some d =>
    if s.recreate then (applyScript w create (w.drop d)).map fun d => (d, true, [.drop, .apply create])
    else .ok (d, false, [])
  | none => (applyScript w create w.empty).map fun d => (d, true, [.apply create])

/-- restoration and customization (cee_dbm.c:266-304) -/
def restoreData {D : Type} (w : World D) (p : Paths) (s : Settings) (pre : Option (List Byte)) (v : Int)
    (d : D) : Res (D × List Act) :=
  (optScript w (scriptName p.data (pre.getD s.kind) "insert" v) d).bind fun r =>
  if s.customize then
    (optScript w (scriptName p.data s.kind "customize" v) r.1).map fun q => (q.1, r.2 ++ q.2)
  else .ok r

/-- `cee_dbm_db_init` (cee_dbm.c:213-325) -/
def dbInit {D : Type} (w : World D) (p : Paths) (s : Settings) (file : Option (List Byte))
    (pre : Option (List Byte)) : Res (Done D) :=
  (createDb w p s file).bind fun r =>
  (if r.2.1 && s.restore then restoreData w p s pre (w.version r.1) r.1 else .ok (r.1, [])).bind fun q =>
  (optScript w (scriptName p.schema s.kind "migrate" (w.version r.1)) q.1).map fun m =>
  { content := m.1, version := w.version m.1, isNew := r.2.1, acts := r.2.2 ++ (q.2 ++ m.2) }

/-- `strstr(path, "$HOME")` (cee_dbm.c:105) -/
def hasHome : List Byte → Bool
  | [] => false
  | c :: cs => (str "$HOME").isPrefixOf (c :: cs) || hasHome cs

/-- `replace_home_env` (cee_dbm.c:103-109) on an array of 128 bytes that holds a text.  With a longer result `memcpy` reads
behind `buf` and writes behind `path`. -/
def replaceHome (path home : List Byte) : Res (List Byte) :=
  let text := path.takeWhile (· != 0)
  if hasHome text then
    let new := home ++ text.drop 5
    if new.length < 128 then .ok (new ++ 0 :: path.drop (new.length + 1)) else .ub
  else .ok path

/-- `cee_dbm_path_info_normalize` (cee_dbm.c:111-115) on the three arrays -/
def normalize (p : Paths) (home : List Byte) : Res Paths :=
  (replaceHome p.schema home).bind fun schema =>
  (replaceHome p.data home).bind fun data =>
  (replaceHome p.db home).bind fun db => .ok ⟨schema, data, db⟩

/-- the chain `n = snprintf(next, remaining_size, …); remaining_size -= n; next += n` (cee_dbm.c:328-374; the same with an
offset in 86-101) over the texts of the calls; the buffer and the offset -/
def chain : List Byte → Nat → Nat → List (List Byte) → Res (List Byte × Nat)
  | buf, off, _, [] => .ok (buf, off)
  | buf, off, size, t :: ts =>
    (snprintfAt buf off size t).bind fun buf => chain buf (off + t.length) (sub64 size t.length) ts

/-- `"true"` or `"false"` -/
def tf (b : Bool) : List Byte := if b then str "true" else str "false"

/-- `cee_dbm_path_info2str` (cee_dbm.c:328-342) -/
def pathInfo2str (buf : List Byte) (size : Nat) (p : Paths) : Res (List Byte × Nat) :=
  chain buf 0 size [str "schema_script_path:" ++ p.schema ++ str ", ", str "data_script_path:" ++ p.data ++ str ", ",
    str "db_file_path:" ++ p.db]

/-- `cee_dbm_path_info_snprint` (cee_dbm.c:86-92) -/
def pathInfoSnprint (buf : List Byte) (size : Nat) (p : Paths) : Res (List Byte × Nat) :=
  chain buf 0 size [str "schema_script_path:" ++ p.schema ++ str ", ", str "data_script_path:" ++ p.data ++ str ", ",
    str "db_file_path:" ++ p.db ++ str ", "]

/-- `cee_dbm_db_info2str` (cee_dbm.c:344-374) -/
def dbInfo2str (buf : List Byte) (size : Nat) (s : Settings) (final : Int) : Res (List Byte × Nat) :=
  chain buf 0 size [str "kind:" ++ s.kind ++ str ", ", str "file:" ++ s.file ++ str ", ",
    str "recreate_db:" ++ tf s.recreate ++ str ", ", str "restore_db:" ++ tf s.restore ++ str ", ",
    str "create_version:" ++ intText s.createVersion ++ str ", ", str "final_version:" ++ intText final]

/-- `cee_dbm_settings_snprint` (cee_dbm.c:94-101) -/
def settingsSnprint (buf : List Byte) (size : Nat) (s : Settings) : Res (List Byte × Nat) :=
  chain buf 0 size [str "db_kind:" ++ s.kind ++ str ", ", str "create_version:" ++ intText s.createVersion ++ str ", ",
    str "recreate_db:" ++ tf s.recreate ++ str ", ", str "restore_db:" ++ tf s.restore ++ str ", "]

/-- `cee_dbm_db_backup` (cee_dbm.c:377-429): the command given to `system`, `none` if the database is missing, and the
returned value.  What `system` returns only goes to the log. -/
def backup {D : Type} (w : World D) (p : Paths) (s : Settings) (file pre : Option (List Byte)) (_systemOk : Bool) :
    Option (List Byte) × Bool :=
  let dbFile := cut (p.db ++ [47] ++ file.getD s.file)
  match w.db dbFile with
  | none => (none, false)
  | some d => (some (cut (str "/cxd/s/dump_insert.sh " ++ dbFile ++ str " > " ++ p.data ++ [47] ++ pre.getD s.kind ++
      str "_insert." ++ intText (w.version d) ++ str ".sql")), true)

end Verif.Dbm
