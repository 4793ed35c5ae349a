import Verif.Sqlite.Bind
import Verif.Json.Select

/-!
# From JSON objects to SQL (sqlite3/cee-sqlite3.c:600-770, 1019-1192)

An object is the list of its entries in the order in which `cee_map_iterate` visits them.  Texts of `cee_str` are lists
of bytes without the NUL; that `cee_str_catf` appends is not proved here.  Every row of a table has a column name.
-/

namespace Verif.Sqlite

open Verif.Json (Val toIntx)

/-- `struct _combo` (cee-sqlite3.c:604-616), as far as it is changed by `populate_usage`: the data, and the names that
are reported -/
structure Use where
  data : List Data
  used : List (List Byte) := []
  unused : List (List Byte) := []
  errors : List (List Byte) := []
  deriving DecidableEq

/-- what happens to a row -/
inductive Pop where
  /-- the data are set and the key is used -/
  | set (d : Data)
  /-- nothing -/
  | keep
  /-- an error is reported and the iteration stops -/
  | error
  deriving DecidableEq

/-- `cee_json_to_i64x` (value.c:180-187) -/
def toI64x : Val → Option Int
  | .atom (.i64 n) => some n
  | _ => none

/-- the row with the name of the key (cee-sqlite3.c:627-685).  `hasErr`: the caller wants errors.  For a text column
and a value that is no text `cee_json_to_str(value)->_` goes through a NULL pointer.  In the blob case an error is
appended to `p->errors` without a check for NULL. -/
def popRow (hasErr : Bool) (info : Info) (d : Data) (v : Val) : Res Pop :=
  match v with
  | .atom .null => .ok (if info.notNull then .keep else .set { d with hasValue := true, isNull := true })
  | v =>
    match info.type with
    | .undef => .segv
    | .int =>
      match toIntx v with
      | some n => .ok (.set { d with i := n, hasValue := true })
      | none => .ok .error
    | .int64 =>
      match toI64x v with
      | some n => .ok (.set { d with i64 := n, hasValue := true })
      | none => .ok .error
    | .text =>
      match v with
      | .atom (.str s) => .ok (.set { d with value := some (s ++ [0]), hasValue := true })
      | _ => .ub
    | .blob => if hasErr then .ok .error else .ub

/-- `populate_usage` (cee-sqlite3.c:618-692); `true`: stop -/
def populate (hasErr : Bool) (infos : List Info) (u : Use) (key : List Byte) (v : Val) : Res (Use × Bool) :=
  match infos.findIdx? (fun info => info.col == key) with
  | none => .ok ({ u with unused := u.unused ++ [key] }, false)
  | some i =>
    match infos[i]?, u.data[i]? with
    | some info, some d =>
      (popRow hasErr info d v).map fun
        | .set d => ({ u with data := u.data.set i d, used := u.used ++ [info.col] }, false)
        | .keep => (u, false)
        | .error => ({ u with errors := u.errors ++ [info.col] }, true)
    | _, _ => .ub

/-- `cee_json_object_iterate(json, &aaa, populate_usage)` (cee-sqlite3.c:769, 816) -/
def populateAll (hasErr : Bool) (infos : List Info) : Use → List (List Byte × Val) → Res Use
  | u, [] => .ok u
  | u, (k, v) :: kvs =>
    (populate hasErr infos u k v).bind fun r =>
    if r.2 then .ok r.1 else populateAll hasErr infos r.1 kvs

/-- a `struct cee_json **` for names: NULL, or a pointer to NULL or to an array -/
abbrev Names := Option (Option (List (List Byte)))

/-- the array that is appended to (cee-sqlite3.c:745-768): a new one if there is none -/
def Names.start (o : Names) : List (List Byte) := (o.getD none).getD []

/-- the array afterwards; nothing is stored through NULL (cee-sqlite3.c:631, 646, 685) -/
def Names.close (o : Names) (xs : List (List Byte)) : Names := o.map fun _ => some xs

/-- `cee_sqlite3_bind_data_from_json` (cee-sqlite3.c:727-771): the data, the three arrays and the value returned.
`cee_get_state` of NULL when `json` is no object. -/
def bindDataFromJson (infos : List Info) (data : List Data) (json : Val) (used unused errors : Names) :
    Res (List Data × Names × Names × Names × Int) :=
  match json with
  | .obj kvs =>
    (populateAll errors.isSome infos ⟨data, used.start, unused.start, errors.start⟩ kvs).map fun u =>
      (u.data, used.close u.used, unused.close u.unused, errors.close u.errors, 0)
  | _ => .ub

/-- the rows that have data (cee-sqlite3.c:705, 715) -/
def hasData (data : Option (List Data)) (i : Nat) (info : Info) : Res Bool :=
  match data with
  | none => .ok info.data.hasValue
  | some ds =>
    match ds[i]? with
    | none => .ub
    | some d => .ok (d.hasValue || info.data.hasValue)

/-- `%s=%s`, a comma in front if there is text already (cee-sqlite3.c:707-710) -/
def addUpdate (s : List Byte) (info : Info) : List Byte :=
  if s.length = 0 then s ++ (info.col ++ [61] ++ info.var) else s ++ (44 :: (info.col ++ [61] ++ info.var))

/-- the columns and the values (cee-sqlite3.c:716-722) -/
def addInsert (c : List Byte × List Byte) (info : Info) : List Byte × List Byte :=
  if c.1.length = 0 then (c.1 ++ info.col, c.2 ++ info.var)
  else (c.1 ++ 44 :: info.col, c.2 ++ 44 :: info.var)

/-- `compose_dyn_stmts` (cee-sqlite3.c:695-725): the text behind `set`, the columns and the values; `none` for those that
are not wanted (`update_set`, `insert_colums` NULL) -/
def compose (input : List (List Byte × Val)) (data : Option (List Data)) :
    Nat → List Info → Option (List Byte) → Option (List Byte × List Byte) →
    Res (Option (List Byte) × Option (List Byte × List Byte))
  | _, [], u, c => .ok (u, c)
  | i, info :: infos, u, c =>
    (hasData data i info).bind fun has =>
    compose input data (i + 1) infos
      (u.map fun u => if (input.lookup info.col).isSome && !info.noUpdate && has then addUpdate u info else u)
      (c.map fun c => if has || info.notNull then addInsert c info else c)

/-- the row made from an entry (cee-sqlite3.c:1031-1049); `none`: the value is null -/
def entryRow (key : List Byte) (v : Val) : Res (Option Info) :=
  match v with
  | .atom (.i64 _) =>
    match toIntx v with
    | some n => .ok (some { var := 64 :: key, col := key, type := .int, data := { i := n, hasValue := true } })
    | none => .segv
  | .atom (.str s) => .ok (some
      { var := 64 :: key, col := key, type := .text, data := { value := some (s ++ [0]), hasValue := true } })
  | .atom .null => .ok none
  | _ => .segv

/-- the loop of `f` (cee-sqlite3.c:1029-1050) over the rows, `none` for a row without name: there is no `break`, and
with a null the function returns -/
def fillRows (key : List Byte) (v : Val) : List (Option Info) → Res (List (Option Info))
  | [] => .ok []
  | some r :: rs => (fillRows key v rs).map fun rs => some r :: rs
  | none :: rs =>
    (entryRow key v).bind fun
      | none => .ok (none :: rs)
      | some r => (fillRows key v rs).map fun rs => some r :: rs

/-- the iteration (cee-sqlite3.c:1062) -/
def fillAll : List (List Byte × Val) → List (Option Info) → Res (List (Option Info))
  | [], rs => .ok rs
  | (k, v) :: kvs, rs => (fillRows k v rs).bind fun rs => fillAll kvs rs

/-- the table up to the first row without name -/
def tableOf : List (Option Info) → List Info
  | some r :: rs => r :: tableOf rs
  | _ => []

/-- `cee_json_to_bind_info` (cee-sqlite3.c:1054-1064): as many rows as there are keys, and one that ends the table -/
def jsonToBindInfo (kvs : List (List Byte × Val)) : Res (List Info) :=
  (fillAll kvs (List.replicate kvs.length none)).map tableOf

/-- `struct insert_columns_values` (cee-sqlite3.c:1102-1107): the rows that are set, `idx` of them -/
structure Cols where
  cols : List Byte := []
  vals : List Byte := []
  rows : List Info := []

/-- the number of rows (cee-sqlite3.c:1105) -/
def maxRows : Nat := 50

/-- `collect_colums_values` (cee-sqlite3.c:1109-1145); writing row 50 is outside of the array -/
def collect (p : Cols) (key : List Byte) (v : Val) : Res Cols :=
  let comma : Byte := if p.cols.length = 0 then 32 else 44
  let cols := p.cols ++ comma :: key
  let add (t : STy) (d : Data) : Res Cols :=
    if p.rows.length < maxRows then
      .ok { cols, vals := p.vals ++ comma :: 64 :: key,
            rows := p.rows ++ [{ var := 64 :: key, col := key, type := t, data := d }] }
    else .ub
  match v with
  | .atom .null => .ok { cols, vals := p.vals ++ comma :: [110, 117, 108, 108], rows := p.rows }
  | .atom (.str s) => add .text { value := some (s ++ [0]), hasValue := true }
  | .atom (.i64 n) => add .int64 { i64 := n, hasValue := true }
  | _ => .segv

/-- the iteration (cee-sqlite3.c:1162) -/
def collectAll : Cols → List (List Byte × Val) → Res Cols
  | p, [] => .ok p
  | p, (k, v) :: kvs => (collect p k v).bind fun p => collectAll p kvs

/-- `"insert into %s (%s) values (%s);"` (cee-sqlite3.c:1169-1172) -/
def insertText (table cols vals : List Byte) : List Byte :=
  [105, 110, 115, 101, 114, 116, 32, 105, 110, 116, 111, 32] ++ table ++ [32, 40] ++ cols ++
    [41, 32, 118, 97, 108, 117, 101, 115, 32, 40] ++ vals ++ [41, 59]

/-- `insert_one_json_object` (cee-sqlite3.c:1152-1182) up to the call of `cee_sqlite3_insert`: the statement and the
table.  A table of 50 rows has no row that ends it: it is read on outside of the array. -/
def insertOne (table : List Byte) (kvs : List (List Byte × Val)) : Res (List Byte × List Info) :=
  (collectAll {} kvs).bind fun p =>
  if p.rows.length < maxRows then .ok (insertText table p.cols p.vals, p.rows) else .ub

end Verif.Sqlite
