import Verif.Sqlite.Ops

/-!
# Insertion of the objects of an array (sqlite3/cee-sqlite3.c:1147-1192)

The status of every insertion is printed and forgotten; it is an object, so printing it gives no error.  What is written
to the standard error stream is left out.
-/

namespace Verif.Sqlite

open Verif.Json (Val)

/-- `insert_one_json_object` (cee-sqlite3.c:1152-1182): the database afterwards; the function returns 0 in any case.
`cee_json_object_iterate` accepts nothing but objects (cee-json/value.c:511-513). -/
def insertObj {S : Type} (eng : Engine S) (name table : List Byte) (s : S) (one : Val) : Res S :=
  match one with
  | .obj kvs =>
    (insertOne table kvs).bind fun (sql, rows) =>
    (insert { eng, name, infos := some rows, data := none } s (some sql) (some none) none).map (·.1)
  | _ => .segv

/-- `cee_list_iterate` (list.c:134-145) with `insert_one_json_object`: `ret` is `none` before the first call, it has no
initial value -/
def insertAll {S : Type} (eng : Engine S) (name table : List Byte) : S → Option Int → List Val → Res (S × Option Int)
  | s, ret, [] => .ok (s, ret)
  | s, _, v :: vs => (insertObj eng name table s v).bind fun s => insertAll eng name table s (some 0) vs

/-- `cee_sqlite3_insert_json_array` (cee-sqlite3.c:1184-1192) with `cee_json_array_iterate` (cee-json/value.c:605-613):
the database and the number returned, `none` if that is the value of a variable that was never set -/
def insertJsonArray {S : Type} (eng : Engine S) (name table : List Byte) (s : S) (array : Val) : Res (S × Option Int) :=
  match array with
  | .arr vs => insertAll eng name table s none vs
  | _ => .segv

end Verif.Sqlite
