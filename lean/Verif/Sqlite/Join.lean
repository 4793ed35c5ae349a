import Verif.Sqlite.Ops

/-!
# Joining JSON with a table (sqlite3/join.c)

The data of the caller and the data in the table of columns are changed by a join, so both are threaded through.
-/

namespace Verif.Sqlite

open Verif.Json (Val insertKey intText)
open Verif.Dbm (str)

/-- `enum cee_json_type` (cee-json.h:18-30) -/
def typeNum : Val → Nat
  | .atom .undef => 0
  | .atom .null => 1
  | .atom (.bool _) => 2
  | .atom (.dbl _) => 3
  | .atom (.i64 _) => 4
  | .atom (.u64 _) => 5
  | .atom (.str _) => 6
  | .atom (.blob _) => 7
  | .obj _ => 8
  | .arr _ => 9
  | .atom (.strn _) => 10

/-- the value of the element is put into the item, whatever the type of the column is (join.c:34-60); the message if it
is of another type.  `cee_json_to_intx` does not fail for `CEE_JSON_I64`. -/
def setItem (col : List Byte) (d : Data) (v : Val) : Except (List Byte) Data :=
  match v with
  | .atom (.i64 n) => .ok { d with i := cInt (toU64 n) }
  | .atom (.str s) => .ok { d with value := some (s ++ [0]) }
  | .atom .null => .error (str "unsupported json key " ++ col ++ str "'s value is null")
  | v => .error (str "unsupported json key " ++ col ++ str "'s value type " ++ intText (typeNum v))

/-- the item of a row (join.c:19-24) -/
inductive Item where
  | caller (d : Data)
  | own
  | none

/-- the item of row `i` -/
def itemOf (data : Option (List Data)) (i : Nat) (info : Info) : Res Item :=
  let rest : Item := if info.data.hasValue then .own else .none
  match data with
  | none => .ok rest
  | some ds =>
    match ds[i]? with
    | none => .ub
    | some d => .ok (if d.hasValue then .caller d else rest)

/-- the value of the element for a row (join.c:28-60) -/
def valueFor (elem : List (List Byte × Val)) (info : Info) (d : Data) : Except (List Byte) Data :=
  match elem.lookup info.col with
  | none => .error (str "cannot find json key " ++ info.col ++ str " for " ++ info.var)
  | some v => setItem info.col d v

/-- the loop of `join_one` (join.c:17-61): the message if it stopped, and the table and the data afterwards -/
def joinBind (elem : List (List Byte × Val)) :
    Nat → List Info → Option (List Data) → Res (Option (List Byte) × List Info × Option (List Data))
  | _, [], data => .ok (none, [], data)
  | i, info :: infos, data =>
    (itemOf data i info).bind fun
      | .none => (joinBind elem (i + 1) infos data).map fun r => (r.1, info :: r.2.1, r.2.2)
      | .caller d =>
        match valueFor elem info d with
        | .error msg => .ok (some msg, info :: infos, data)
        | .ok d => (joinBind elem (i + 1) infos (data.map fun ds => ds.set i d)).map fun r => (r.1, info :: r.2.1, r.2.2)
      | .own =>
        match valueFor elem info info.data with
        | .error msg => .ok (some msg, info :: infos, data)
        | .ok d => (joinBind elem (i + 1) infos data).map fun r => (r.1, { info with data := d } :: r.2.1, r.2.2)

/-- what `join_one` leaves: the database, the table and the data, the element, and whether to stop -/
structure Joined (S : Type) where
  s : S
  infos : List Info
  data : Option (List Data)
  elem : Val
  stop : Bool

/-- the selection for an element (join.c:62-74) -/
def joinSelect {S : Type} (c : Ctx S) (fuel : Nat) (s : S) (sql : List Byte) (key : Option (List Byte))
    (elem : List (List Byte × Val)) : Res (Option (S × Val × Bool)) :=
  match key with
  | none =>
    (select1 c fuel s sql (some (some (.obj elem)))).map fun r => r.map fun q =>
      (q.1, (q.2.2.getD none).getD (.obj elem), (errorOf (q.2.2.getD none)).isSome)
  | some key =>
    (select c fuel s sql (some none)).bind fun
      | none => .ok none
      | some (s, _, rows, _) =>
        match rows.getD none with
        | none => .ub
        | some v => .ok (some (s, .obj (insertKey key v elem), (errorOf (some v)).isSome))

/-- `join_one` (join.c:11-72); `cee_json_object_get` does not accept anything but objects, but it is only called if there
is an item.  `none`: the selection does not end with this fuel. -/
def joinOne {S : Type} (c : Ctx S) (fuel : Nat) (s : S) (sql : List Byte) (key : Option (List Byte)) (infos : List Info)
    (data : Option (List Data)) (elem : Val) : Res (Option (Joined S)) :=
  match elem with
  | .obj kvs =>
    (joinBind kvs 0 infos data).bind fun
      | (some msg, infos, data) => .ok (some
          { s, infos, data, elem := .obj (insertKey kError (.atom (.str msg)) kvs), stop := true })
      | (none, infos, data) =>
        (joinSelect { c with infos := some infos, data := data } fuel s sql key kvs).map fun r => r.map fun q =>
          { s := q.1, infos, data, elem := q.2.1, stop := q.2.2 }
  | _ => .segv

/-- `cee_list_iterate` with `join_one` (join.c:74-87, list.c:134-144): the database, the table and the data, the elements -/
def joinAll {S : Type} (c : Ctx S) (fuel : Nat) (sql : List Byte) (key : Option (List Byte)) :
    S → List Info → Option (List Data) → List Val → Res (Option (S × List Info × Option (List Data) × List Val))
  | s, infos, data, [] => .ok (some (s, infos, data, []))
  | s, infos, data, e :: es =>
    (joinOne c fuel s sql key infos data e).bind fun
      | none => .ok none
      | some r =>
        if r.stop then .ok (some (r.s, r.infos, r.data, r.elem :: es))
        else (joinAll c fuel sql key r.s r.infos r.data es).map fun o => o.map fun q =>
          (q.1, q.2.1, q.2.2.1, r.elem :: q.2.2.2)

/-- `cee_sqlite3_json_array_join_table` (join.c:74-87); nothing happens if the value is no array -/
def joinArray {S : Type} (c : Ctx S) (fuel : Nat) (sql : List Byte) (key : Option (List Byte)) (s : S)
    (infos : List Info) (data : Option (List Data)) (v : Val) : Res (Option (S × List Info × Option (List Data) × Val)) :=
  match v with
  | .arr es => (joinAll c fuel sql key s infos data es).map fun o => o.map fun q => (q.1, q.2.1, q.2.2.1, .arr q.2.2.2)
  | v => .ok (some (s, infos, data, v))

/-- `cee_sqlite3_json_object_join_table` (join.c:89-101): `join_one` on the value itself; its result is ignored -/
def joinObject {S : Type} (c : Ctx S) (fuel : Nat) (sql : List Byte) (key : Option (List Byte)) (s : S)
    (infos : List Info) (data : Option (List Data)) (v : Val) : Res (Option (S × List Info × Option (List Data) × Val)) :=
  (joinOne c fuel s sql key infos data v).map fun o => o.map fun r => (r.s, r.infos, r.data, r.elem)

end Verif.Sqlite
