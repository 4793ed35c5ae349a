import Verif.Json.Select
import Verif.Json.Heap

/-!
# Making, changing and asking JSON values through the interface of value.c

All nodes live in one heap, as in Heap.lean, so values may be shared and even contain themselves.  The first four
nodes are the static ones for `true`, `false`, `null` and `undefined` (`cee_singleton_init` of singleton.c:28-38
gives the address of the static array it is given and sets its tag again to what it is).  A pointer argument is
`none` when it is NULL.  Keys and strings are given by the bytes before the NUL; they are copied with
`cee_str_mk (st, "%s", ...)` (see C91).
-/

namespace Verif.Json

/-- the static nodes -/
def statics : Heap := [.atom (.bool true), .atom (.bool false), .atom .null, .atom .undef]

/-- `cee_json_true`, `cee_json_false`, `cee_json_bool` (value.c:15-27) -/
def boolPtr (b : Bool) : Nat := if b then 0 else 1
/-- `cee_json_null` (value.c:34-37) -/
def nullPtr : Nat := 2
/-- `cee_json_undefined` (value.c:29-32) -/
def undefPtr : Nat := 3

/-- what can be made without another value -/
inductive New where
  | object
  | array (size : Int)
  | undef
  | null
  | bool (b : Bool)
  | dbl (bits : UInt64)
  | i64 (n : Int)
  | u64 (n : Nat)
  | str (s : List Byte)
  | strn (s : List Byte)
  | blob (size : Nat)

/-- a new node (`cee_tagged_mk`) -/
def alloc (h : Heap) (n : Node) : Nat × Heap := (h.length, h ++ [n])

/-- `cee_json_object_mk` (value.c:294-298), `cee_json_array_mk` (289-292; a negative size is converted to
`size_t`, for which there is no memory and no check), `cee_json_undefined`, `cee_json_null`, `cee_json_bool`
(15-37), `cee_json_double_mk`, `cee_json_i64_mk`, `cee_json_u64_mk` (262-275), `cee_json_str_mk`,
`cee_json_str_mkf` (277-287), `cee_json_strn_mk` (314-319), `cee_json_blob_mk` (307-312) -/
def mkNew (h : Heap) : New → Res (Nat × Heap)
  | .object => .ok (alloc h (.obj (Map.mkE .rc .rc)))
  | .array size => if size < 0 then .ub else .ok (alloc h (.arr []))
  | .undef => .ok (undefPtr, h)
  | .null => .ok (nullPtr, h)
  | .bool b => .ok (boolPtr b, h)
  | .dbl d => .ok (alloc h (.atom (.dbl d)))
  | .i64 n => .ok (alloc h (.atom (.i64 n)))
  | .u64 n => .ok (alloc h (.atom (.u64 n)))
  | .str s => .ok (alloc h (.atom (.str s)))
  | .strn s => .ok (alloc h (.atom (.strn s)))
  | .blob n => .ok (alloc h (.atom (.blob n)))

/-- reading what a pointer points to -/
def node (h : Heap) : Option Nat → Res Node
  | none => .ub
  | some j => match h[j]? with
    | none => .ub
    | some n => .ok n

/-- `cee_json_object_set` (value.c:405-414): nothing for a NULL object, `is_json` (399-403) reads the value -/
def oSet (h : Heap) (j : Option Nat) (key : List Byte) (v : Option Nat) : Res Heap :=
  match j with
  | none => .ok h
  | some j =>
    match h[j]? with
    | none => .ub
    | some (.obj _) =>
      match v with
      | none => .ub
      | some v => objSet h j key v
    | some _ => .segv

/-- `cee_json_object_set_null`, `_bool`, `_str`, `_strf`, `_double`, `_i64`, `_u64` (value.c:439-506) with the
value they make -/
def oSetNew (h : Heap) (j : Option Nat) (key : List Byte) (n : New) : Res Heap :=
  match j with
  | none => .ok h
  | some j =>
    match h[j]? with
    | none => .ub
    | some (.obj _) => (mkNew h n).bind fun r => objSet r.2 j key r.1
    | some _ => .segv

/-- `cee_json_object_kv` (value.c:300-305); the value must be one before the object is made -/
def oKv (h : Heap) (key : List Byte) (v : Option Nat) : Res (Nat × Heap) :=
  (node h v).bind fun _ =>
  let r := alloc h (.obj (Map.mkE .rc .rc))
  (oSet r.2 (some r.1) key v).map fun h => (r.1, h)

/-- `cee_json_object_get` (value.c:365-371) of a pointer -/
def oGet (h : Heap) (j : Option Nat) (key : List Byte) : Res (Option Nat) :=
  (node h j).bind fun _ => objGet h (j.getD 0) key

/-- `cee_json_object_remove` (value.c:373-379) of a pointer -/
def oRemove (h : Heap) (j : Option Nat) (key : List Byte) : Res Heap :=
  (node h j).bind fun _ => objRemove h (j.getD 0) key

/-- `cee_json_object_rename` (value.c:321-331) of a pointer -/
def oRename (h : Heap) (j : Option Nat) (old new : List Byte) : Res (Bool × Heap) :=
  (node h j).bind fun _ => objRename h (j.getD 0) old new

/-- `cee_json_array_append` (value.c:529-538): the reference to the element is counted, so it is read -/
def aAppend (h : Heap) (j : Option Nat) (v : Option Nat) : Res Heap :=
  (node h j).bind fun n =>
  match n with
  | .arr _ => (node h v).bind fun _ => arrAppend h (j.getD 0) (v.getD 0)
  | _ => .segv

/-- `cee_json_array_append_bool`, `_str`, `_strf` (value.c:540-578) with the value they make -/
def aAppendNew (h : Heap) (j : Option Nat) (n : New) : Res Heap :=
  (node h j).bind fun m =>
  match m with
  | .arr _ => (mkNew h n).bind fun r => arrAppend r.2 (j.getD 0) r.1
  | _ => .segv

/-- `cee_json_array_length` (value.c:580-585) -/
def aLength (h : Heap) (j : Option Nat) : Res Nat :=
  (node h j).bind fun n =>
  match n with
  | .arr xs => .ok xs.length
  | _ => .segv

/-- `cee_json_array_get` (value.c:587-595); the index is compared with a `size_t` after it was found not
negative -/
def aGet (h : Heap) (j : Option Nat) (i : Int) : Res (Option Nat) :=
  (node h j).bind fun n =>
  match n with
  | .arr xs => .ok (if 0 ≤ i ∧ i < xs.length then xs[i.toNat]? else none)
  | _ => .segv

/-- `cee_json_array_remove` (value.c:597-603) with `cee_list_remove` (list.c:105-119) -/
def aRemove (h : Heap) (j : Option Nat) (i : Int) : Res Heap :=
  (node h j).bind fun n =>
  match n with
  | .arr xs => .ok (if 0 ≤ i ∧ i < xs.length then h.set (j.getD 0) (.arr (xs.eraseIdx i.toNat)) else h)
  | _ => .segv

/-- `cee_json_empty` (value.c:150-159) -/
def isEmpty (h : Heap) (j : Option Nat) : Res Bool :=
  (node h j).map fun n =>
  match n with
  | .obj m => Map.sizeOf m == 0
  | .arr xs => xs.length == 0
  | .atom _ => false

/-- `enum cee_json_type` (cee-json.h:19-31) -/
inductive Kind where
  | undef | null | bool | dbl | i64 | u64 | str | strn | blob | arr | obj
  deriving DecidableEq, Repr

/-- the type of an atom -/
def Atom.kind : Atom → Kind
  | .undef => .undef
  | .null => .null
  | .bool _ => .bool
  | .dbl _ => .dbl
  | .i64 _ => .i64
  | .u64 _ => .u64
  | .str _ => .str
  | .strn _ => .strn
  | .blob _ => .blob

/-- the type of a node: which of `cee_json_to_object`, `_to_array`, `_to_str`, `_to_strn`, `_to_boxed`,
`_to_blob` (value.c:112-146) give something -/
def kind (h : Heap) (j : Option Nat) : Res Kind :=
  (node h j).map fun n =>
  match n with
  | .obj _ => .obj
  | .arr _ => .arr
  | .atom a => a.kind

/-- `cee_json_to_doublex` (value.c:162-169); `none` is EINVAL -/
def toDoublex (h : Heap) (j : Option Nat) : Res (Option UInt64) :=
  (node h j).map fun n => match n with | .atom (.dbl d) => some d | _ => none

/-- `cee_json_to_i64x` (value.c:180-187) -/
def toI64x (h : Heap) (j : Option Nat) : Res (Option Int) :=
  (node h j).map fun n => match n with | .atom (.i64 d) => some d | _ => none

/-- `cee_json_to_intx` (value.c:171-178) -/
def toIntxP (h : Heap) (j : Option Nat) : Res (Option Int) :=
  (node h j).map fun n => match n with | .atom (.i64 d) => some (cInt (toU64 d)) | _ => none

/-- `cee_json_to_u64x` (value.c:189-196) -/
def toU64x (h : Heap) (j : Option Nat) : Res (Option Nat) :=
  (node h j).map fun n => match n with | .atom (.u64 d) => some d | _ => none

/-- `cee_json_to_boolx` (value.c:198-209): the pointer is compared with those of the static nodes -/
def toBoolx (j : Option Nat) : Option Bool :=
  if j = some (boolPtr true) then some true
  else if j = some (boolPtr false) then some false
  else none

/-- the text of a string (`cee_json_to_str`, value.c:120-122) -/
def toStr (h : Heap) (j : Option Nat) : Res (Option (List Byte)) :=
  (node h j).map fun n => match n with | .atom (.str s) => some s | _ => none

/-! ## programs -/

/-- a call -/
inductive Call where
  | mk (n : New)
  | kv (key : List Byte) (v : Option Nat)
  | set (j : Option Nat) (key : List Byte) (v : Option Nat)
  | setNew (j : Option Nat) (key : List Byte) (n : New)
  | get (j : Option Nat) (key : List Byte)
  | remove (j : Option Nat) (key : List Byte)
  | rename (j : Option Nat) (old new : List Byte)
  | append (j : Option Nat) (v : Option Nat)
  | appendNew (j : Option Nat) (n : New)
  | length (j : Option Nat)
  | at (j : Option Nat) (i : Int)
  | removeAt (j : Option Nat) (i : Int)
  | empty (j : Option Nat)
  | kind (j : Option Nat)
  | double (j : Option Nat)
  | i64 (j : Option Nat)
  | int (j : Option Nat)
  | u64 (j : Option Nat)
  | bool (j : Option Nat)
  | str (j : Option Nat)

/-- what a call gives back -/
inductive Ret where
  | unit
  | ptr (p : Option Nat)
  | num (n : Nat)
  | flag (b : Bool)
  | kind (k : Kind)
  | double (d : Option UInt64)
  | int (n : Option Int)
  | u64 (n : Option Nat)
  | bool (b : Option Bool)
  | str (s : Option (List Byte))
  deriving DecidableEq

/-- a call on the heap -/
def call (h : Heap) : Call → Res (Ret × Heap)
  | .mk n => (mkNew h n).map fun r => (.ptr (some r.1), r.2)
  | .kv k v => (oKv h k v).map fun r => (.ptr (some r.1), r.2)
  | .set j k v => (oSet h j k v).map fun h => (.unit, h)
  | .setNew j k n => (oSetNew h j k n).map fun h => (.unit, h)
  | .get j k => (oGet h j k).map fun r => (.ptr r, h)
  | .remove j k => (oRemove h j k).map fun h => (.unit, h)
  | .rename j k k' => (oRename h j k k').map fun r => (.flag r.1, r.2)
  | .append j v => (aAppend h j v).map fun h => (.unit, h)
  | .appendNew j n => (aAppendNew h j n).map fun h => (.unit, h)
  | .length j => (aLength h j).map fun n => (.num n, h)
  | .at j i => (aGet h j i).map fun r => (.ptr r, h)
  | .removeAt j i => (aRemove h j i).map fun h => (.unit, h)
  | .empty j => (isEmpty h j).map fun b => (.flag b, h)
  | .kind j => (Json.kind h j).map fun k => (.kind k, h)
  | .double j => (toDoublex h j).map fun d => (.double d, h)
  | .i64 j => (toI64x h j).map fun n => (.int n, h)
  | .int j => (toIntxP h j).map fun n => (.int n, h)
  | .u64 j => (toU64x h j).map fun n => (.u64 n, h)
  | .bool j => .ok (.bool (toBoolx j), h)
  | .str j => (toStr h j).map fun s => (.str s, h)

/-- a program: the results of its calls, or how it fails -/
def calls (h : Heap) : List Call → Res (List Ret × Heap)
  | [] => .ok ([], h)
  | c :: cs => (call h c).bind fun r => (calls r.2 cs).map fun r' => (r.1 :: r'.1, r'.2)

end Verif.Json
