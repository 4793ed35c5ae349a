import Verif.Json.Heap
import Verif.Json.RoundTrip

/-!
# Merging JSON files (cee-json/cee_json_merge.c)

The files are read into nodes on the heap, merged there, and the result is printed from the heap.  Early
returns leak the state and the files; neither is modelled.
-/

namespace Verif.Json

/-- the value of an array, `f` giving those of the elements; `none`: fuel used up -/
def readElems (f : Nat → Res (Option Val)) : List Nat → Res (Option (List Val))
  | [] => .ok (some [])
  | c :: cs =>
    (f c).bind fun r =>
    match r with
    | none => .ok none
    | some x => (readElems f cs).map fun r => r.map fun xs => x :: xs

/-- the entries in the order the printer takes them: by the keys in insertion order, each looked up
(snprint.c:31-32, 322-324) -/
def readKeys (f : Nat → Res (Option Val)) (m : ObjMap) : List (List Byte) → Res (Option (List (List Byte × Val)))
  | [] => .ok (some [])
  | k :: ks =>
    match Map.find strcmp m (some k) with
    | none => .ub
    | some c =>
      (f c).bind fun r =>
      match r with
      | none => .ok none
      | some x => (readKeys f m ks).map fun r => r.map fun xs => (k, x) :: xs

/-- the value that `cee_json_snprint` (snprint.c:183-348) sees behind a pointer: containers are opened by `push`
(snprint.c:19-64) -/
def readVal (h : Heap) : Nat → Nat → Res (Option Val)
  | 0, _ => .ok none
  | n + 1, j =>
    match h[j]? with
    | none => .ub
    | some (.atom a) => .ok (some (.atom a))
    | some (.arr xs) => (readElems (readVal h n) xs).map fun r => r.map .arr
    | some (.obj m) => (readKeys (readVal h n) m (Map.insertionOrderedKeys m)).map fun r => r.map .obj

/-- the file system around `cee_json_merge_all` -/
structure Io where
  /-- the contents of a file, if `fopen (name, "r")` succeeds -/
  read : List Byte → Option (List Byte)
  /-- whether `fopen (merged, "w")` succeeds -/
  create : Bool
  /-- how many of the given number of bytes `write` transfers (0 when it fails) -/
  wrote : Nat → Nat

/-- what `cee_json_merge_all` returns or how it fails (`none`: fuel used up), and what is in the file `merged`
afterwards (`none`: it was not touched; a byte that is `none` is indeterminate) -/
structure MOut where
  ret : Res (Option Int)
  merged : Option (List (Option Byte))

/-- the loop over the further files (cee_json_merge.c:26-41); an inner `none` is `return 1` -/
def mergeLoop [Libc] (n : Nat) (io : Io) (d : Nat) : List (List Byte) → Heap → Res (Option (Option Heap))
  | [], h => .ok (some (some h))
  | f :: fs, h =>
    match io.read f with
    | none => .ok (some none)
    | some c =>
      (loadFileno n c).bind fun r =>
      match r with
      | none => .ok none
      | some none => .ok (some none)
      | some (some v) =>
        (place h v).bind fun r =>
        (merge n r.2 d r.1).bind fun r =>
        match r with
        | none => .ok none
        | some (_, h) => mergeLoop n io d fs h

/-- the key for the names -/
def originals : List Byte := [111, 114, 105, 103, 105, 110, 97, 108, 115]

/-- the names are appended (cee_json_merge.c:50-53) -/
def appendNames (a : Nat) : List (List Byte) → Heap → Res Heap
  | [], h => .ok h
  | f :: fs, h =>
    (place h (.atom (.str f))).bind fun r =>
    (arrAppend r.2 a r.1).bind fun h => appendNames a fs h

/-- from the opening of `merged` on (cee_json_merge.c:43-59) -/
def mergeFinish [Libc] (n : Nat) (io : Io) (names : List (List Byte)) (d : Nat) (h : Heap) : MOut :=
  if io.create then
    match (place h (.arr [])).bind fun r =>
        (objSet r.2 d originals r.1).bind fun h =>
        (appendNames r.1 names h).bind fun h =>
        (readVal h n d).bind fun v =>
        match v with
        | none => .ok none
        | some v => saveFileno n true v with
    | .ok (some text) => ⟨.ok (some 0), some (text.take (io.wrote text.length))⟩
    | .ok none => ⟨.ok none, some []⟩
    | .ub => ⟨.ub, some []⟩
    | .segv => ⟨.segv, some []⟩
  else ⟨.ok (some 1), none⟩

/-- `cee_json_merge_all` (cee_json_merge.c:7-59) -/
def mergeAll [Libc] (n : Nat) (io : Io) (names : List (List Byte)) : MOut :=
  match names with
  | [] => ⟨.ub, none⟩
  | f :: fs =>
    match io.read f with
    | none => ⟨.ok (some 1), none⟩
    | some c =>
      match (loadFileno n c).bind fun r =>
          match r with
          | none => .ok none
          | some none => .ok (some none)
          | some (some v) =>
            (place [] v).bind fun r =>
            (mergeLoop n io r.1 fs r.2).map fun o => o.map fun o => o.map fun h => (r.1, h) with
      | .ok none => ⟨.ok none, none⟩
      | .ok (some none) => ⟨.ok (some 1), none⟩
      | .ok (some (some (d, h))) => mergeFinish n io names d h
      | .ub => ⟨.ub, none⟩
      | .segv => ⟨.segv, none⟩

end Verif.Json
