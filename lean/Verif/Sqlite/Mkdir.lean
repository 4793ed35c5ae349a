import Verif.Sqlite.Dbm

/-!
# Making directories (sqlite3/cee_dbm.c:18-55)

The file system is a tree of directories and files without links.  A position is the list of names that lead to it from
the root, the last one first.
-/

namespace Verif.Dbm

open Verif.Json (Byte)

/-- `/` -/
abbrev slash : Byte := 47

/-- `.` -/
abbrev dot : List Byte := [46]

/-- `..` -/
abbrev dots : List Byte := [46, 46]

/-- what is at a position -/
inductive Kind where
  | dir | file
  deriving DecidableEq

/-- the positions in use -/
abbrev Fs := List (List Byte) → Option Kind

/-- the parts of a path between slashes; a path has at least one part, which may be empty -/
def split : List Byte → List (List Byte)
  | [] => [[]]
  | b :: s =>
    if b = slash then [] :: split s
    else match split s with
      | [] => [[b]]
      | c :: cs => (b :: c) :: cs

/-- one step of the resolution of a path (POSIX, 4.16 Pathname Resolution) -/
def walkStep (fs : Fs) (pos : List (List Byte)) (c : List Byte) : Option (List (List Byte)) :=
  if fs pos = some .dir then
    if c = [] ∨ c = dot then some pos
    else if c = dots then some pos.tail
    else if (fs (c :: pos)).isSome then some (c :: pos) else none
  else none

/-- where a path starts -/
def startOf (cwd : List (List Byte)) (path : List Byte) : List (List Byte) :=
  if path.head? = some slash then [] else cwd

/-- the position that a path leads to -/
def resolve (fs : Fs) (cwd : List (List Byte)) (path : List Byte) : Option (List (List Byte)) :=
  if path = [] then none else (split path).foldlM (walkStep fs) (startOf cwd path)

/-- `stat (path, &sb)` succeeds (cee_dbm.c:32) -/
def statOk (fs : Fs) (cwd : List (List Byte)) (path : List Byte) : Bool := (resolve fs cwd path).isSome

/-- `mkdir (path, mode)` (cee_dbm.c:36): the directory is made if the rest of the path leads to a directory that has no such
entry and `allow` (permissions, room) says so; trailing slashes do not count -/
def mkdir (fs : Fs) (allow : List (List Byte) → Bool) (cwd : List (List Byte)) (path : List Byte) : Option Fs :=
  let cs := (split path).filter (· ≠ [])
  match cs.getLast? with
  | none => none
  | some c =>
    if c = dot ∨ c = dots then none
    else
      match cs.dropLast.foldlM (walkStep fs) (startOf cwd path) with
      | none => none
      | some pos =>
        if fs pos = some .dir ∧ fs (c :: pos) = none ∧ allow (c :: pos) = true then
          some fun q => if q = c :: pos then some .dir else fs q
        else none

/-- `dirname` (POSIX, libgen.h) -/
def dirname (path : List Byte) : List Byte :=
  if path = [] then dot
  else
    let a := path.reverse.dropWhile (· == slash)
    if a = [] then [slash]
    else
      let b := a.dropWhile (· != slash)
      if b = [] then dot
      else
        let c := b.dropWhile (· == slash)
        if c = [] then [slash] else c.reverse

/-- how `mkdir_p` ends: the file system, and the returned number or (`none`) a call of `cee_segfault` -/
structure Made where
  fs : Fs
  ret : Option Int

/-- `mkdir_p_ext` (cee_dbm.c:24-46) without the descriptor of the directory, which `mkdir_p` (cee_dbm.c:53-55) does not ask
for; `none` for the path is NULL, `none` for the outcome: fuel used up.  The value returned by the recursive call is not
used. -/
def mkdirP (allow : List (List Byte) → Bool) (cwd : List (List Byte)) : Nat → Fs → Option (List Byte) → Option Made
  | _, fs, none => some ⟨fs, some 1⟩
  | 0, _, some _ => none
  | n + 1, fs, some path =>
    if statOk fs cwd path then some ⟨fs, some 0⟩
    else
      match mkdirP allow cwd n fs (some (dirname path)) with
      | none => none
      | some ⟨fs, none⟩ => some ⟨fs, none⟩
      | some ⟨fs, some _⟩ =>
        match mkdir fs allow cwd path with
        | none => some ⟨fs, none⟩
        | some fs => some ⟨fs, some 0⟩

end Verif.Dbm
