import Verif.Json.Local

/-!
# Loading and saving when system calls fail (cee-json/value.c:629-706)

`malloc` is taken to succeed.  What is printed to `stderr` is left out.
-/

namespace Verif.Json

/-- what the system does when a file is loaded: the size that `fstat` gives, `none` when it fails, and the bytes that `read`
stores, none of them when it fails -/
structure Input where
  size : Option Nat
  got : List Byte

/-- `cee_json_load_from_fileno` (value.c:630-650): neither `fstat` nor `read` is checked.  After a failing `fstat` the size is
indeterminate; bytes that `read` did not store are indeterminate, and reading one of them is undefined.  `none` inside is the null
pointer. -/
def loadSys [Libc] (n : Nat) (io : Input) : Res (Option (Option Val)) :=
  match io.size with
  | none => .ub
  | some size => (parsex n io.got size true).map fun r => r.map fun r =>
    match r.1 with
    | .einval => none
    | .value v => v

/-- `cee_json_load_from_file_path` (value.c:663-674), with `cee_json_load_from_FILE` (value.c:654-658): a file that
cannot be opened ends the program -/
def loadPath [Libc] (n : Nat) (file : Option Input) : Res (Option (Option Val)) :=
  match file with
  | none => .segv
  | some io => loadSys n io

/-- `cee_json_load_from_buffer` (value.c:677-686): the first `size` bytes of a buffer -/
def loadBuffer [Libc] (n : Nat) (buf : List Byte) (size : Nat) : Res (Option (Option Val)) :=
  (parsex n buf size true).map fun r => r.map fun r =>
    match r.1 with
    | .einval => none
    | .value v => v

/-- `cee_json_save_fileno` (value.c:688-699), with `cee_json_save` (value.c:701-703): what is in the file, and the result.  `wr`: what
`write` answers to a number of bytes, `none` for -1 (which is the largest number as `size_t`, so never the size). -/
def saveSys [Libc] (n : Nat) (f : Bool) (v : Val) (wr : Nat → Option Nat) : Res (Option (List (Option Byte) × Bool)) :=
  (snprint n f none v).bind fun r =>
  match r with
  | none => .ok none
  | some (_, s) =>
    (snprint n f (some (List.replicate (s + 1) none)) v).map fun r => r.map fun r =>
      match wr s with
      | none => ([], false)
      | some k => (((r.1.getD []).take s).take k, decide (k = s))

end Verif.Json
