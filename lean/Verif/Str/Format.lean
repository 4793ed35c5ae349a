import Verif.Str.Model
import Verif.Json.Value

/-!
# Formatted strings (str.c): the lists of arguments

`Verif.Str.Model` takes the formatted text as given.  Here the calls of `vsnprintf` are modelled with their `va_list`:
a function that gets a `va_list` and reads an argument from it leaves it indeterminate in the caller (C11 7.16p3), and
reading from it again is undefined behaviour.  Of the formats, `%s`, `%d` and `%%` are modelled.  The second `va_start`
without `va_end` in `cee_str_mk_e` and `cee_str_replace` is taken as a restart.
-/

namespace Verif.Str

/-- an argument -/
inductive Arg where
  | int (i : Int)
  | str (s : List Byte)
  deriving DecidableEq

/-- a `va_list`: the arguments that are left, `none` if it is indeterminate -/
abbrev Va := Option (List Arg)

/-- the output for a format, the arguments that are left, and whether one was read -/
def vfmt : List Byte → Va → Res (List Byte × Va × Bool)
  | [], ap => .ok ([], ap, false)
  | 37 :: c :: fmt, ap =>
    if c = 37 then (vfmt fmt ap).map fun r => (37 :: r.1, r.2)
    else
      match ap with
      | none => .ub
      | some [] => .ub
      | some (.str s :: args) =>
        if c = 115 then (vfmt fmt (some args)).map fun r => (s ++ r.1, r.2.1, true) else .ub
      | some (.int i :: args) =>
        if c = 100 then (vfmt fmt (some args)).map fun r => (Json.intText i ++ r.1, r.2.1, true) else .ub
  | c :: fmt, ap => if c = 37 then .ub else (vfmt fmt ap).map fun r => (c :: r.1, r.2)

/-- `vsnprintf(…, fmt, ap)`: the output, and `ap` in the caller afterwards -/
def vsn (fmt : List Byte) (ap : Va) : Res (List Byte × Va) :=
  (vfmt fmt ap).map fun r => (r.1, if r.2.2 then none else r.2.1)

/-- `cee_str_mkv` (str.c:70-103): both calls get `ap`; the copy `prob_ap` is not used -/
def mkv (fmt : List Byte) (ap : Va) : Res Block :=
  (vsn fmt ap).bind fun r1 =>
  let s := roundUp (fmtSize r1.1 + headerSize)
  (vsn fmt r1.2).bind fun r2 =>
  (vsnprintf (fresh s) 0 s r2.1).map fun c => ⟨s, s - headerSize, c, .malloc⟩

/-- `cee_str_mk` (str.c:105-118) -/
def mkFmt (fmt : List Byte) (args : List Arg) : Res Block := mkv fmt (some args)

/-- `cee_str_mk_e` (str.c:120-153) with a format: `va_start` before each call -/
def mkEFmt (n : Nat) (fmt : List Byte) (args : List Arg) : Res Block :=
  (vsn fmt (some args)).bind fun r1 =>
  let mem := roundUp (fmtSize r1.1 + headerSize)
  let cap := mem - headerSize
  let _ := n
  (vsn fmt (some args)).bind fun r2 =>
  (vsnprintf (fresh mem) 0 cap r2.1).map fun c => ⟨mem, cap, c, .malloc⟩

/-- `cee_str_catf` (str.c:202-227): `va_start` before each call -/
def catfFmt (b : Block) (fmt : List Byte) (args : List Arg) : Res Block :=
  (strlen b.cells).bind fun slen =>
  (vsn fmt (some args)).bind fun r1 =>
  let s := fmtSize r1.1
  (vsn fmt (some args)).bind fun r2 =>
  if slen + s < b.capacity then
    (vsnprintf b.cells slen s r2.1).map fun c => { b with cells := c }
  else
    let n := 2 * max b.mem s
    let b1 := { resize b n with capacity := n - headerSize }
    (vsnprintf b1.cells slen s r2.1).map fun c => { b1 with cells := c }

/-- `cee_str_replace` (str.c:233-253): `va_start` before each call -/
def replaceFmt (b : Block) (fmt : List Byte) (args : List Arg) : Res Block :=
  (vsn fmt (some args)).bind fun r1 =>
  let s := fmtSize r1.1
  (vsn fmt (some args)).bind fun r2 =>
  if s < b.capacity then
    (vsnprintf b.cells 0 s r2.1).map fun c => { b with cells := c }
  else
    let n := 2 * max b.mem s
    let b1 := { resize b n with capacity := n - headerSize }
    (vsnprintf b1.cells 0 s r2.1).map fun c => { b1 with cells := c }

end Verif.Str
