import Verif.List.Model

/-!
# Model of `stack.c`

Cells and elements are as in the list model (`CList.Cell`, NULL = `none`); accesses outside the
block and reads of unwritten cells are undefined behaviour.  `malloc` succeeds.
-/

namespace Verif.Stack
open Verif.CList (Cell touch)

/-- `struct header` of stack.c (13-20); bookkeeping section omitted. `top` is an unsigned 64-bit
index, `2^64 - 1` for the empty stack. -/
structure Stack (E : Type) where
  cells : List (Cell E)
  used : Nat
  top : Nat
  capacity : Nat
  pol : Policy

variable {E : Type}

/-- number of whole cells in a block of `sizeof(header) + size * 8` bytes (stack.c:50), the header
having 88 bytes and the computation being modulo 2^64 -/
def allocCells (size : Nat) : Nat := ((88 + size * 8) % 2 ^ 64 - 88) / 8

/-- `cee_stack_mk_e` (stack.c:49-63): `m->top = (0-1)`. -/
def mkE (pol : Policy) (size : Nat) : Stack E :=
  ⟨List.replicate (allocCells size) none, 0, toU64 (-1), size, pol⟩

/-- `cee_stack_push` (stack.c:69-79); returns the C `int` as a Boolean. -/
def push [DecidableEq E] (m : Stack E) (e : Option E) : Res (Bool × Stack E) :=
  if m.used = m.capacity then .ok (false, m)
  else
    let top := incr64 m.top
    let used := incr64 m.used
    if top < m.cells.length then do
      touch m.pol e
      return (true, { m with top := top, used := used, cells := m.cells.set top (some e) })
    else .ub

/-- `cee_stack_pop` (stack.c:81-93). -/
def pop [DecidableEq E] (m : Stack E) : Res (Option E × Stack E) :=
  if m.used = 0 then .ok (none, m)
  else match m.cells[m.top]? with
    | some (some p) => do
      touch m.pol p
      return (p, { m with used := decr64 m.used, top := decr64 m.top })
    | _ => .ub

/-- `cee_stack_top` (stack.c:99-105). -/
def topN (m : Stack E) (nth : Nat) : Res (Option E) :=
  if m.used = 0 ∨ m.used ≤ nth then .ok none
  else match m.cells[sub64 m.top nth]? with
    | some (some p) => .ok p
    | _ => .ub

/-- `cee_stack_size` (stack.c:107-110). -/
def size (m : Stack E) : Nat := m.used

/-- `cee_stack_empty` (stack.c:119-122). -/
def empty (m : Stack E) : Bool := m.used = 0

/-- `cee_stack_full` (stack.c:124-127). -/
def full (m : Stack E) : Bool := m.capacity ≤ m.used

end Verif.Stack
