import Verif.Base

/-!
# Model of `list.c`

Elements are pointers `Option E` (`none` = NULL).  The heap array `a` is a list of cells; a cell is
`none` when it has never been written.  Reading or writing outside the allocated array, and reading
an unwritten cell, is undefined behaviour.  `malloc`/`realloc` succeed.  Reference counts are not
modelled here except that counting a NULL element dereferences it (UB).
-/

namespace Verif.CList

/-- content of a cell of the array: unwritten, or a pointer -/
abbrev Cell (E : Type) := Option (Option E)

/-- `struct header` of list.c (14-20) with the array `_.a`; bookkeeping section omitted. -/
structure CList (E : Type) where
  cells : List (Cell E)
  size : Nat
  capacity : Nat
  pol : Policy
  deriving DecidableEq

variable {E : Type}

/-- number of cells obtained from `malloc(cap * sizeof(void *))` with 64-bit arithmetic -/
def allocCells (cap : Nat) : Nat := cap * 8 % 2 ^ 64 / 8

/-- `cee_list_mk_e` (list.c:50-67). -/
def mkE (pol : Policy) (cap : Nat) : CList E :=
  ⟨List.replicate (allocCells cap) none, 0, cap, pol⟩

/-- `a[i]` as an rvalue -/
def rd (cells : List (Cell E)) (i : Int) : Res (Option E) :=
  if i < 0 then .ub
  else match cells[i.toNat]? with
    | some (some e) => .ok e
    | _ => .ub

/-- `a[i] = e` -/
def wr (cells : List (Cell E)) (i : Int) (e : Option E) : Res (List (Cell E)) :=
  if i < 0 then .ub
  else if i.toNat < cells.length then .ok (cells.set i.toNat (some e))
  else .ub

/-- `realloc`: keep the old cells that fit, the rest is unwritten -/
def reallocCells (cells : List (Cell E)) (n : Nat) : List (Cell E) :=
  cells.take n ++ List.replicate (n - cells.length) none

/-- growth step shared by append (list.c:75-81) and insert (89-95): double, or 1 from 0 -/
def grow (l : CList E) : CList E :=
  if l.size = l.capacity then
    let cap := (l.capacity + (if l.capacity ≠ 0 then l.capacity else 1)) % 2 ^ 64
    { l with capacity := cap, cells := reallocCells l.cells (allocCells cap) }
  else l

/-- `cee_incr_indegree(policy, e)` dereferences `e` unless the policy is NOOP
(cee-common.c:106-117) -/
def touch (pol : Policy) (e : Option E) : Res Unit :=
  if e = none ∧ pol ≠ .noop then .ub else .ok ()

/-- `cee_list_append` (list.c:73-85). -/
def append [DecidableEq E] (l : CList E) (e : Option E) : Res (CList E) := do
  let l := grow l
  let cells ← wr l.cells l.size e
  let l := { l with cells := cells, size := l.size + 1 }
  touch l.pol e
  return l

/-- the loop `for (; i > index; i--) a[i] = a[i-1];` (list.c:97-98) with `n` iterations left -/
def shiftUp : Nat → List (Cell E) → Int → Res (List (Cell E))
  | 0, cells, _ => .ok cells
  | n + 1, cells, i => do
    let e ← rd cells (i - 1)
    let cells ← wr cells i e
    shiftUp n cells (i - 1)

/-- `cee_list_insert` (list.c:87-103).  `i = m->size` converts to `int`. -/
def insert [DecidableEq E] (l : CList E) (index : Int) (e : Option E) : Res (CList E) := do
  let l := grow l
  let cells ← shiftUp (cInt l.size - index).toNat l.cells (cInt l.size)
  let cells ← wr cells index e
  let l := { l with cells := cells, size := l.size + 1 }
  touch l.pol e
  return l

/-- the loop `for (; i < size - 1; i++) a[i] = a[i+1];` (list.c:113-114) with `n` iterations left -/
def shiftDown : Nat → List (Cell E) → Int → Res (List (Cell E))
  | 0, cells, _ => .ok cells
  | n + 1, cells, i => do
    let e ← rd cells (i + 1)
    let cells ← wr cells i e
    shiftDown n cells (i + 1)

/-- `cee_list_remove` (list.c:105-119).  `index >= m->size` converts the index to an unsigned
64-bit number.  The counter is an `int`: more than 2^31 elements overflow it (UB). -/
def remove [DecidableEq E] (l : Option (CList E)) (index : Int) :
    Res (Bool × Option (CList E)) :=
  match l with
  | none => .ok (false, none)
  | some l =>
    if l.size ≤ toU64 index then .ok (false, some l)
    else do
      let e ← rd l.cells index
      let cells ← wr l.cells index none
      if 2 ^ 31 < l.size then .ub
      else do
        let cells ← shiftDown (l.size - 1 - index.toNat) cells index
        touch l.pol e
        return (true, some { l with cells := cells, size := l.size - 1 })

/-- `cee_list_size` (list.c:122-126). -/
def sizeOf (l : Option (CList E)) : Nat :=
  match l with
  | none => 0
  | some l => l.size

/-- `cee_list_capacity` (list.c:128-132). -/
def capacityOf (l : Option (CList E)) : Nat :=
  match l with
  | none => 0
  | some l => l.capacity

/-- the loop of `cee_list_iterate` (list.c:139-142) for a callback that leaves the list alone:
`n` elements left, `ret` is the variable `ret` (`none` = still uninitialised). -/
def iterLoop (l : CList E) (f : σ → Option E → Int → Int × σ) :
    Nat → Int → Option Int → σ → Res (Option Int × σ)
  | 0, _, ret, s => .ok (ret, s)
  | n + 1, i, _, s =>
    match rd l.cells i with
    | .ok e =>
      let r := f s e i
      if r.1 ≠ 0 then .ok (some r.1, r.2) else iterLoop l f n (i + 1) (some r.1) r.2
    | .ub => .ub
    | .segv => .segv

/-- `cee_list_iterate` (list.c:134-144).  The returned value is `none` when the uninitialised
variable `ret` is returned.  With 2^31 or more elements the counter overflows unless the callback stops the
loop before; that exception is left out. -/
def iterate (l : Option (CList E)) (f : σ → Option E → Int → Int × σ) (s : σ) :
    Res (Option Int × σ) :=
  match l with
  | none => .ok (some 0, s)
  | some l => if 2 ^ 31 ≤ l.size then .ub else iterLoop l f l.size 0 none s

/-- `S(_add_v)` (list.c:146-150): the callback of merge; its state is the destination list. -/
def addV [DecidableEq E] (d : Res (CList E)) (e : Option E) (_ : Int) : Int × Res (CList E) :=
  (0, match d with
      | .ok d => append d e
      | .ub => .ub
      | .segv => .segv)

/-- `cee_list_merge` (list.c:152-155) for two distinct lists: appending
to `dest` does not touch `src`. -/
def merge [DecidableEq E] (dest src : CList E) : Res (CList E) := do
  let r ← iterate (some src) addV (.ok dest)
  r.2

/-- `cee_list_merge(l, l)`: the loop re-reads the size of the growing list.  `fuel` bounds the
number of iterations (`none` = still running); `i ++` overflows at 2^31 - 1. -/
def mergeSelf [DecidableEq E] : Nat → CList E → Nat → Option (Res (CList E))
  | 0, _, _ => none
  | fuel + 1, l, i =>
    if i < l.size then
      if i = 2 ^ 31 - 1 then some .ub
      else
        match rd l.cells i with
        | .ok e =>
          match append l e with
          | .ok l' => mergeSelf fuel l' (i + 1)
          | .ub => some .ub
          | .segv => some .segv
        | .ub => some .ub
        | .segv => some .segv
    else some (.ok l)

end Verif.CList
