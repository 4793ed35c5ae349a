import Verif.Base

/-!
# Model of the trace chain (`cee-resize.h`, `state.c`)

Every block allocated under a state is linked in a doubly linked chain through its `struct
cee_sect`.  Addresses of sections are numbers; address 0 is the section of the state itself.  Only
the two links, the tail pointer of the state and liveness are modelled.  Accessing a block that is
not live is undefined behaviour.  The allocator is an oracle: the address it returns is part of the
operation (any address that is not live, freed addresses may be reused).
-/

namespace Verif.Chain

/-- sections (cee.h:86-104: `trace_next`, `trace_prev`) of all blocks, and `st->trace_tail` -/
structure Heap where
  live : Nat → Bool
  next : Nat → Option Nat
  prev : Nat → Option Nat
  tail : Nat

/-- store into a function -/
def upd (f : Nat → α) (a : Nat) (v : α) : Nat → α := fun x => if x = a then v else f x

/-- `a->trace_next = v` -/
def setNext (h : Heap) (a : Nat) (v : Option Nat) : Res Heap :=
  if h.live a then .ok { h with next := upd h.next a v } else .ub

/-- `a->trace_prev = v` -/
def setPrev (h : Heap) (a : Nat) (v : Option Nat) : Res Heap :=
  if h.live a then .ok { h with prev := upd h.prev a v } else .ub

/-- `S(chain)` (cee-resize.h:5-12); `trace_next` of the block is left as it is. -/
def chain (h : Heap) (a : Nat) : Res Heap := do
  let h ← setPrev h a (some h.tail)
  let h ← setNext h h.tail (some a)
  return { h with tail := a }

/-- `S(de_chain)` (cee-resize.h:19-34). -/
def deChain (h : Heap) (a : Nat) : Res Heap :=
  if h.live a then
    let prev := h.prev a
    let next := h.next a
    match prev with
    | none => .ub
    | some p =>
      if h.tail = a then do
        let h ← setNext h p none
        return { h with tail := p }
      else do
        let h ← setNext h p next
        match next with
        | none => return h
        | some n => setPrev h n (some p)
  else .ub

/-- `free(a)` -/
def free (h : Heap) (a : Nat) : Res Heap :=
  if h.live a then .ok { h with live := upd h.live a false } else .ub

/-- `malloc` at address `a` followed by `ZERO_CEE_SECT` (every `cee_*_mk_e`, e.g. list.c:52-60) and
`S(chain)` -/
def alloc (h : Heap) (a : Nat) : Res Heap :=
  chain { h with live := upd h.live a true, next := upd h.next a none, prev := upd h.prev a none } a

/-- `CEE_TRACE_DEL_NO_FOLLOW` of every container (e.g. list.c:29-33): leave the chain, free.  The
same two steps end `CEE_TRACE_DEL_FOLLOW`.  Private memory outside the chain is not modelled. -/
def del (h : Heap) (a : Nat) : Res Heap := do
  let h ← deChain h a
  free h a

/-- `S(resize)` with `CEE_RESIZE_WITH_REALLOC` (cee-resize.h:45-50); `b` is the address returned by
`realloc` (equal to `a` or not); the contents, links included, are copied. -/
def resizeRealloc (h : Heap) (a b : Nat) : Res Heap := do
  let h ← deChain h a
  let nx := h.next a
  let pv := h.prev a
  let h ← free h a
  let h := { h with live := upd h.live b true, next := upd h.next b nx, prev := upd h.prev b pv }
  chain h b

/-- `S(resize)` with `CEE_RESIZE_WITH_MALLOC` (cee-resize.h:51-57); the old block stays. -/
def resizeMalloc (h : Heap) (a b : Nat) : Res Heap :=
  if h.live a then
    chain { h with live := upd h.live b true, next := upd h.next b (h.next a),
                   prev := upd h.prev b (h.prev a) } b
  else .ub

/-- `cee_state_mk` before its own containers are allocated (state.c:90-95). -/
def stateMk : Heap := ⟨upd (fun _ => false) 0 true, fun _ => none, fun _ => none, 0⟩

/-- `cee_del(state)`: the loop of state.c:28-35, with the list of blocks freed, in order; `none` =
still running when the fuel is used up. -/
def delState : Nat → Heap → Res (Option (List Nat × Heap))
  | 0, _ => .ok none
  | fuel + 1, h =>
    if h.tail = 0 then do
      let h' ← free h 0
      return some ([0], h')
    else do
      let h' ← del h h.tail
      let r ← delState fuel h'
      return r.map (fun p => (h.tail :: p.1, p.2))

/-- the walk of `S(sweep)` along `trace_next` (state.c:69-78) when nothing is deleted: the blocks
visited; `none` = still running when the fuel is used up. -/
def forward (h : Heap) : Nat → Option Nat → Res (Option (List Nat))
  | _, none => .ok (some [])
  | 0, some _ => .ok none
  | fuel + 1, some a =>
    if h.live a then do
      let r ← forward h fuel (h.next a)
      return r.map (a :: ·)
    else .ub

end Verif.Chain
