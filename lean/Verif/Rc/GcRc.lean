import Verif.Rc.Props

/-!
# The collector on memory with reference counts (state.c)

The memory of `Rc/Model` with the marks and the roots of a state.  The blocks of the state itself (its set of roots, its
stack, its contexts) are left out; `roots` stands for what they hold.  The trace chain is left out too: a sweep frees all
blocks without the current mark (`Verif.Gc` has the chain).
-/

namespace Verif.Rc
open Verif.Chain (upd)
open Verif.Rc.Props

/-- memory, the 2-bit `gc_mark` of each block, `next_mark` and `roots` of the state -/
structure GSt where
  h : RHeap
  mark : Nat → Nat
  next : Nat
  roots : List Nat

/-- `cee_trace(p, CEE_TRACE_MARK + m)` (cee-common.c:14-19) with the `CEE_TRACE_MARK` branches of list.c:41-46,
stack.c:40-45, tuple.c:35-40, triple.c:35-40, quadruple.c:35-40, n_tuple.c:39-44, tagged.c:32-36: all pointers are followed,
whatever their policies.  `ok none`: the recursion is deeper than the fuel. -/
def visit (h : RHeap) (m : Nat) : Nat → Ptr → (Nat → Nat) → Res (Option (Nat → Nat))
  | _, none, mk => .ok (some mk)
  | 0, some _, _ => .ok none
  | fuel + 1, some a, mk =>
    if h.live a then
      ((h.kids a).map (·.2)).foldl
        (fun acc p =>
          match acc with
          | .ok (some mk) => visit h m fuel p mk
          | r => r)
        (.ok (some (upd mk a m)))
    else .ub

/-- marking what the roots reach (state.c:52-61) -/
def visitAll (h : RHeap) (m fuel : Nat) (ps : List Ptr) (mk : Nat → Nat) : Res (Option (Nat → Nat)) :=
  ps.foldl
    (fun acc p =>
      match acc with
      | .ok (some mk) => visit h m fuel p mk
      | r => r)
    (.ok (some mk))

/-- `S(sweep)` (state.c:67-79): `CEE_TRACE_DEL_NO_FOLLOW` frees a block and nothing else -/
def sweepAll (h : RHeap) (mk : Nat → Nat) (m : Nat) : RHeap :=
  { h with live := fun x => h.live x && mk x == m }

/-- `cee_state_gc` (state.c:140-156) -/
def gcRun (fuel : Nat) (g : GSt) : Res (Option GSt) :=
  match visitAll g.h g.next fuel (g.roots.map some) g.mark with
  | .ok (some mk) =>
    .ok (some { g with h := sweepAll g.h mk g.next, mark := mk, next := if g.next = 0 then 1 else 0 })
  | .ok none => .ok none
  | .ub => .ub
  | .segv => .segv

/-- a step of a program -/
inductive GOp where
  /-- a call as in `Props.Op` -/
  | op (o : Op)
  /-- `cee_state_add_gc_root` (state.c:110-112): the set has the policy `CEE_DP_NOOP`, nothing is counted -/
  | root (x : Nat)
  /-- `cee_state_remove_gc_root` (state.c:117-119) -/
  | unroot (x : Nat)
  /-- `cee_state_gc` -/
  | gc

/-- the block that a call allocates -/
def made : Op → Option Nat
  | .mk x => some x
  | .mkTuple x _ => some x
  | _ => none

/-- a new block is zeroed, so that its mark is 0 (`ZERO_CEE_SECT`, cee-header.h) -/
def unmark (mk : Nat → Nat) : Option Nat → (Nat → Nat)
  | none => mk
  | some x => upd mk x 0

def gexec (fuel : Nat) (g : GSt) : GOp → Res (Option GSt)
  | .op o =>
    match exec fuel g.h o with
    | .ok (some h) => .ok (some { g with h := h, mark := unmark g.mark (made o) })
    | .ok none => .ok none
    | .ub => .ub
    | .segv => .segv
  | .root x => .ok (some { g with roots := if g.roots.contains x then g.roots else g.roots ++ [x] })
  | .unroot x => .ok (some { g with roots := g.roots.filter (· != x) })
  | .gc => gcRun fuel g

def gexecAll (fuel : Nat) (g : GSt) : List GOp → Res (Option GSt)
  | [] => .ok (some g)
  | op :: ops =>
    match gexec fuel g op with
    | .ok (some g') => gexecAll fuel g' ops
    | r => r

/-- memory when the state is made (state.c:90-103): `next_mark` is 1 -/
def gstart : GSt := ⟨Props.empty, fun _ => 0, 1, []⟩

end Verif.Rc
