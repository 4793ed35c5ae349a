import Verif.Chain.Model

/-!
# Model of the mark & sweep collector (`state.c`)

Blocks are addressed as in `Verif.Chain`; on top of the chain every block has an object (its kind
with the pointers it holds) and a 2-bit `gc_mark`.  Pointers may be NULL.  Pointers to static
singletons (`cee_json_true()` etc.) have a no-op trace function (singleton.c:25) and are not in the
heap: they count as NULL here.  Private memory of a container that is not a chained block (list
arrays, tree nodes) is not modelled.
-/

namespace Verif.Gc
open Verif.Chain (Heap upd)

abbrev Ptr := Option Nat

/-- the kinds of blocks, with the pointers relevant to tracing -/
inductive Obj where
  /-- `cee_block`, `cee_str`, `cee_boxed` -/
  | leaf
  /-- `cee_list`, `cee_stack`, `cee_set`, `cee_tuple`, `cee_triple`, `cee_quadruple`, `cee_n_tuple`,
  `cee_tagged`: the pointers held, in trace order -/
  | node (elems : List Ptr)
  /-- `cee_map`: `insertion_ordered_keys` and the tuples of the tree in visiting order -/
  | map (order : Ptr) (tuples : List Ptr)
  /-- `cee_dict`: the two private lists -/
  | dict (keys vals : Ptr)
  /-- `cee_env` -/
  | env (outer vars : Ptr)
  /-- `cee_closure` -/
  | closure (env : Ptr)
  /-- `cee_state` -/
  | state (roots stack contexts : Ptr)

/-- pointers that `CEE_TRACE_MARK` follows: block.c:35-38, boxed.c:29-32, str.c:38-41 (none);
list.c:41-46, stack.c:40-45, set.c:58-63, tuple.c:35-40, triple.c:35-40, quadruple.c:35-40,
n_tuple.c:39-44, tagged.c:32-36; map.c:67-72 (only the tuples); dict.c:44-49; env.c:35-40;
closure.c:29-31 (none); state.c:51-62. -/
def Obj.follows : Obj → List Ptr
  | .leaf => []
  | .node es => es
  | .map _ ts => ts
  | .dict ks vs => [ks, vs]
  | .env o v => [o, v]
  | .closure _ => []
  | .state r s c => [r, s, c]

/-- does `CEE_TRACE_MARK` set the block's own `gc_mark`?  All do except closures
(closure.c:29-31). -/
def Obj.marksSelf : Obj → Bool
  | .closure _ => false
  | _ => true

/-- blocks that the operations of a live object access (all pointers it holds) -/
def Obj.holds : Obj → List Ptr
  | .leaf => []
  | .node es => es
  | .map o ts => o :: ts
  | .dict ks vs => [ks, vs]
  | .env o v => [o, v]
  | .closure e => [e]
  | .state r s c => [r, s, c]

/-- the heap: chain, objects, marks, `next_mark` of the state -/
structure GHeap where
  ch : Heap
  obj : Nat → Obj
  mark : Nat → Nat
  nextMark : Nat

/-- `cee_trace(p, CEE_TRACE_MARK + m)` (cee-common.c:14-19) and the `CEE_TRACE_MARK` branches, as a
transformation of the marks.  There is no test whether a block has been visited.  `ok none` = the
recursion is deeper than the fuel. -/
def trace (h : GHeap) (m : Nat) : Nat → Ptr → (Nat → Nat) → Res (Option (Nat → Nat))
  | _, none, mk => .ok (some mk)
  | 0, some _, _ => .ok none
  | fuel + 1, some a, mk =>
    if h.ch.live a then
      (h.obj a).follows.foldl
        (fun acc p =>
          match acc with
          | .ok (some mk) => trace h m fuel p mk
          | r => r)
        (.ok (some (if (h.obj a).marksSelf then upd mk a m else mk)))
    else .ub

/-- `S(sweep)` (state.c:67-79): walk along `trace_next`, deleting (CEE_TRACE_DEL_NO_FOLLOW) the
blocks whose mark is not the current one; `ok none` = fuel used up. -/
def sweep (mk : Nat → Nat) (m : Nat) : Nat → Heap → Ptr → Res (Option Heap)
  | _, h, none => .ok (some h)
  | 0, _, some _ => .ok none
  | fuel + 1, h, some a =>
    if h.live a then
      let next := h.next a
      if mk a ≠ m then
        match Chain.del h a with
        | .ok h' => sweep mk m fuel h' next
        | .ub => .ub
        | .segv => .segv
      else sweep mk m fuel h next
    else .ub

/-- `cee_state_gc` (state.c:140-156), with fuel for the recursion of the marking phase and for the
sweep loop. -/
def gc (depth steps : Nat) (h : GHeap) : Res (Option GHeap) :=
  let m := h.nextMark
  match trace h m depth (some 0) h.mark with
  | .ok (some mk) =>
    match sweep mk m steps h.ch (some 0) with
    | .ok (some ch) => .ok (some { h with ch := ch, mark := mk, nextMark := if m = 0 then 1 else 0 })
    | .ok none => .ok none
    | .ub => .ub
    | .segv => .segv
  | .ok none => .ok none
  | .ub => .ub
  | .segv => .segv

/-- allocation of a block with its contents: `ZERO_CEE_SECT` makes `gc_mark` 0 -/
def alloc (h : GHeap) (a : Nat) (o : Obj) : Res GHeap := do
  let ch ← Chain.alloc h.ch a
  return { h with ch := ch, obj := upd h.obj a o, mark := upd h.mark a 0 }

/-- deletion of one block (its children are separate operations) -/
def del (h : GHeap) (a : Nat) : Res GHeap := do
  let ch ← Chain.del h.ch a
  return { h with ch := ch }

/-- any change of the pointers held by a live block (append, map add, add root, ...) -/
def store (h : GHeap) (a : Nat) (o : Obj) : Res GHeap :=
  if h.ch.live a then .ok { h with obj := upd h.obj a o } else .ub

/-- resize with REALLOC or MALLOC: object and mark are copied (cee-resize.h:39-63) -/
def resize (h : GHeap) (a b : Nat) (keep : Bool) : Res GHeap := do
  let ch ← if keep then Chain.resizeMalloc h.ch a b else Chain.resizeRealloc h.ch a b
  return { h with ch := ch, obj := upd h.obj b (h.obj a), mark := upd h.mark b (h.mark a) }

/-- `cee_state_mk` (state.c:90-103): the state (address 0) with its own containers at the given
addresses; `cee_map_mk` allocates the ordered-key list before chaining the map (map.c:87-91). -/
def stateMk (roots stack order contexts : Nat) : Res GHeap := do
  let h : GHeap := ⟨Chain.stateMk, fun _ => .leaf, fun _ => 0, 1⟩
  let h ← alloc h roots (.node [])
  let h ← alloc h stack (.node [])
  let h ← alloc h order (.node [])
  let h ← alloc h contexts (.map (some order) [])
  store h 0 (.state (some roots) (some stack) (some contexts))

end Verif.Gc
