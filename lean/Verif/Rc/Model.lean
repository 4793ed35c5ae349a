import Verif.Chain.Model

/-!
# Model of reference counting (`cee-common.c`) and of the deletion of containers

A heap of blocks; every block has the pointers it holds, each with its deletion policy (the
per-element policies of tuples, or the single policy of a list, stack, tagged, ... repeated), the
16-bit `in_degree` and the `retained` bit.  The trace chain is modelled in `Verif.Chain`; private
memory (element arrays, tree nodes) is not modelled.  Reading or freeing a block that is not live is
undefined behaviour.
-/

namespace Verif.Rc
open Verif.Chain (upd)

abbrev Ptr := Option Nat
abbrev Edge := Policy × Ptr

structure RHeap where
  live : Nat → Bool
  kids : Nat → List Edge
  deg : Nat → Nat
  ret : Nat → Bool

/-- `_cee_common_incr_rc` (cee-common.c:68-73); `in_degree` is a `uint16_t` (cee.h:92). -/
def incrRc (h : RHeap) : Ptr → Res RHeap
  | none => .ub
  | some a =>
    if h.live a then
      if h.ret a then .ok h else .ok { h with deg := upd h.deg a ((h.deg a + 1) % 65536) }
    else .ub

/-- `_cee_common_decr_rc` (cee-common.c:75-84) -/
def decrRc (h : RHeap) : Ptr → Res RHeap
  | none => .ub
  | some a =>
    if h.live a then
      if h.ret a then .ok h
      else if h.deg a ≠ 0 then .ok { h with deg := upd h.deg a (h.deg a - 1) } else .ok h
    else .ub

/-- `_cee_common_retain` (cee-common.c:91-94) -/
def retain (h : RHeap) : Ptr → Res RHeap
  | none => .ub
  | some a => if h.live a then .ok { h with ret := upd h.ret a true } else .ub

/-- `_cee_common_release` (cee-common.c:96-104) -/
def release (h : RHeap) : Ptr → Res RHeap
  | none => .ub
  | some a =>
    if h.live a then
      if h.ret a then .ok { h with ret := upd h.ret a false } else .segv
    else .ub

/-- `cee_incr_indegree` (cee-common.c:106-117) -/
def incrIndegree (h : RHeap) : Edge → Res RHeap
  | (.rc, p) => incrRc h p
  | (.del, p) => retain h p
  | (.noop, _) => .ok h

/-- `cee_decr_indegree` (cee-common.c:119-130) -/
def decrIndegree (h : RHeap) : Edge → Res RHeap
  | (.rc, p) => decrRc h p
  | (.del, p) => release h p
  | (.noop, _) => .ok h

/-- `cee_del_ref` (cee-common.c:37-54); `tr` is the block's trace function with
`CEE_TRACE_DEL_FOLLOW`. -/
def delRefWith (tr : RHeap → Nat → Res (Option RHeap)) (h : RHeap) : Ptr → Res (Option RHeap)
  | none => .ok (some h)
  | some a =>
    if h.live a then
      let h1 := if h.deg a ≠ 0 then { h with deg := upd h.deg a (h.deg a - 1) } else h
      if h1.ret a then .ok (some h1)
      else if h1.deg a = 0 then tr h1 a else .ok (some h1)
    else .ub

/-- `cee_del` (cee-common.c:24-29) -/
def delWith (tr : RHeap → Nat → Res (Option RHeap)) (h : RHeap) : Ptr → Res (Option RHeap)
  | none => .ok (some h)
  | some a => if h.live a then tr h a else .ub

/-- `cee_del_e` (cee-common.c:133-144) -/
def delE (tr : RHeap → Nat → Res (Option RHeap)) (h : RHeap) : Edge → Res (Option RHeap)
  | (.rc, p) => delRefWith tr h p
  | (.del, p) => delWith tr h p
  | (.noop, _) => .ok (some h)

/-- the loop of `CEE_TRACE_DEL_FOLLOW` over the elements of block `a` (e.g. list.c:34-36,
tuple.c:29-31); each step reads the block. -/
def delLoop (tr : RHeap → Nat → Res (Option RHeap)) (a : Nat) :
    RHeap → List Edge → Res (Option RHeap)
  | h, [] => .ok (some h)
  | h, e :: es =>
    if h.live a then
      match delE tr h e with
      | .ok (some h') => delLoop tr a h' es
      | r => r
    else .ub

/-- `free` of block `a` -/
def freeBlock (h : RHeap) (a : Nat) : Res (Option RHeap) :=
  if h.live a then .ok (some { h with live := upd h.live a false }) else .ub

/-- trace with `CEE_TRACE_DEL_FOLLOW` (list.c:34-40, stack.c:33-39, tuple.c:29-34, triple.c:29-34,
quadruple.c:29-34, n_tuple.c:32-38, tagged.c:26-30, ...): delete the elements in order, then free the
block.  `ok none` = recursion deeper than the fuel. -/
def traceDel : Nat → RHeap → Nat → Res (Option RHeap)
  | 0, _, _ => .ok none
  | fuel + 1, h, a =>
    match delLoop (traceDel fuel) a h (h.kids a) with
    | .ok (some h') => freeBlock h' a
    | r => r

/-- `cee_del_ref` with a bound on the recursion depth -/
def delRef (fuel : Nat) (h : RHeap) (p : Ptr) : Res (Option RHeap) := delRefWith (traceDel fuel) h p

/-- `cee_del` with a bound on the recursion depth -/
def del (fuel : Nat) (h : RHeap) (p : Ptr) : Res (Option RHeap) := delWith (traceDel fuel) h p

/-- the loop `for (i..) { del_policies[i] = o[i]; cee_incr_indegree(o[i], m->_[i]); }` of
tuple.c:55-59, triple.c:56-60, quadruple.c:59-63, n_tuple.c:64-68 -/
def incrAll : RHeap → List Edge → Res RHeap
  | h, [] => .ok h
  | h, e :: es => (incrIndegree h e).bind (fun h' => incrAll h' es)

/-- a new zeroed block at address `x` (ZERO_CEE_SECT) holding the given pointers -/
def newBlock (h : RHeap) (x : Nat) (es : List Edge) : RHeap :=
  { live := upd h.live x true, kids := upd h.kids x es, deg := upd h.deg x 0,
    ret := upd h.ret x false }

/-- `cee_tuple_mk_e` (tuple.c:44-61), `cee_triple_mk_e` (triple.c:44-62), `cee_quadruple_mk_e`
(quadruple.c:44-65) with as many policies and arguments as the arity; `x` is the address returned by
the allocator.  The arguments are stored first. -/
def tupleMk (h : RHeap) (x : Nat) (es : List Edge) : Res RHeap := incrAll (newBlock h x es) es

/-- `CEE_MAX_N_TUPLE` (n_tuple.c:13) -/
def maxNTuple : Nat := 16

/-- `cee_n_tuple_v` (n_tuple.c:48-70) -/
def nTupleMk (h : RHeap) (x : Nat) (es : List Edge) : Res RHeap :=
  if maxNTuple < es.length then .segv else tupleMk h x es

/-- `cee_tagged_mk_e` (tagged.c:40-56): a NULL pointer is not counted -/
def taggedMk (h : RHeap) (x : Nat) (e : Edge) : Res RHeap :=
  match e.2 with
  | none => .ok (newBlock h x [e])
  | some _ => incrIndegree (newBlock h x [e]) e

/-- `cee_list_append` (list.c:73-85) on the list `y` with policy `pol` -/
def listAppend (h : RHeap) (y : Nat) (e : Edge) : Res RHeap :=
  if h.live y then incrIndegree { h with kids := upd h.kids y (h.kids y ++ [e]) } e else .ub

/-- `cee_list_remove` (list.c:105-119) at a valid index -/
def listRemove (h : RHeap) (y i : Nat) : Res RHeap :=
  if h.live y then
    match (h.kids y)[i]? with
    | none => .ok h
    | some e => decrIndegree { h with kids := upd h.kids y ((h.kids y).eraseIdx i) } e
  else .ub

end Verif.Rc
