import Verif.Chain.Model
import Verif.Hash.Model
import Verif.Tree.Mem

/-!
# Private memory of containers: `list.c`, `dict.c`, `set.c`, `map.c` and the tables and trees under them, in one memory

The containers of a state are linked in its chain (`Verif.Chain`).  A list has besides its own block
an array, a dictionary a `struct __tab` and an array of entries, sets and maps the nodes of a search tree, none of them in the
chain; a dictionary has two lists of its own, a map a list of keys and a tuple for every binding, all in the chain.  Here these
functions work on blocks at addresses.  `malloc`, `calloc` and `realloc` return any address that is not in use
(`realloc` also the old one); the two `calloc`s of musl-hsearch.c and the `malloc` of musl-tsearch.c, the only ones
whose result is tested, may fail.  Reading, writing or freeing what is not allocated is undefined.

Simplifications: a write to a block is a write to one of its cells, entries or nodes; the elements of lists and sets, the keys and
values of dictionaries and maps live elsewhere (their counts are C103), the texts of keys do not change.  The fields
`size` of sets and maps are left out (C01, C07, C08).  Address 0 is NULL for
private memory, and the section of the state in the chain.
-/

namespace Verif.Own

open Verif.Chain (upd)

/-- `MUSL_ENTRY` (musl-search.h): pointers to the key (0 = NULL) and to the data -/
abbrev Ent := Nat × Nat

/-- private blocks: the array of a list (list.c:64), `struct __tab` (musl-hsearch.c:24-28), the entries of a table
(musl-hsearch.c:59), `struct tnode` (musl-tsearch.c:13-17) -/
inductive Blk where
  | cells (cs : List (CList.Cell Nat))
  | tab (entries mask used : Nat)
  | ents (es : List Ent)
  | node (n : TreeMem.TNode Nat)
  deriving DecidableEq, Repr

/-- what a block of the chain holds: nothing of interest, a list (list.c:14-20), a dictionary (dict.c:17-24), a tuple
(tuple.c:12-16), a set (set.c:14-21), a map (map.c:14-29); the function pointer `cmp` is the function -/
inductive Obj where
  | plain
  | list (size cap a : Nat)
  | dict (pol : Policy) (keys vals tab : Nat)
  | pair (key val : Nat)
  | set (pol : Policy) (cmp : Nat → Nat → Int) (root : Nat)
  | map (kp vp : Policy) (cmp : Nat → Nat → Int) (keys root : Nat)

/-- chain, contents of its blocks, private blocks, number of allocations so far -/
structure St where
  ch : Chain.Heap
  obj : Nat → Obj
  mem : Nat → Option Blk
  n : Nat

/-- The allocator: does the `i`-th allocation fail (if its result is tested), and which address does it return, when these
addresses are in use? -/
structure Malloc where
  fails : Nat → Bool
  addr : Nat → (Nat → Bool) → Nat

/-- the addresses in use -/
def used (s : St) (p : Nat) : Bool := s.ch.live p || (s.mem p).isSome

variable (al : Malloc)

/-- `malloc` of a private block -/
def take (s : St) (b : Blk) : St × Nat :=
  let r := al.addr s.n (used s)
  ({ s with mem := upd s.mem r (some b), n := s.n + 1 }, r)

/-- `calloc` of a private block; `fits`: the size does not overflow -/
def calloc (s : St) (fits : Bool) (b : Blk) : St × Nat :=
  if !al.fails s.n && fits then take al s b else ({ s with n := s.n + 1 }, 0)

/-- `free` of a private block -/
def freeP (s : St) (p : Nat) : Res St :=
  if p = 0 then .ok s
  else match s.mem p with
    | some _ => .ok { s with mem := upd s.mem p none }
    | none => .ub

/-- `malloc` and linking of a block of the chain (e.g. list.c:52-57) -/
def mkObj (s : St) (o : Obj) : Res (St × Nat) :=
  let r := al.addr s.n (used s)
  (Chain.alloc s.ch r).bind fun ch =>
    .ok ({ s with ch := ch, obj := upd s.obj r o, n := s.n + 1 }, r)

/-- `S(de_chain)(m)` (cee-resize.h:19-34) -/
def deChain (s : St) (p : Nat) : Res St :=
  (Chain.deChain s.ch p).bind fun ch => .ok { s with ch := ch }

/-- `free(m)` for a block of the chain -/
def freeObj (s : St) (p : Nat) : Res St :=
  (Chain.free s.ch p).bind fun ch => .ok { s with ch := ch }

/-- the contents of a block of the chain -/
def getObj (s : St) (p : Nat) : Res Obj := if s.ch.live p then .ok (s.obj p) else .ub

/-! ## Lists -/

/-- the cells of an array -/
def getCells (s : St) (a : Nat) : Res (List (CList.Cell Nat)) :=
  match s.mem a with
  | some (.cells cs) => .ok cs
  | _ => .ub

/-- `cee_list_mk` (list.c:50-71) -/
def listMk (s : St) (cap : Nat) : Res (St × Nat) :=
  (mkObj al s (.list 0 cap 0)).bind fun r =>
  let t := take al r.1 (.cells (List.replicate (CList.allocCells cap) none))
  .ok ({ t.1 with obj := upd t.1.obj r.2 (.list 0 cap t.2) }, r.2)

/-- `realloc(a, n * sizeof(void *))` -/
def realloc (s : St) (a n : Nat) : Res (St × Nat) :=
  (getCells s a).bind fun cs =>
  .ok (take al { s with mem := upd s.mem a none } (.cells (CList.reallocCells cs n)))

/-- growth step of append (list.c:75-81) and insert (89-95): double, or 1 from 0 -/
def grow (s : St) (l : Nat) : Res St :=
  (getObj s l).bind fun o =>
  match o with
  | .list size cap a =>
    if size = cap then
      let cap' := (cap + (if cap ≠ 0 then cap else 1)) % 2 ^ 64
      (realloc al s a (CList.allocCells cap')).bind fun r =>
      .ok { r.1 with obj := upd r.1.obj l (.list size cap' r.2) }
    else .ok s
  | _ => .ub

/-- changes the array of a list, then its size -/
def onCells (s : St) (l : Nat) (f : Nat → List (CList.Cell Nat) → Res (List (CList.Cell Nat))) (size' : Nat → Nat) : Res St :=
  (getObj s l).bind fun o =>
  match o with
  | .list size cap a =>
    (getCells s a).bind fun cs =>
    (f size cs).bind fun cs =>
    .ok { s with mem := upd s.mem a (some (.cells cs)), obj := upd s.obj l (.list (size' size) cap a) }
  | _ => .ub

/-- `cee_list_append` (list.c:73-85); counting NULL dereferences it -/
def append (s : St) (l : Nat) (e : Option Nat) : Res St :=
  (grow al s l).bind fun s =>
  (onCells s l (fun size cs => CList.wr cs size e) (· + 1)).bind fun s =>
  (CList.touch .rc e).bind fun _ => .ok s

/-- `cee_list_insert` (list.c:87-103) -/
def insert (s : St) (l : Nat) (index : Int) (e : Option Nat) : Res St :=
  (grow al s l).bind fun s =>
  (onCells s l (fun size cs => (CList.shiftUp (cInt size - index).toNat cs (cInt size)).bind fun cs =>
    CList.wr cs index e) (· + 1)).bind fun s =>
  (CList.touch .rc e).bind fun _ => .ok s

/-- `cee_list_remove` (list.c:105-119) -/
def remove (s : St) (l : Nat) (index : Int) : Res (St × Bool) :=
  (getObj s l).bind fun o =>
  match o with
  | .list size _ a =>
    if size ≤ toU64 index then .ok (s, false)
    else
      (getCells s a).bind fun cs =>
      (CList.rd cs index).bind fun e =>
      (onCells s l (fun size cs => (CList.wr cs index none).bind fun cs =>
        if 2 ^ 31 < size then .ub else CList.shiftDown (size - 1 - index.toNat) cs index) (· - 1)).bind fun s =>
      (CList.touch .rc e).bind fun _ => .ok (s, true)
  | _ => .ub

/-- the loop `for (i = 0; i < m->size; i++) cee_del_e(.., m->_.a[i])` (list.c:35-36): the elements given to `cee_del_e` -/
def elems (cs : List (CList.Cell Nat)) : Nat → Nat → Res (List (Option Nat))
  | 0, _ => .ok []
  | n + 1, i => (CList.rd cs i).bind fun e => (elems cs n (i + 1)).bind fun l => .ok (e :: l)

/-- the elements of a list, read one after the other (list.c:35-36) -/
def listElems (s : St) (l : Nat) : Res (List (Option Nat)) :=
  (getObj s l).bind fun o =>
  match o with
  | .list size _ a => if size = 0 then .ok [] else (getCells s a).bind fun cs => elems cs size 0
  | _ => .ub

/-- `CEE_TRACE_DEL_NO_FOLLOW` of a list (list.c:29-33) -/
def listFree (s : St) (l : Nat) : Res St :=
  (getObj s l).bind fun o =>
  match o with
  | .list _ _ a => (deChain s l).bind fun s => (freeP s a).bind fun s => freeObj s l
  | _ => .ub

/-- `cee_del` of a list, `CEE_TRACE_DEL_FOLLOW` (list.c:34-40), with the elements given to `cee_del_e` -/
def listDel (s : St) (l : Nat) : Res (St × List (Option Nat)) :=
  (listElems s l).bind fun es => (listFree s l).bind fun s => .ok (s, es)

/-! ## Hash tables -/

/-- the fields of `struct __tab` -/
def getTab (s : St) (t : Nat) : Res (Nat × Nat × Nat) :=
  match s.mem t with
  | some (.tab e m u) => .ok (e, m, u)
  | _ => .ub

/-- `entries[i]` -/
def rdEnt (s : St) (e i : Nat) : Res Ent :=
  match s.mem e with
  | some (.ents es) =>
    match es[i]? with
    | some x => .ok x
    | none => .ub
  | _ => .ub

/-- `entries[i] = x` -/
def wrEnt (s : St) (e i : Nat) (x : Ent) : Res St :=
  match s.mem e with
  | some (.ents es) => if i < es.length then .ok { s with mem := upd s.mem e (some (.ents (es.set i x))) } else .ub
  | _ => .ub

/-- the probe loops (musl-hsearch.c:95-99, 69-73); an endless loop counts as undefined -/
def probe (stop : Ent → Bool) (s : St) (e mask : Nat) : Nat → Nat → Nat → Res Nat
  | 0, _, _ => .ub
  | fuel + 1, i, j =>
    (rdEnt s e (i &&& mask)).bind fun x =>
    if stop x then .ok (i &&& mask) else probe stop s e mask fuel (add64 i j) (add64 j 1)

variable (text : Nat → Hash.Key)

/-- `lookup` (musl-hsearch.c:90-101): index of the slot found -/
def lookup (s : St) (t : Nat) (key : Nat) : Res Nat :=
  (getTab s t).bind fun h =>
  probe (fun x => x.1 = 0 || text x.1 = text key) s h.1 h.2.1 (h.2.1 + 1) (Hash.keyhash (text key)) 1

/-- the copying loop of `resize` (musl-hsearch.c:67-75): `n` entries left, from index `i` -/
def rehash (old new mask : Nat) : Nat → Nat → St → Res St
  | 0, _, s => .ok s
  | n + 1, i, s =>
    (rdEnt s old i).bind fun x =>
    if x.1 ≠ 0 then
      (probe (fun y => y.1 = 0) s new mask (mask + 1) (Hash.keyhash (text x.1)) 1).bind fun p =>
      (wrEnt s new p x).bind fun s => rehash old new mask n (i + 1) s
    else rehash old new mask n (i + 1) s

/-- `resize` (musl-hsearch.c:48-78) -/
def resize (s : St) (t nel : Nat) : Res (St × Bool) :=
  (getTab s t).bind fun h =>
  let size := Hash.tabSize nel
  let r := calloc al s (decide (size * 16 < 2 ^ 64)) (.ents (List.replicate size (0, 0)))
  if r.2 = 0 then .ok (r.1, false)
  else
    let s := { r.1 with mem := upd r.1.mem t (some (.tab r.2 (size - 1) h.2.2)) }
    if h.1 = 0 then .ok (s, true)
    else
      (rehash text h.1 r.2 (size - 1) (h.2.1 + 1) 0 s).bind fun s =>
      (freeP s h.1).bind fun s => .ok (s, true)

/-- `musl_hcreate_r` (musl-hsearch.c:110-123): the value of `htab->__tab`, 0 if it fails -/
def hcreate (s : St) (nel : Nat) : Res (St × Nat) :=
  let t := calloc al s true (.tab 0 0 0)
  if t.2 = 0 then .ok (t.1, 0)
  else
    (resize al text t.1 t.2 nel).bind fun r =>
    if r.2 then .ok (r.1, t.2)
    else (freeP r.1 t.2).bind fun s => .ok (s, 0)

/-- `musl_hdestroy_r` (musl-hsearch.c:125-130) -/
def hdestroy (s : St) (t : Nat) : Res St :=
  if t = 0 then .ok s
  else (getTab s t).bind fun h => (freeP s h.1).bind fun s => freeP s t

/-- `musl_hsearch_r(.., FIND, ..)` (musl-hsearch.c:132-145): the entry found -/
def hfind (s : St) (t key : Nat) : Res (Option Ent) :=
  if key = 0 then .ub
  else
    (lookup text s t key).bind fun p =>
    (getTab s t).bind fun h =>
    (rdEnt s h.1 p).bind fun x => .ok (if x.1 ≠ 0 then some x else none)

/-- `musl_hsearch_r(.., ENTER, ..)` (musl-hsearch.c:132-158): does it succeed? -/
def henter (s : St) (t key data : Nat) : Res (St × Bool) :=
  if key = 0 then .ub
  else
    (lookup text s t key).bind fun p =>
    (getTab s t).bind fun h =>
    (rdEnt s h.1 p).bind fun x =>
    if x.1 ≠ 0 then .ok (s, true)
    else
      (wrEnt s h.1 p (key, data)).bind fun s =>
      let u := add64 h.2.2 1
      let s := { s with mem := upd s.mem t (some (.tab h.1 h.2.1 u)) }
      if h.2.1 - h.2.1 / 4 < u then
        (resize al text s t (mul64 2 u)).bind fun r =>
        if r.2 then
          (lookup text r.1 t key).bind fun _ => .ok (r.1, true)
        else
          let s := { r.1 with mem := upd r.1.mem t (some (.tab h.1 h.2.1 (decr64 u))) }
          (rdEnt s h.1 p).bind fun x =>
          (wrEnt s h.1 p (0, x.2)).bind fun s => .ok (s, false)
      else .ok (s, true)

/-! ## Dictionaries -/

/-- `cee_dict_mk_e` (dict.c:53-82); `hsize` is `(size_t)((float)size * 1.25)`.  If the table cannot be made, the
two lists are deleted and the block is freed, but it is not taken out of the chain (dict.c:77-80).  The block is allocated
first and linked after the lists; here it is allocated where it is linked. -/
def dictMk (s : St) (pol : Policy) (size hsize : Nat) : Res (St × Nat) :=
  (listMk al s size).bind fun k =>
  (listMk al k.1 size).bind fun v =>
  (mkObj al v.1 (.dict pol k.2 v.2 0)).bind fun m =>
  (hcreate al text m.1 hsize).bind fun h =>
  if h.2 ≠ 0 then .ok ({ h.1 with obj := upd h.1.obj m.2 (.dict pol k.2 v.2 h.2) }, m.2)
  else
    (listDel h.1 k.2).bind fun r =>
    (listDel r.1 v.2).bind fun r =>
    (freeObj r.1 m.2).bind fun s => .ok (s, 0)

/-- `cee_dict_add` (dict.c:88-97) -/
def dictAdd (s : St) (d key value : Nat) : Res St :=
  (getObj s d).bind fun o =>
  match o with
  | .dict _ k v t =>
    (henter al text s t key value).bind fun r =>
    if r.2 then
      (append al r.1 k (some key)).bind fun s => append al s v (if value = 0 then none else some value)
    else .segv
  | _ => .ub

/-- `cee_dict_find` (dict.c:99-108) -/
def dictFind (s : St) (d key : Nat) : Res Nat :=
  (getObj s d).bind fun o =>
  match o with
  | .dict _ _ _ t => (hfind text s t key).bind fun x => .ok (match x with | some x => x.2 | none => 0)
  | _ => .ub

/-- `CEE_TRACE_DEL_NO_FOLLOW` of a dictionary (dict.c:32-36) -/
def dictFree (s : St) (d : Nat) : Res St :=
  (getObj s d).bind fun o =>
  match o with
  | .dict _ _ _ t => (hdestroy s t).bind fun s => (deChain s d).bind fun s => freeObj s d
  | _ => .ub

/-- `cee_del_e(policy, list)` (cee-common.c:133-144) for a list that nothing else points to -/
def delE (s : St) (pol : Policy) (l : Nat) : Res (St × List (Option Nat)) :=
  if pol = .noop then .ok (s, []) else listDel s l

/-- `cee_del` of a dictionary, `CEE_TRACE_DEL_FOLLOW` (dict.c:37-43), with the keys and values given to `cee_del_e` -/
def dictDel (s : St) (d : Nat) : Res (St × List (Option Nat)) :=
  (getObj s d).bind fun o =>
  match o with
  | .dict pol k v _ =>
    (delE s pol k).bind fun rk =>
    (delE rk.1 pol v).bind fun rv =>
    (dictFree rv.1 d).bind fun s => .ok (s, rk.2 ++ rv.2)
  | _ => .ub

/-! ## Blocks without private memory -/

/-- `cee_str_mk` and other blocks without private memory -/
def plainMk (s : St) : Res (St × Nat) := mkObj al s .plain

/-- `cee_del` of such a block: leave the chain, free (e.g. str.c:29-42) -/
def plainFree (s : St) (p : Nat) : Res St := (deChain s p).bind fun s => freeObj s p

/-! ## Search trees -/

/-- the nodes among the private blocks -/
def nodes (m : Nat → Option Blk) (b : Nat) : Option (TreeMem.TNode Nat) :=
  match m b with
  | some (.node n) => some n
  | _ => none

/-- the private blocks, with these nodes -/
def setNodes (m : Nat → Option Blk) (h : Nat → Option (TreeMem.TNode Nat)) (b : Nat) : Option Blk :=
  match h b, m b with
  | some n, _ => some (.node n)
  | none, some (.node _) => none
  | none, x => x

/-- `malloc` in `musl_tsearch` (musl-tsearch.c:98-99) -/
def nodeAddr (s : St) : Nat := if al.fails s.n then 0 else al.addr s.n (used s)

/-- `musl_tsearch` (musl-tsearch.c:77-107): the new root and the pointer returned; the count of allocations goes up in any
case -/
def treeSearch (s : St) (root : Nat) (c : Nat → Int) (new : Nat) : Res (St × Nat × Nat) :=
  (TreeMem.tsearch (nodeAddr al s) c new ⟨root, nodes s.mem⟩).bind fun r =>
  .ok ({ s with mem := setNodes s.mem r.1.mem, n := s.n + 1 }, r.1.root, r.2)

/-- `musl_tfind` (musl-tsearch.c:122-137); more than 96 rounds count as undefined -/
def treeFind (s : St) (root : Nat) (c : Nat → Int) : Res Nat :=
  match TreeMem.tfind c ⟨root, nodes s.mem⟩ 96 root with
  | some r => r
  | none => .ub

/-- `musl_tdelete` (musl-tsearch.c:162-209): the new root -/
def treeDelete (s : St) (root : Nat) (c : Nat → Int) : Res (St × Nat) :=
  (TreeMem.tdelete c ⟨root, nodes s.mem⟩).bind fun r => .ok ({ s with mem := setNodes s.mem r.1.mem }, r.1.root)

/-- `musl_tdestroy` (musl-tsearch.c:109-120): the keys in the order of the calls of `freekey` -/
def treeDestroy (s : St) (root : Nat) : Res (St × List Nat) :=
  match TreeMem.tdestroy 96 ⟨root, nodes s.mem⟩ root with
  | some r => r.bind fun r => .ok ({ s with mem := setNodes s.mem r.1.mem }, r.2)
  | none => .ub

/-- `*(void **)p` for a node (musl-tsearch.c:13-17: the key comes first) -/
def nodeKey (s : St) (p : Nat) : Res Nat :=
  match s.mem p with
  | some (.node n) => .ok n.key
  | _ => .ub

/-- a pointer, `none` for NULL -/
def ptr (p : Nat) : Option Nat := if p = 0 then none else some p

/-! ## Sets -/

/-- `cee_set_mk_e` (set.c:77-92) -/
def setMk (s : St) (pol : Policy) (cmp : Nat → Nat → Int) : Res (St × Nat) := mkObj al s (.set pol cmp 0)

/-- `cee_set_add` (set.c:112-127) -/
def setAdd (s : St) (p val : Nat) : Res St :=
  (getObj s p).bind fun o =>
  match o with
  | .set pol cmp root =>
    (treeSearch al s root (cmp val) val).bind fun r =>
    if r.2.2 = 0 then .segv
    else
      let s := { r.1 with obj := upd r.1.obj p (.set pol cmp r.2.1) }
      (nodeKey s r.2.2).bind fun old =>
      if old ≠ val then .ok s
      else (CList.touch pol (ptr val)).bind fun _ => .ok s
  | _ => .ub

/-- `cee_set_find` (set.c:149-156) -/
def setFind (s : St) (p key : Nat) : Res Nat :=
  (getObj s p).bind fun o =>
  match o with
  | .set _ cmp root => (treeFind s root (cmp key)).bind fun n => if n = 0 then .ok 0 else nodeKey s n
  | _ => .ub

/-- `cee_set_remove` (set.c:181-192) -/
def setRemove (s : St) (p key : Nat) : Res (St × Nat) :=
  (getObj s p).bind fun o =>
  match o with
  | .set pol cmp root =>
    (treeFind s root (cmp key)).bind fun n =>
    if n = 0 then .ok (s, 0)
    else
      (nodeKey s n).bind fun k =>
      (treeDelete s root (cmp key)).bind fun r =>
      .ok ({ r.1 with obj := upd r.1.obj p (.set pol cmp r.2) }, k)
  | _ => .ub

/-- `cee_set_clear` (set.c:129-147), with the elements given to `cee_del_ref` or `cee_del` -/
def setClear (s : St) (p : Nat) : Res (St × List Nat) :=
  (getObj s p).bind fun o =>
  match o with
  | .set pol cmp root =>
    (treeDestroy s root).bind fun r =>
    .ok ({ r.1 with obj := upd r.1.obj p (.set pol cmp 0) }, if pol = .noop then [] else r.2)
  | _ => .ub

/-- `CEE_TRACE_DEL_NO_FOLLOW` of a set (set.c:48-52) -/
def setFree (s : St) (p : Nat) : Res St :=
  (getObj s p).bind fun o =>
  match o with
  | .set _ _ root => (treeDestroy s root).bind fun r => (deChain r.1 p).bind fun s => freeObj s p
  | _ => .ub

/-- `cee_del` of a set, `CEE_TRACE_DEL_FOLLOW` (set.c:53-57): the first element makes `S(free_pair_follow)` read the policy
through NULL (set.c:26) -/
def setDel (s : St) (p : Nat) : Res St :=
  (getObj s p).bind fun o =>
  match o with
  | .set _ _ root => if root = 0 then setFree s p else .ub
  | _ => .ub

/-! ## Maps -/

/-- `t->_[0]`, `t->_[1]` of a tuple -/
def pairOf (s : St) (t : Nat) : Res (Nat × Nat) :=
  (getObj s t).bind fun o =>
  match o with
  | .pair k v => .ok (k, v)
  | _ => .ub

/-- the key of a tuple for `S(cmp)` (map.c:76-81); `keysRead` sees to it that it can be read -/
def keyOf (s : St) (t : Nat) : Nat :=
  match s.obj t with
  | .pair k _ => k
  | _ => 0

/-- the keys that a descent through the tree compares (musl-tsearch.c:88-96, 129-134, 177-185) are in tuples that can be read -/
def keysRead (s : St) (c : Nat → Int) : Nat → Nat → Res Unit
  | 0, _ => .ub
  | fuel + 1, n =>
    if n = 0 then .ok ()
    else
      match s.mem n with
      | some (.node nn) =>
        (pairOf s nn.key).bind fun _ =>
        if c nn.key = 0 then .ok () else keysRead s c fuel (nn.kid (c nn.key > 0))
      | _ => .ub

/-- `cee_map_mk_e` (map.c:83-104).  The block is allocated first and linked after the list of keys; here it is allocated where
it is linked. -/
def mapMk (s : St) (kp vp : Policy) (cmp : Nat → Nat → Int) : Res (St × Nat) :=
  (listMk al s 16).bind fun k => mkObj al k.1 (.map kp vp cmp k.2 0)

/-- `cee_map_add` (map.c:117-152, tuple.c:45-63): the old value (0 = NULL) and the tuple made for a new key (0 = none) -/
def mapAdd (s : St) (m key value : Nat) : Res (St × Nat × Nat) :=
  if key = 0 then .ok (s, 0, 0)
  else
    (getObj s m).bind fun o =>
    match o with
    | .map kp vp cmp k root =>
      (mkObj al s (.pair key value)).bind fun t =>
      (CList.touch kp (ptr key)).bind fun _ =>
      (CList.touch vp (ptr value)).bind fun _ =>
      (keysRead t.1 (fun e => cmp key (keyOf t.1 e)) 96 root).bind fun _ =>
      (treeSearch al t.1 root (fun e => cmp key (keyOf t.1 e)) t.2).bind fun r =>
      if r.2.2 = 0 then .segv
      else
        let s := { r.1 with obj := upd r.1.obj m (.map kp vp cmp k r.2.1) }
        (nodeKey s r.2.2).bind fun old =>
        if old ≠ t.2 then
          (pairOf s old).bind fun kv =>
          (plainFree { s with obj := upd s.obj old (.pair kv.1 value) } t.2).bind fun s => .ok (s, kv.2, 0)
        else (append al s k (some key)).bind fun s => .ok (s, 0, t.2)
    | _ => .ub

/-- `cee_map_find` (map.c:154-165) -/
def mapFind (s : St) (m key : Nat) : Res Nat :=
  if key = 0 then .ok 0
  else
    (getObj s m).bind fun o =>
    match o with
    | .map _ _ cmp _ root =>
      (keysRead s (fun e => cmp key (keyOf s e)) 96 root).bind fun _ =>
      (treeFind s root (fun e => cmp key (keyOf s e))).bind fun n =>
      if n = 0 then .ok 0
      else (nodeKey s n).bind fun t => (pairOf s t).bind fun kv => .ok kv.2
    | _ => .ub

/-- the loop of `cee_map_ordered_key_delete` (map.c:170-176): the index of the first key equal to the deleted one -/
def findKey (cmp : Nat → Nat → Int) (key : Nat) (cs : List (CList.Cell Nat)) : Nat → Nat → Res (Option Nat)
  | 0, _ => .ok none
  | n + 1, i =>
    (CList.rd cs i).bind fun e =>
    match e with
    | none => .ub
    | some e => if cmp key e = 0 then .ok (some i) else findKey cmp key cs n (i + 1)

/-- `cee_map_ordered_key_delete` (map.c:167-178); the list has fewer than 2^31 keys -/
def keyDelete (s : St) (cmp : Nat → Nat → Int) (k key : Nat) : Res St :=
  (getObj s k).bind fun o =>
  match o with
  | .list size _ a =>
    (getCells s a).bind fun cs =>
    (findKey cmp key cs size 0).bind fun i =>
    match i with
    | none => .segv
    | some i => (remove s k i).bind fun r => .ok r.1
  | _ => .ub

/-- `cee_map_remove` (map.c:180-200) -/
def mapRemove (s : St) (m key : Nat) : Res (St × Nat) :=
  if key = 0 then .ok (s, 0)
  else
    (getObj s m).bind fun o =>
    match o with
    | .map kp vp cmp k root =>
      (keysRead s (fun e => cmp key (keyOf s e)) 96 root).bind fun _ =>
      (treeFind s root (fun e => cmp key (keyOf s e))).bind fun n =>
      if n = 0 then .ok (s, 0)
      else
        (nodeKey s n).bind fun t =>
        (treeDelete s root (fun e => cmp key (keyOf s e))).bind fun r =>
        let s := { r.1 with obj := upd r.1.obj m (.map kp vp cmp k r.2) }
        (pairOf s t).bind fun kv =>
        (plainFree s t).bind fun s =>
        (keyDelete s cmp k key).bind fun s => .ok (s, kv.2)
    | _ => .ub

/-- `CEE_TRACE_DEL_NO_FOLLOW` of a map (map.c:55-60) -/
def mapFree (s : St) (m : Nat) : Res St :=
  (getObj s m).bind fun o =>
  match o with
  | .map _ _ _ _ root => (treeDestroy s root).bind fun r => (deChain r.1 m).bind fun s => freeObj s m
  | _ => .ub

/-- `cee_del` of tuples, one after the other (map.c:33-35, tuple.c:29-34), with the keys and values given to `cee_del_e` -/
def delPairs : List Nat → St → Res (St × List (Option Nat))
  | [], s => .ok (s, [])
  | t :: ts, s =>
    (pairOf s t).bind fun kv =>
    (plainFree s t).bind fun s =>
    (delPairs ts s).bind fun r => .ok (r.1, ptr kv.1 :: ptr kv.2 :: r.2)

/-- `cee_del` of a map, `CEE_TRACE_DEL_FOLLOW` (map.c:61-66), with the keys (of the list, then of the tuples) and
values given to `cee_del_e`.  Each tuple is deleted before its node is freed; here the tuples are deleted after all nodes. -/
def mapDel (s : St) (m : Nat) : Res (St × List (Option Nat)) :=
  (getObj s m).bind fun o =>
  match o with
  | .map _ _ _ k root =>
    (listDel s k).bind fun rk =>
    (treeDestroy rk.1 root).bind fun r =>
    (delPairs r.2 r.1).bind fun rp =>
    (deChain rp.1 m).bind fun s =>
    (freeObj s m).bind fun s => .ok (s, rk.2 ++ rp.2)
  | _ => .ub

/-! ## States -/

/-- `cee_trace(p, CEE_TRACE_DEL_NO_FOLLOW)` -/
def traceFree (s : St) (p : Nat) : Res St :=
  (getObj s p).bind fun o =>
  match o with
  | .plain => plainFree s p
  | .list .. => listFree s p
  | .dict .. => dictFree s p
  | .pair .. => plainFree s p
  | .set .. => setFree s p
  | .map .. => mapFree s p

/-- `cee_del(state)` (state.c:28-35); `none` = still running when the fuel is used up -/
def delState : Nat → St → Res (Option St)
  | 0, _ => .ok none
  | fuel + 1, s =>
    if s.ch.tail = 0 then (freeObj s 0).bind fun s => .ok (some s)
    else (traceFree s s.ch.tail).bind fun s => delState fuel s

/-- `cee_state_mk` before its own containers are allocated (state.c:90-95) -/
def stateMk : St := ⟨Chain.stateMk, fun _ => .plain, fun _ => none, 0⟩

end Verif.Own
