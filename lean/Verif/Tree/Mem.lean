import Verif.Tree.Model

/-!
# `musl-tsearch.c` in memory

`Verif.Tree` describes the search tree as a value.  Here the same functions work, store by store, on
a memory of `struct tnode` blocks with pointers between them, as the C text does: the array `a[]`
holds addresses of pointer fields, rotations assign fields one after the other, `free` takes a
block away.  Reading or writing through NULL or through a pointer to a block that is not allocated
(any more), freeing such a pointer and writing `a[]` beyond its end are undefined behaviour.

Simplifications: `rootp` is not NULL (every caller passes the address of a field: map.c, set.c);
heights are natural numbers (C04 bounds them by 95).  `malloc` may fail, and otherwise returns any
address that is not in use.
-/

namespace Verif.TreeMem

open Verif.Tree (MAXH Visit)

variable {E : Type}

/-- `struct tnode` (musl-tsearch.c:13-17) with pointers; the pointer 0 is NULL. -/
structure TNode (E : Type) where
  key : E
  a0 : Nat
  a1 : Nat
  h : Nat
  deriving Repr, DecidableEq

/-- `n->a[dir]` (musl-tsearch.c:15). -/
def TNode.kid (n : TNode E) (dir : Bool) : Nat := if dir then n.a1 else n.a0

/-- the node after `n->a[dir] = v` (musl-tsearch.c:15). -/
def TNode.setKid (n : TNode E) (dir : Bool) (v : Nat) : TNode E :=
  if dir then { n with a1 := v } else { n with a0 := v }

/-- The allocated blocks of tree nodes, and `*rootp` (musl-tsearch.c:77, 162: the pointer field of
the container, map.c:124, set.c:114). -/
structure Heap (E : Type) where
  root : Nat
  mem : Nat → Option (TNode E)

/-- a memory with one block changed (`some`: allocated, with these contents; `none`: freed) -/
def upd (m : Nat → Option (TNode E)) (p : Nat) (v : Option (TNode E)) : Nat → Option (TNode E) :=
  fun q => if q = p then v else m q

/-- reading through a pointer -/
def get (s : Heap E) (p : Nat) : Res (TNode E) :=
  if p = 0 then .ub
  else match s.mem p with
    | some n => .ok n
    | none => .ub

/-- `p->a[dir] = v` -/
def setKid (s : Heap E) (p : Nat) (dir : Bool) (v : Nat) : Res (Heap E) :=
  (get s p).bind fun n => .ok { s with mem := upd s.mem p (some (n.setKid dir v)) }

/-- `p->h = h` -/
def setH (s : Heap E) (p : Nat) (h : Nat) : Res (Heap E) :=
  (get s p).bind fun n => .ok { s with mem := upd s.mem p (some { n with h := h }) }

/-- `p->key = k` -/
def setKey (s : Heap E) (p : Nat) (k : E) : Res (Heap E) :=
  (get s p).bind fun n => .ok { s with mem := upd s.mem p (some { n with key := k }) }

/-- `free(p)` -/
def free (s : Heap E) (p : Nat) : Res (Heap E) :=
  (get s p).bind fun _ => .ok { s with mem := upd s.mem p none }

/-- An entry of the array `a[]` of `void **` (musl-tsearch.c:83, 168): `rootp` or `&p->a[dir]`. -/
inductive Slot where
  | root
  | kid (p : Nat) (dir : Bool)
  deriving Repr, DecidableEq

/-- `*slot` -/
def load (s : Heap E) : Slot → Res Nat
  | .root => .ok s.root
  | .kid p dir => (get s p).bind fun n => .ok (n.kid dir)

/-- `*slot = v` -/
def store (s : Heap E) : Slot → Nat → Res (Heap E)
  | .root, v => .ok { s with root := v }
  | .kid p dir, v => setKid s p dir v

/-- `height` (musl-tsearch.c:20). -/
def height (s : Heap E) (p : Nat) : Res Nat :=
  if p = 0 then .ok 0 else (get s p).bind fun n => .ok n.h

/-- `rot` (musl-tsearch.c:22-61), assignment by assignment: the double rotation is 38-44, the single
one 53-57, `*p = z` and the result 59-60. -/
def rot (s : Heap E) (p : Slot) (x : Nat) (dir : Bool) : Res (Heap E × Int) :=
  (get s x).bind fun nx =>
  let y := nx.kid dir
  (get s y).bind fun ny =>
  let z := ny.kid (!dir)
  let hx := nx.h
  (height s z).bind fun hz =>
  (height s (ny.kid dir)).bind fun hd =>
  if hz > hd then
    (get s z).bind fun nz =>
    (setKid s x dir (nz.kid (!dir))).bind fun s =>
    (get s z).bind fun nz =>
    (setKid s y (!dir) (nz.kid dir)).bind fun s =>
    (setKid s z (!dir) x).bind fun s =>
    (setKid s z dir y).bind fun s =>
    (setH s x hz).bind fun s =>
    (setH s y hz).bind fun s =>
    (setH s z (hz + 1)).bind fun s =>
    (store s p z).bind fun s =>
    (get s z).bind fun nz => .ok (s, (nz.h : Int) - hx)
  else
    (setKid s x dir z).bind fun s =>
    (setKid s y (!dir) x).bind fun s =>
    (setH s x (hz + 1)).bind fun s =>
    (setH s y (hz + 2)).bind fun s =>
    (store s p y).bind fun s =>
    (get s y).bind fun ny => .ok (s, (ny.h : Int) - hx)

/-- `__tsearch_balance` (musl-tsearch.c:64-75). -/
def balance (s : Heap E) (p : Slot) : Res (Heap E × Int) :=
  (load s p).bind fun n =>
  (get s n).bind fun nn =>
  (height s nn.a0).bind fun h0 =>
  (height s nn.a1).bind fun h1 =>
  if h0 ≤ h1 + 1 ∧ h1 ≤ h0 + 1 then
    let h' := if h0 < h1 then h1 + 1 else h0 + 1
    (setH s n h').bind fun s => .ok (s, (h' : Int) - nn.h)
  else rot s p n (h0 < h1)

/-- The descent loop of `musl_tsearch` (musl-tsearch.c:88-96) and `musl_tdelete` (177-185).  `room`
is the number of free entries of `a[]`, whose last written entry is first in the list. -/
def down (c : E → Int) (s : Heap E) : Nat → Nat → List Slot → Res (List Slot × Nat)
  | room, n, a =>
    if n = 0 then .ok (a, 0)
    else
      (get s n).bind fun nn =>
      if c nn.key = 0 then .ok (a, n)
      else
        match room with
        | 0 => .ub
        | room + 1 => down c s room (nn.kid (c nn.key > 0)) (.kid n (c nn.key > 0) :: a)

/-- `while (i && __tsearch_balance(a[--i]));` (musl-tsearch.c:105). -/
def upIns (s : Heap E) : List Slot → Res (Heap E)
  | [] => .ok s
  | p :: a => (balance s p).bind fun r => if r.2 = 0 then .ok r.1 else upIns r.1 a

/-- `musl_tsearch` (musl-tsearch.c:77-107).  `r` is what `malloc` would return (0: it fails).  The
result is the memory and the returned pointer to a node. -/
def tsearch (r : Nat) (c : E → Int) (new : E) (s : Heap E) : Res (Heap E × Nat) :=
  (down c s (MAXH - 1) s.root [.root]).bind fun d =>
  if d.2 ≠ 0 then .ok (s, d.2)
  else if r = 0 then .ok (s, 0)
  else
    let s := { s with mem := upd s.mem r (some ⟨new, 0, 0, 1⟩) }
    match d.1 with
    | [] => .ub
    | p :: a => (store s p r).bind fun s => (upIns s a).bind fun s => .ok (s, r)

/-- `musl_tfind` (musl-tsearch.c:122-137), the first `fuel` rounds of the loop; `none` when it has
not ended by then. -/
def tfind (c : E → Int) (s : Heap E) : Nat → Nat → Option (Res Nat)
  | 0, _ => none
  | fuel + 1, n =>
    if n = 0 then some (.ok 0)
    else match get s n with
      | .ok nn => if c nn.key = 0 then some (.ok n) else tfind c s fuel (nn.kid (c nn.key > 0))
      | .ub => some .ub
      | .segv => some .segv

/-- `while (n->a[1]) { a[i++] = &n->a[1]; n = n->a[1]; }` (musl-tsearch.c:192-195). -/
def goRight (s : Heap E) : Nat → Nat → List Slot → Res (List Slot × Nat)
  | room, n, a =>
    (get s n).bind fun nn =>
    if nn.a1 = 0 then .ok (a, n)
    else
      match room with
      | 0 => .ub
      | room + 1 => goRight s room nn.a1 (.kid n true :: a)

/-- `while (--i && __tsearch_balance(a[i]));` (musl-tsearch.c:207): the entry `a[0]` is left out. -/
def upDel (s : Heap E) : List Slot → Res (Heap E)
  | p :: q :: a => (balance s p).bind fun r => if r.2 = 0 then .ok r.1 else upDel r.1 (q :: a)
  | _ => .ok s

/-- The end of `musl_tdelete` (musl-tsearch.c:201-208): `n` is the block to free, `kid` its only
child, `parent` was read at 186. -/
def unlink (s : Heap E) (a : List Slot) (n kid parent : Nat) : Res (Heap E × Nat) :=
  let parent := if parent = n then 0 else parent
  (free s n).bind fun s =>
  match a with
  | [] => .ub
  | p :: a => (store s p kid).bind fun s => (upDel s a).bind fun s => .ok (s, parent)

/-- `musl_tdelete` (musl-tsearch.c:162-209), with the returned pointer `parent`. -/
def tdelete (c : E → Int) (s : Heap E) : Res (Heap E × Nat) :=
  (down c s (MAXH - 1) s.root [.root, .root]).bind fun d =>
  let a := d.1
  let n := d.2
  if n = 0 then .ok (s, 0)
  else
    match a with
    | _ :: p2 :: _ =>
      (load s p2).bind fun parent =>
      (get s n).bind fun nn =>
      if nn.a0 ≠ 0 then
        if MAXH + 1 ≤ a.length then .ub
        else
          (goRight s (MAXH + 1 - (a.length + 1)) nn.a0 (.kid n false :: a)).bind fun g =>
          (get s g.2).bind fun ng =>
          (setKey s n ng.key).bind fun s =>
          (get s g.2).bind fun ng => unlink s g.1 g.2 ng.a0 parent
      else unlink s a n nn.a1 parent
    | _ => .ub

/-- `musl_tdestroy` (musl-tsearch.c:109-120) with recursion up to depth `fuel` (`none`: deeper).
The keys given to `freekey` in call order, and the memory.  `freekey` itself does not touch the
nodes. -/
def tdestroy : Nat → Heap E → Nat → Option (Res (Heap E × List E))
  | 0, _, _ => none
  | fuel + 1, s, r =>
    if r = 0 then some (.ok (s, []))
    else
      match get s r with
      | .ok n =>
        match tdestroy fuel s n.a0 with
        | some (.ok (s, l0)) =>
          -- r->a[1], r->key are read after the first call
          match get s r with
          | .ok n =>
            match tdestroy fuel s n.a1 with
            | some (.ok (s, l1)) =>
              match get s r with
              | .ok n => some ((free s r).bind fun s => .ok (s, l0 ++ l1 ++ [n.key]))
              | _ => some .ub
            | o => o
          | _ => some .ub
        | o => o
      | _ => some .ub

/-- `walk` (musl-tsearch.c:139-153) with recursion up to depth `fuel` (`none`: deeper): the calls of
`action`, with the node pointer, in order.  `action` does not change the tree. -/
def walk (s : Heap E) : Nat → Nat → Nat → Option (Res (List (Nat × Visit × Nat)))
  | 0, _, _ => none
  | fuel + 1, r, d =>
    if r = 0 then some (.ok [])
    else
      match get s r with
      | .ok n =>
        if n.h = 1 then some (.ok [(r, .leaf, d)])
        else
          match walk s fuel n.a0 (d + 1) with
          | some (.ok l0) =>
            match walk s fuel n.a1 (d + 1) with
            | some (.ok l1) =>
              some (.ok ((r, .preorder, d) :: l0 ++ (r, .postorder, d) :: l1
                ++ [(r, .endorder, d)]))
            | o => o
          | o => o
      | _ => some .ub

end Verif.TreeMem
