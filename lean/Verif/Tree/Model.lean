import Verif.Base

/-!
# Model of `musl-tsearch.c` (the balanced search tree behind `cee_map` and `cee_set`)

The elements `E` are the `const void *key` pointers stored in the nodes.  A comparator call
`cmp(cxt, key, n->key)` is a function `c : E → Int` already applied to the searched key; only its
sign is used by the code.

Simplifications: `malloc` succeeds; `int` heights do not overflow (a tree of height 2^31 does not
fit in any memory; C04 bounds the height by 95 anyway).
-/

namespace Verif.Tree

/-- `struct tnode` (musl-tsearch.c:13-17): key, the two children `a[0]`, `a[1]`, stored height. -/
inductive Tree (E : Type u) where
  | nil
  | node (key : E) (a0 a1 : Tree E) (h : Nat)
  deriving Repr, DecidableEq

open Tree

variable {E : Type u}

/-- `height` (musl-tsearch.c:20): the stored height, 0 for NULL. -/
def height : Tree E → Nat
  | nil => 0
  | node _ _ _ h => h

/-- child in direction `dir` (`n->a[dir]`, `dir` is 0/1). -/
def child (a0 a1 : Tree E) (dir : Bool) : Tree E := if dir then a1 else a0

/-- build a node whose child in direction `dir` is `s` and in the other direction `o`. -/
def mkDir (dir : Bool) (k : E) (s o : Tree E) (h : Nat) : Tree E :=
  if dir then node k o s h else node k s o h

/-- `rot` (musl-tsearch.c:22-61): `x` with `dir` the deeper side.  Returns the new subtree and
`z->h - hx`.  Dereferencing a NULL `y` (or a NULL `z` in the double rotation) is UB. -/
def rot (xk : E) (xa0 xa1 : Tree E) (xh : Nat) (dir : Bool) : Res (Tree E × Int) :=
  match child xa0 xa1 dir with
  | nil => .ub
  | node yk ya0 ya1 _ =>
    let other := child xa0 xa1 (!dir)       -- x->a[!dir], subtree A in the C picture
    let z := child ya0 ya1 (!dir)
    let hz := height z
    if hz > height (child ya0 ya1 dir) then
      match z with
      | nil => .ub
      | node zk za0 za1 _ =>
        -- x->a[dir] = z->a[!dir]; y->a[!dir] = z->a[dir]; z->a[!dir] = x; z->a[dir] = y
        let x' := mkDir dir xk (child za0 za1 (!dir)) other hz
        let y' := mkDir dir yk (child ya0 ya1 dir) (child za0 za1 dir) hz
        let z' := mkDir dir zk y' x' (hz + 1)
        .ok (z', (hz + 1 : Int) - xh)
    else
      -- x->a[dir] = z; y->a[!dir] = x
      let x' := mkDir dir xk z other (hz + 1)
      let y' := mkDir dir yk (child ya0 ya1 dir) x' (hz + 2)
      .ok (y', (hz + 2 : Int) - xh)

/-- `__tsearch_balance` (musl-tsearch.c:64-75).  The unsigned test `h0 - h1 + 1u < 3u` is
`-1 ≤ h0 - h1 ≤ 1`.  `*p == NULL` is dereferenced in C: UB. -/
def balance : Tree E → Res (Tree E × Int)
  | nil => .ub
  | node k a0 a1 h =>
    let h0 := height a0
    let h1 := height a1
    if h0 ≤ h1 + 1 ∧ h1 ≤ h0 + 1 then
      let h' := if h0 < h1 then h1 + 1 else h0 + 1
      .ok (node k a0 a1 h', (h' : Int) - h)
    else
      rot k a0 a1 h (h0 < h1)

/-- One recorded step of the path array `a[]`: the address `&n->a[dir]` is the node `n` with the
child in direction `dir` taken out. -/
structure Frame (E : Type u) where
  dir : Bool
  key : E
  other : Tree E
  h : Nat
  deriving Repr, DecidableEq

/-- put a subtree back below the node of a frame (the store `*a[i] = t`). -/
def plug (f : Frame E) (t : Tree E) : Tree E := mkDir f.dir f.key t f.other f.h

/-- The path array, innermost frame first; putting everything back gives the whole tree. -/
def unzip : List (Frame E) → Tree E → Tree E
  | [], t => t
  | f :: fs, t => unzip fs (plug f t)

/-- The descent loop shared by `musl_tsearch` (musl-tsearch.c:88-96), `musl_tfind` (128-135) and
`musl_tdelete` (177-185): stops at NULL or at a node with `cmp == 0`; `c > 0` goes to `a[1]`. -/
def descend (c : E → Int) : Tree E → List (Frame E) → List (Frame E) × Tree E
  | nil, fs => (fs, nil)
  | node k a0 a1 h, fs =>
    if c k = 0 then (fs, node k a0 a1 h)
    else if c k > 0 then descend c a1 (⟨true, k, a0, h⟩ :: fs)
    else descend c a0 (⟨false, k, a1, h⟩ :: fs)

/-- The upward loops `while (i && __tsearch_balance(a[--i]));` (musl-tsearch.c:105) and
`while (--i && __tsearch_balance(a[i]));` (207): rebalance until the height is unchanged. -/
def fixup : List (Frame E) → Tree E → Res (Tree E)
  | [], t => .ok t
  | f :: fs, t =>
    match balance (plug f t) with
    | .ok (t', d) => if d = 0 then .ok (unzip fs t') else fixup fs t'
    | .ub => .ub
    | .segv => .segv

/-- `MAXH` (musl-tsearch.c:11), `sizeof(void*)*8*3/2` with 8-byte pointers. -/
def MAXH : Nat := 8 * 8 * 3 / 2

/-- `musl_tsearch` (musl-tsearch.c:77-107).  Result: `some k` if an existing node (holding `k`) is
returned, `none` if a new node holding `new` was inserted; and the new tree.  The array `a[MAXH]`
receives the root slot and one slot per frame; writing more than `MAXH` slots is UB. -/
def tsearch (c : E → Int) (new : E) (root : Tree E) : Res (Option E × Tree E) :=
  let p := descend c root []
  if MAXH < p.1.length + 1 then .ub
  else
    match p.2 with
    | node k _ _ _ => .ok (some k, root)
    | nil =>
      match fixup p.1 (node new nil nil 1) with
      | .ok t => .ok (none, t)
      | .ub => .ub
      | .segv => .segv

/-- `musl_tfind` (musl-tsearch.c:122-137): the element of the node found, or none for NULL. -/
def tfind (c : E → Int) : Tree E → Option E
  | nil => none
  | node k a0 a1 _ =>
    if c k = 0 then some k
    else if c k > 0 then tfind c a1 else tfind c a0

/-- The inner loop of `musl_tdelete` (musl-tsearch.c:190-195): from the left child of the deleted
node go right as long as possible.  Returns the frames, the key and left child of the last node. -/
def goRight : (k : E) → (a0 a1 : Tree E) → (h : Nat) → List (Frame E) →
    List (Frame E) × E × Tree E
  | k, a0, nil, _, fs => (fs, k, a0)
  | k, a0, node k' b0 b1 h', h, fs => goRight k' b0 b1 h' (⟨true, k, a0, h⟩ :: fs)

/-- `musl_tdelete` (musl-tsearch.c:162-209).  Result: `none` if the key is absent (C returns 0
and changes nothing), otherwise the new tree.  The returned `parent` pointer is not modelled (no
caller uses it).  `a[MAXH+1]` receives the root slot twice and one slot per frame. -/
def tdelete (c : E → Int) (root : Tree E) : Res (Option (Tree E)) :=
  let p := descend c root []
  if MAXH + 1 < p.1.length + 2 then .ub
  else
    match p.2 with
    | nil => .ok none
    | node _ nil a1 _ =>
      match fixup p.1 a1 with
      | .ok t => .ok (some t)
      | .ub => .ub
      | .segv => .segv
    | node k (node lk l0 l1 lh) a1 h =>
      let g := goRight lk l0 l1 lh []
      -- deleted->key = n->key: the frame of the deleted node carries the predecessor's key
      let fs := g.1 ++ (⟨false, g.2.1, a1, h⟩ : Frame E) :: p.1
      if MAXH + 1 < fs.length + 2 then .ub
      else
        match fixup fs g.2.2 with
        | .ok t => .ok (some t)
        | .ub => .ub
        | .segv => .segv

/-- `VISIT` (musl-search.h:9). -/
inductive Visit where
  | preorder | postorder | endorder | leaf
  deriving Repr, DecidableEq

/-- `walk` (musl-tsearch.c:139-153) as the sequence of calls of `action`: element of the node,
visit kind, depth.  A node is a leaf iff its stored height is 1. -/
def walk : Tree E → Nat → List (E × Visit × Nat)
  | nil, _ => []
  | node k a0 a1 h, d =>
    if h = 1 then [(k, .leaf, d)]
    else (k, .preorder, d) :: walk a0 (d + 1) ++ (k, .postorder, d) :: walk a1 (d + 1)
      ++ [(k, .endorder, d)]

/-- the filter `case preorder: case leaf:` used by every action in map.c (37-50, 212-223, 245-256,
279-295) and set.c (30-43, 158-170, 228-241). -/
def isFirst : Visit → Bool
  | .preorder | .leaf => true
  | _ => false

/-- elements on which the container actions act, in call order -/
def visited (t : Tree E) : List E :=
  ((walk t 0).filter (fun e => isFirst e.2.1)).map (fun e => e.1)

/-- `musl_tdestroy` (musl-tsearch.c:109-120): the order in which `freekey` is applied; every node
is freed right after. -/
def tdestroy : Tree E → List E
  | nil => []
  | node k a0 a1 _ => tdestroy a0 ++ tdestroy a1 ++ [k]

end Verif.Tree
