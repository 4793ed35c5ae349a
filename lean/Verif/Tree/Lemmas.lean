import Verif.Tree.Model

/-! Helper lemmas about the search tree model. -/

namespace Verif.Tree

open Tree

variable {E : Type u}

@[simp] theorem height_nil : height (nil : Tree E) = 0 := rfl
@[simp] theorem height_node (k : E) (a0 a1 : Tree E) (h : Nat) : height (node k a0 a1 h) = h := rfl

/-- in-order contents -/
def inorder : Tree E → List E
  | nil => []
  | node k a0 a1 _ => inorder a0 ++ k :: inorder a1

/-- number of nodes -/
def count : Tree E → Nat
  | nil => 0
  | node _ a0 a1 _ => count a0 + 1 + count a1

/-- real height -/
def realHeight : Tree E → Nat
  | nil => 0
  | node _ a0 a1 _ => max (realHeight a0) (realHeight a1) + 1

/-- AVL invariant with correct stored heights -/
def Inv : Tree E → Prop
  | nil => True
  | node _ a0 a1 h => Inv a0 ∧ Inv a1 ∧ h = max (height a0) (height a1) + 1 ∧
      height a0 ≤ height a1 + 1 ∧ height a1 ≤ height a0 + 1

theorem Inv.realHeight {t : Tree E} (h : Inv t) : height t = realHeight t := by
  induction t with
  | nil => rfl
  | node k a0 a1 hh ih0 ih1 =>
    obtain ⟨i0, i1, e, _, _⟩ := h
    simp [height_node, height_nil, Tree.realHeight, e, ih0 i0, ih1 i1]

theorem count_eq_length (t : Tree E) : count t = (inorder t).length := by
  induction t with
  | nil => rfl
  | node k a0 a1 h ih0 ih1 => simp [count, inorder, ih0, ih1]; omega

theorem Inv.height_pos {k : E} {a0 a1 : Tree E} {h : Nat} (i : Inv (node k a0 a1 h)) : 0 < h := by
  obtain ⟨_, _, e, _⟩ := i; omega

/-- height zero means empty -/
theorem Inv.height_eq_zero {t : Tree E} (i : Inv t) : height t = 0 ↔ t = nil := by
  cases t with
  | nil => simp [height_node, height_nil]
  | node k a0 a1 h => have := i.height_pos; simp [height_node, height_nil]; omega

/-- The result of `rot` when the deeper side is exactly 2 deeper. -/
theorem rot_spec (k : E) (a0 a1 : Tree E) (h : Nat) (dir : Bool)
    (i0 : Inv a0) (i1 : Inv a1)
    (hd : height (child a0 a1 dir) = height (child a0 a1 (!dir)) + 2) :
    ∃ t', rot k a0 a1 h dir = .ok (t', (height t' : Int) - h) ∧ Inv t' ∧
      inorder t' = inorder a0 ++ k :: inorder a1 ∧
      height (child a0 a1 dir) ≤ height t' ∧ height t' ≤ height (child a0 a1 dir) + 1 := by
  cases dir with
  | true =>
    simp only [child, if_true, Bool.not_true, Bool.false_eq_true, if_false] at hd ⊢
    cases a1 with
    | nil => simp [height_node, height_nil] at hd
    | node yk ya0 ya1 yh =>
      obtain ⟨iy0, iy1, ey, b1, b2⟩ := i1
      simp only [height_node, height_nil] at hd
      unfold rot
      simp only [child, if_true, Bool.not_true, Bool.false_eq_true, if_false]
      split
      · next hgt =>
        cases ya0 with
        | nil => simp [height_node, height_nil] at hgt
        | node zk za0 za1 zh =>
          obtain ⟨iz0, iz1, ez, c1, c2⟩ := iy0
          simp only [height_node, height_nil] at hgt ey b1 b2
          refine ⟨_, rfl, ?_, ?_, ?_, ?_⟩
          · simp only [mkDir, if_true, Inv, height_node, height_nil, i0, iy1, iz0, iz1, true_and]
            omega
          · simp [mkDir, inorder]
          · simp only [mkDir, if_true, height_node, height_nil]; omega
          · simp only [mkDir, if_true, height_node, height_nil]; omega
      · next hgt =>
        refine ⟨_, rfl, ?_, ?_, ?_, ?_⟩
        · simp only [mkDir, if_true, Inv, height_node, height_nil, i0, iy1, iy0, true_and]
          omega
        · simp [mkDir, inorder]
        · simp only [mkDir, if_true, height_node, height_nil]; omega
        · simp only [mkDir, if_true, height_node, height_nil]; omega
  | false =>
    simp only [child, if_true, Bool.not_false, Bool.false_eq_true, if_false] at hd ⊢
    cases a0 with
    | nil => simp [height_node, height_nil] at hd
    | node yk ya0 ya1 yh =>
      obtain ⟨iy0, iy1, ey, b1, b2⟩ := i0
      simp only [height_node, height_nil] at hd
      unfold rot
      simp only [child, if_true, Bool.not_false, Bool.false_eq_true, if_false]
      split
      · next hgt =>
        cases ya1 with
        | nil => simp [height_node, height_nil] at hgt
        | node zk za0 za1 zh =>
          obtain ⟨iz0, iz1, ez, c1, c2⟩ := iy1
          simp only [height_node, height_nil] at hgt ey b1 b2
          refine ⟨_, rfl, ?_, ?_, ?_, ?_⟩
          · simp only [mkDir, Bool.false_eq_true, if_false, Inv, height_node, height_nil, i1, iy0, iz0, iz1, true_and]
            omega
          · simp [mkDir, inorder]
          · simp only [mkDir, Bool.false_eq_true, if_false, height_node, height_nil]; omega
          · simp only [mkDir, Bool.false_eq_true, if_false, height_node, height_nil]; omega
      · next hgt =>
        refine ⟨_, rfl, ?_, ?_, ?_, ?_⟩
        · simp only [mkDir, Bool.false_eq_true, if_false, Inv, height_node, height_nil, i1, iy1, iy0, true_and]
          omega
        · simp [mkDir, inorder]
        · simp only [mkDir, Bool.false_eq_true, if_false, height_node, height_nil]; omega
        · simp only [mkDir, Bool.false_eq_true, if_false, height_node, height_nil]; omega

/-- `balance` repairs a node whose children are at most 2 apart. -/
theorem balance_spec (k : E) (a0 a1 : Tree E) (h : Nat) (i0 : Inv a0) (i1 : Inv a1)
    (d0 : height a0 ≤ height a1 + 2) (d1 : height a1 ≤ height a0 + 2) :
    ∃ t', balance (node k a0 a1 h) = .ok (t', (height t' : Int) - h) ∧ Inv t' ∧
      inorder t' = inorder a0 ++ k :: inorder a1 ∧
      max (height a0) (height a1) ≤ height t' ∧ height t' ≤ max (height a0) (height a1) + 1 ∧
      (height a0 ≤ height a1 + 1 → height a1 ≤ height a0 + 1 →
        height t' = max (height a0) (height a1) + 1) := by
  unfold balance
  simp only
  split
  · next hb =>
    refine ⟨_, rfl, ?_, rfl, ?_, ?_, ?_⟩
    · simp only [Inv, i0, i1, true_and]; split <;> omega
    all_goals (simp only [height_node, height_nil]; split <;> omega)
  · next hb =>
    by_cases hlt : height a0 < height a1
    · obtain ⟨t', e, i, io, l, u⟩ := rot_spec k a0 a1 h true i0 i1 (by simp [child]; omega)
      simp only [hlt, decide_true]
      simp [child] at l u
      exact ⟨t', e, i, io, by omega, by omega, by omega⟩
    · obtain ⟨t', e, i, io, l, u⟩ := rot_spec k a0 a1 h false i0 i1 (by simp [child]; omega)
      simp only [hlt, decide_false]
      simp [child] at l u
      exact ⟨t', e, i, io, by omega, by omega, by omega⟩

/-- A path whose hole had height `ho` in a balanced tree. -/
def Ctx : List (Frame E) → Nat → Prop
  | [], _ => True
  | f :: fs, ho => Inv f.other ∧ ho ≤ height f.other + 1 ∧ height f.other ≤ ho + 1 ∧
      f.h = max ho (height f.other) + 1 ∧ Ctx fs f.h

/-- in-order contents left of the hole -/
def leftOf : List (Frame E) → List E
  | [] => []
  | f :: fs => leftOf fs ++ (if f.dir then inorder f.other ++ [f.key] else [])

/-- in-order contents right of the hole -/
def rightOf : List (Frame E) → List E
  | [] => []
  | f :: fs => (if f.dir then [] else f.key :: inorder f.other) ++ rightOf fs

theorem inorder_plug (f : Frame E) (t : Tree E) :
    inorder (plug f t) = (if f.dir then inorder f.other ++ [f.key] else []) ++ inorder t ++
      (if f.dir then [] else f.key :: inorder f.other) := by
  unfold plug mkDir
  split <;> simp [inorder]

theorem inorder_unzip (fs : List (Frame E)) (t : Tree E) :
    inorder (unzip fs t) = leftOf fs ++ inorder t ++ rightOf fs := by
  induction fs generalizing t with
  | nil => simp [unzip, leftOf, rightOf]
  | cons f fs ih => simp [unzip, ih, inorder_plug, leftOf, rightOf, List.append_assoc]

theorem Inv_plug (f : Frame E) (t : Tree E) (it : Inv t) (io : Inv f.other)
    (h1 : height t ≤ height f.other + 1) (h2 : height f.other ≤ height t + 1)
    (h3 : f.h = max (height t) (height f.other) + 1) : Inv (plug f t) := by
  unfold plug mkDir
  split <;> simp only [Inv, it, io, true_and] <;> omega

theorem height_plug (f : Frame E) (t : Tree E) : height (plug f t) = f.h := by
  unfold plug mkDir; split <;> rfl

theorem unzip_Inv (fs : List (Frame E)) (t : Tree E) (it : Inv t) (c : Ctx fs (height t)) :
    Inv (unzip fs t) := by
  induction fs generalizing t with
  | nil => exact it
  | cons f fs ih =>
    obtain ⟨io, h1, h2, h3, c'⟩ := c
    exact ih _ (Inv_plug f t it io h1 h2 h3) (by rw [height_plug]; exact c')

theorem balance_plug (f : Frame E) (t : Tree E) (it : Inv t) (io : Inv f.other)
    (ho : Nat) (h1 : ho ≤ height f.other + 1) (h2 : height f.other ≤ ho + 1)
    (h3 : f.h = max ho (height f.other) + 1)
    (g1 : height t ≤ ho + 1) (g2 : ho ≤ height t + 1) :
    ∃ t', balance (plug f t) = .ok (t', (height t' : Int) - f.h) ∧ Inv t' ∧
      inorder t' = inorder (plug f t) ∧
      height t' ≤ f.h + 1 ∧ f.h ≤ height t' + 1 := by
  unfold plug mkDir
  by_cases hd : f.dir = true
  · simp only [hd, if_true]
    obtain ⟨t', e, i, ino, l, u, x⟩ :=
      balance_spec f.key f.other t f.h io it (by omega) (by omega)
    refine ⟨t', e, i, ino, ?_, ?_⟩ <;> omega
  · simp only [hd, Bool.false_eq_true, if_false]
    obtain ⟨t', e, i, ino, l, u, x⟩ :=
      balance_spec f.key t f.other f.h it io (by omega) (by omega)
    refine ⟨t', e, i, ino, ?_, ?_⟩ <;> omega

/-- The upward loop restores the invariant and keeps the in-order contents. -/
theorem fixup_spec (fs : List (Frame E)) (t : Tree E) (ho : Nat) (c : Ctx fs ho) (it : Inv t)
    (g1 : height t ≤ ho + 1) (g2 : ho ≤ height t + 1) :
    ∃ t', fixup fs t = .ok t' ∧ Inv t' ∧ inorder t' = leftOf fs ++ inorder t ++ rightOf fs := by
  induction fs generalizing t ho with
  | nil => exact ⟨t, rfl, it, by simp [leftOf, rightOf]⟩
  | cons f fs ih =>
    obtain ⟨io, h1, h2, h3, c'⟩ := c
    obtain ⟨t', e, i, ino, l, u⟩ := balance_plug f t it io ho h1 h2 h3 g1 g2
    simp only [fixup, e]
    split
    · next hz =>
      have hh : height t' = f.h := by omega
      refine ⟨_, rfl, unzip_Inv fs t' i (by rw [hh]; exact c'), ?_⟩
      rw [inorder_unzip, ino, inorder_plug]
      simp [leftOf, rightOf, List.append_assoc]
    · obtain ⟨t'', e', i', ino'⟩ := ih t' f.h c' i l u
      refine ⟨t'', e', i', ?_⟩
      rw [ino', ino, inorder_plug]
      simp [leftOf, rightOf, List.append_assoc]

/-! ### descent -/

theorem descend_append (c : E → Int) (t : Tree E) (fs : List (Frame E)) :
    descend c t fs = ((descend c t []).1 ++ fs, (descend c t []).2) := by
  induction t generalizing fs with
  | nil => simp [descend]
  | node k a0 a1 h ih0 ih1 =>
    unfold descend
    split
    · simp
    · split
      · rw [ih1, ih1 [_]]; simp
      · rw [ih0, ih0 [_]]; simp

theorem unzip_append (fs gs : List (Frame E)) (t : Tree E) :
    unzip (fs ++ gs) t = unzip gs (unzip fs t) := by
  induction fs generalizing t with
  | nil => rfl
  | cons f fs ih => simp [unzip, ih]

theorem descend_unzip (c : E → Int) (t : Tree E) :
    unzip (descend c t []).1 (descend c t []).2 = t := by
  induction t with
  | nil => rfl
  | node k a0 a1 h ih0 ih1 =>
    unfold descend
    split
    · rfl
    · split
      · rw [descend_append]; simp [unzip_append, ih1, unzip, plug, mkDir]
      · rw [descend_append]; simp [unzip_append, ih0, unzip, plug, mkDir]

theorem Ctx_append (fs gs : List (Frame E)) (t : Tree E) (ho : Nat) (hh : height t = ho)
    (i : Inv (unzip fs t)) (c : Ctx gs (height (unzip fs t)))
    (cf : Ctx fs ho) : Ctx (fs ++ gs) ho := by
  induction fs generalizing t ho with
  | nil => simpa [unzip, hh] using c
  | cons f fs ih =>
    obtain ⟨io, h1, h2, h3, c'⟩ := cf
    exact ⟨io, h1, h2, h3, ih (plug f t) f.h (height_plug f t) i c c'⟩

/-- the path of a descent in a balanced tree is a valid context, and the subtree reached is
balanced -/
theorem descend_Ctx (c : E → Int) (t : Tree E) (i : Inv t) :
    Ctx (descend c t []).1 (height (descend c t []).2) ∧ Inv (descend c t []).2 := by
  induction t with
  | nil => exact ⟨trivial, trivial⟩
  | node k a0 a1 h ih0 ih1 =>
    have i' := i
    obtain ⟨i0, i1, e, b0, b1⟩ := i
    unfold descend
    split
    · exact ⟨trivial, i'⟩
    · split
      · obtain ⟨c1, j1⟩ := ih1 i1
        rw [descend_append]
        refine ⟨?_, j1⟩
        refine Ctx_append _ _ (descend c a1 []).2 _ rfl ?_ ?_ c1
        · rw [descend_unzip]; exact i1
        · rw [descend_unzip]; refine ⟨i0, b1, b0, ?_, trivial⟩; simp only; omega
      · obtain ⟨c1, j1⟩ := ih0 i0
        rw [descend_append]
        refine ⟨?_, j1⟩
        refine Ctx_append _ _ (descend c a0 []).2 _ rfl ?_ ?_ c1
        · rw [descend_unzip]; exact i0
        · rw [descend_unzip]; refine ⟨i1, b0, b1, ?_, trivial⟩; simp only; omega

theorem leftOf_append (fs gs : List (Frame E)) : leftOf (fs ++ gs) = leftOf gs ++ leftOf fs := by
  induction fs with
  | nil => simp [leftOf]
  | cons f fs ih => simp [leftOf, ih, List.append_assoc]

theorem rightOf_append (fs gs : List (Frame E)) : rightOf (fs ++ gs) = rightOf fs ++ rightOf gs := by
  induction fs with
  | nil => simp [rightOf]
  | cons f fs ih => simp [rightOf, ih, List.append_assoc]

/-- The searched key is compatible with a sorted sequence: first the smaller elements
(`c x > 0` means key > x), then the equal ones, then the larger ones. -/
def Cut (c : E → Int) (l : List E) : Prop := l.Pairwise (fun x y => (c y ≥ 0 → c x > 0) ∧ (c x ≤ 0 → c y < 0))

theorem Cut.left {c : E → Int} {l r : List E} (h : Cut c (l ++ r)) : Cut c l :=
  (List.pairwise_append.1 h).1
theorem Cut.right {c : E → Int} {l r : List E} (h : Cut c (l ++ r)) : Cut c r :=
  (List.pairwise_append.1 h).2.1

theorem descend_sides (c : E → Int) (t : Tree E) (hc : Cut c (inorder t)) :
    (∀ x ∈ leftOf (descend c t []).1, c x > 0) ∧ (∀ x ∈ rightOf (descend c t []).1, c x < 0) := by
  induction t with
  | nil => simp [descend, leftOf, rightOf]
  | node k a0 a1 h ih0 ih1 =>
    have hc' := hc
    simp only [inorder] at hc'
    rw [Cut, List.pairwise_append] at hc'
    obtain ⟨p0, p1, p2⟩ := hc'
    rw [List.pairwise_cons] at p1
    obtain ⟨p1, p3⟩ := p1
    unfold descend
    split
    · simp [leftOf, rightOf]
    · next hne =>
      split
      · next hgt =>
        obtain ⟨hl, hr⟩ := ih1 p3
        rw [descend_append]
        constructor
        · intro x hx
          simp only [leftOf_append, leftOf, if_true, List.nil_append, List.mem_append,
            List.mem_singleton] at hx
          rcases hx with (hx | hx) | hx
          · exact (p2 x hx k (by simp)).1 (by omega)
          · subst hx; exact hgt
          · exact hl x hx
        · intro x hx
          simp only [rightOf_append, rightOf, if_true, List.nil_append, List.append_nil] at hx
          exact hr x hx
      · next hgt =>
        obtain ⟨hl, hr⟩ := ih0 p0
        rw [descend_append]
        constructor
        · intro x hx
          simp only [leftOf_append, leftOf, Bool.false_eq_true, if_false, List.nil_append,
            List.append_nil] at hx
          exact hl x hx
        · intro x hx
          simp only [rightOf_append, rightOf, Bool.false_eq_true, if_false, List.append_nil,
            List.mem_append, List.mem_cons] at hx
          rcases hx with hx | hx | hx
          · exact hr x hx
          · subst hx; omega
          · exact (p1 x hx).2 (by omega)

theorem descend_inorder (c : E → Int) (t : Tree E) :
    inorder t = leftOf (descend c t []).1 ++ inorder (descend c t []).2 ++
      rightOf (descend c t []).1 := by
  rw [← inorder_unzip, descend_unzip]

theorem descend_found (c : E → Int) (t : Tree E) {k : E} {a0 a1 : Tree E} {h : Nat} {fs}
    (e : descend c t fs = (fs', node k a0 a1 h)) : c k = 0 := by
  induction t generalizing fs with
  | nil => simp [descend] at e
  | node k' b0 b1 h' ih0 ih1 =>
    unfold descend at e
    split at e
    · next hz => simp only [Prod.mk.injEq, node.injEq] at e; rw [← e.2.1]; exact hz
    · split at e
      · exact ih1 e
      · exact ih0 e

theorem tfind_descend (c : E → Int) (t : Tree E) :
    tfind c t = match (descend c t []).2 with
      | nil => none
      | node k _ _ _ => some k := by
  induction t with
  | nil => rfl
  | node k a0 a1 h ih0 ih1 =>
    unfold descend tfind
    split
    · rfl
    · split
      · rw [descend_append, ih1]
      · rw [descend_append, ih0]

/-- the path is never longer than the height -/
theorem descend_length (c : E → Int) (t : Tree E) :
    (descend c t []).1.length ≤ realHeight t := by
  induction t with
  | nil => simp [descend]
  | node k a0 a1 h ih0 ih1 =>
    unfold descend
    split
    · simp
    · split
      · rw [descend_append]; simp [realHeight]; omega
      · rw [descend_append]; simp [realHeight]; omega

/-- the path to a found node is shorter than the height by at least the height of the subtree -/
theorem descend_length' (c : E → Int) (t : Tree E) :
    (descend c t []).1.length + realHeight (descend c t []).2 ≤ realHeight t := by
  induction t with
  | nil => simp [descend]
  | node k a0 a1 h ih0 ih1 =>
    unfold descend
    split
    · simp
    · split
      · rw [descend_append]; simp [realHeight]; omega
      · rw [descend_append]; simp [realHeight]; omega

/-! ### minimal size of a balanced tree -/

/-- minimal number of nodes of a balanced tree of height `n` -/
def minNodes : Nat → Nat
  | 0 => 0
  | 1 => 1
  | n + 2 => minNodes n + minNodes (n + 1) + 1

theorem minNodes_mono_succ (n : Nat) : minNodes n ≤ minNodes (n + 1) := by
  cases n with
  | zero => simp [minNodes]
  | succ n => rw [minNodes]; omega

theorem minNodes_mono {m n : Nat} (h : m ≤ n) : minNodes m ≤ minNodes n := by
  induction h with
  | refl => exact Nat.le_refl _
  | step _ ih => exact Nat.le_trans ih (minNodes_mono_succ _)

theorem Inv.minNodes_le {t : Tree E} (i : Inv t) : minNodes (height t) ≤ count t := by
  induction t with
  | nil => simp [height_node, height_nil, minNodes]
  | node k a0 a1 h ih0 ih1 =>
    obtain ⟨i0, i1, e, b0, b1⟩ := i
    have h0 := ih0 i0
    have h1 := ih1 i1
    simp only [height_node, height_nil, count]
    subst e
    rcases Nat.le_total (height a0) (height a1) with hle | hle
    · rw [Nat.max_eq_right hle]
      cases hh : height a1 with
      | zero => simp [minNodes]; omega
      | succ n =>
        rw [minNodes]
        rw [hh] at h1 b1
        have := minNodes_mono (show n ≤ height a0 by omega)
        omega
    · rw [Nat.max_eq_left hle]
      cases hh : height a0 with
      | zero => simp [minNodes]; omega
      | succ n =>
        rw [minNodes]
        rw [hh] at h0 b0
        have := minNodes_mono (show n ≤ height a1 by omega)
        omega

/-- fast evaluation of `minNodes` -/
def minPair : Nat → Nat × Nat
  | 0 => (0, 1)
  | n + 1 => let p := minPair n; (p.2, p.1 + p.2 + 1)

theorem minPair_eq (n : Nat) : minPair n = (minNodes n, minNodes (n + 1)) := by
  induction n with
  | zero => rfl
  | succ n ih => simp [minPair, ih, minNodes]

theorem minNodes_95 : 2 ^ 64 ≤ minNodes 95 := by
  have h := minPair_eq 95
  have h2 : (minPair 95).1 = 83621143489848422976 := by decide
  rw [h] at h2
  simp only at h2
  omega

/-- A balanced tree with fewer than 2^64 nodes has height at most 94. -/
theorem Inv.height_lt {t : Tree E} (i : Inv t) (hc : count t < 2 ^ 64) : height t < 95 := by
  apply Classical.byContradiction
  intro h
  have h1 := minNodes_mono (show 95 ≤ height t by omega)
  have h2 := i.minNodes_le
  have h3 := minNodes_95
  omega

/-! ### tsearch / tfind / tdelete -/

/-- What `tsearch` does, in terms of in-order contents, for any comparator answers. -/
theorem tsearch_any (c : E → Int) (new : E) (t : Tree E) (i : Inv t)
    (hn : count t < 2 ^ 64) :
    (∃ k, k ∈ inorder t ∧ c k = 0 ∧ tsearch c new t = .ok (some k, t) ∧ tfind c t = some k) ∨
    (∃ t' L R, tsearch c new t = .ok (none, t') ∧ Inv t' ∧ inorder t = L ++ R ∧
      inorder t' = L ++ new :: R ∧
      (Cut c (inorder t) → (∀ x ∈ L, c x > 0) ∧ (∀ x ∈ R, c x < 0))) := by
  have hlen := descend_length c t
  rw [← i.realHeight] at hlen
  have hlt := i.height_lt hn
  obtain ⟨ctx, isub⟩ := descend_Ctx c t i
  have hlr := descend_sides c t
  have hino := descend_inorder c t
  unfold tsearch
  simp only
  rw [if_neg (by simp only [MAXH]; omega)]
  cases hs : (descend c t []).2 with
  | nil =>
    right
    rw [hs] at ctx
    obtain ⟨t', e, i', ino⟩ := fixup_spec (descend c t []).1 (node new nil nil 1) 0 ctx
      (by simp [Inv, height_node, height_nil]) (by simp [height_node, height_nil]) (by simp [height_node, height_nil])
    refine ⟨t', leftOf (descend c t []).1, rightOf (descend c t []).1, ?_, i', ?_, ?_, hlr⟩
    · simp only [e]
    · rw [hino, hs]; simp [inorder]
    · rw [ino]; simp [inorder]
  | node k a0 a1 h =>
    left
    have hk : c k = 0 := descend_found c t (fs := []) (fs' := (descend c t []).1)
      (by rw [← hs])
    refine ⟨k, ?_, hk, rfl, ?_⟩
    · rw [hino, hs]; simp [inorder]
    · rw [tfind_descend, hs]

/-- What `tsearch` does when the answers agree with the order of the contents. -/
theorem tsearch_spec (c : E → Int) (new : E) (t : Tree E) (i : Inv t) (hc : Cut c (inorder t))
    (hn : count t < 2 ^ 64) :
    (∃ k, k ∈ inorder t ∧ c k = 0 ∧ tsearch c new t = .ok (some k, t) ∧ tfind c t = some k) ∨
    (∃ t' L R, tsearch c new t = .ok (none, t') ∧ Inv t' ∧ inorder t = L ++ R ∧
      inorder t' = L ++ new :: R ∧ (∀ x ∈ L, c x > 0) ∧ (∀ x ∈ R, c x < 0)) := by
  rcases tsearch_any c new t i hn with h | ⟨t', L, R, h1, h2, h3, h4, h5⟩
  · exact .inl h
  · exact .inr ⟨t', L, R, h1, h2, h3, h4, h5 hc⟩

theorem tfind_some {c : E → Int} {t : Tree E} {k : E} (h : tfind c t = some k) :
    k ∈ inorder t ∧ c k = 0 := by
  induction t with
  | nil => simp [tfind] at h
  | node k' a0 a1 hh ih0 ih1 =>
    unfold tfind at h
    split at h
    · next hz => simp only [Option.some.injEq] at h; subst h; simp [inorder, hz]
    · split at h
      · obtain ⟨h1, h2⟩ := ih1 h; simp [inorder, h1, h2]
      · obtain ⟨h1, h2⟩ := ih0 h; simp [inorder, h1, h2]

theorem tfind_none {c : E → Int} {t : Tree E} (hc : Cut c (inorder t)) (h : tfind c t = none) :
    ∀ k ∈ inorder t, c k ≠ 0 := by
  induction t with
  | nil => simp [inorder]
  | node k' a0 a1 hh ih0 ih1 =>
    simp only [inorder] at hc
    rw [Cut, List.pairwise_append] at hc
    obtain ⟨p0, p1, p2⟩ := hc
    rw [List.pairwise_cons] at p1
    obtain ⟨p1, p3⟩ := p1
    unfold tfind at h
    split at h
    · simp at h
    · next hne =>
      intro x hx
      simp only [inorder, List.mem_append, List.mem_cons] at hx
      split at h
      · next hgt =>
        rcases hx with hx | hx | hx
        · have := (p2 x hx k' (by simp)).1 (by omega); omega
        · subst hx; exact hne
        · exact ih1 p3 h x hx
      · next hgt =>
        rcases hx with hx | hx | hx
        · exact ih0 p0 h x hx
        · subst hx; exact hne
        · have := (p1 x hx).2 (by omega); omega

/-- the inner loop of deletion: contents and context -/
theorem goRight_spec (k : E) (a0 a1 : Tree E) (h : Nat) (fs : List (Frame E))
    (i : Inv (node k a0 a1 h)) :
    ∃ gs pk ch hp, goRight k a0 a1 h fs = (gs ++ fs, pk, ch) ∧
      Inv (node pk ch nil hp) ∧
      unzip gs (node pk ch nil hp) = node k a0 a1 h ∧
      Ctx gs hp ∧ rightOf gs = [] ∧
      gs.length + 1 ≤ realHeight (node k a0 a1 h) := by
  induction a1 generalizing k a0 h fs with
  | nil => exact ⟨[], k, a0, h, rfl, i, rfl, trivial, rfl, by simp [realHeight]⟩
  | node k' b0 b1 h' ih0 ih1 =>
    obtain ⟨i0, i1, e, d0, d1⟩ := i
    obtain ⟨gs, pk, ch, hp, eg, ip, uz, cx, ro, ln⟩ := ih1 k' b0 h' (⟨true, k, a0, h⟩ :: fs) i1
    refine ⟨gs ++ [⟨true, k, a0, h⟩], pk, ch, hp, ?_, ip, ?_, ?_, ?_, ?_⟩
    · simp [goRight, eg]
    · rw [unzip_append, uz]; simp [unzip, plug, mkDir]
    · refine Ctx_append gs _ (node pk ch nil hp) hp rfl ?_ ?_ cx
      · rw [uz]; exact i1
      · rw [uz]; refine ⟨i0, ?_, ?_, ?_, trivial⟩ <;> simp only [height_node, height_nil] at * <;> omega
    · rw [rightOf_append, ro]; simp [rightOf]
    · simp only [List.length_append, List.length_cons, List.length_nil]
      simp only [realHeight] at *
      omega

theorem tdelete_any (c : E → Int) (t : Tree E) (i : Inv t)
    (hn : count t < 2 ^ 64) :
    ((Cut c (inorder t) → ∀ k ∈ inorder t, c k ≠ 0) ∧ tdelete c t = .ok none) ∨
    (∃ t' L k R, c k = 0 ∧ tdelete c t = .ok (some t') ∧ Inv t' ∧ inorder t = L ++ k :: R ∧
      inorder t' = L ++ R ∧ tfind c t = some k) := by
  have hlen := descend_length c t
  have hlen' := descend_length' c t
  rw [← i.realHeight] at hlen hlen'
  have hlt := i.height_lt hn
  obtain ⟨ctx, isub⟩ := descend_Ctx c t i
  have hino := descend_inorder c t
  have hfind := tfind_descend c t
  unfold tdelete
  simp only
  rw [if_neg (by simp only [MAXH]; omega)]
  cases hs : (descend c t []).2 with
  | nil =>
    left
    rw [hs] at hfind
    exact ⟨fun hc => tfind_none hc hfind, rfl⟩
  | node k a0 a1 h =>
    right
    have hk : c k = 0 := descend_found c t (fs := []) (fs' := (descend c t []).1) (by rw [← hs])
    rw [hs] at isub ctx hino hfind hlen'
    cases a0 with
    | nil =>
      obtain ⟨_, i1, eh, d0, d1⟩ := isub
      simp only [height_node, height_nil] at eh d0 d1 ctx
      obtain ⟨t', e, i', ino⟩ := fixup_spec (descend c t []).1 a1 h ctx i1 (by omega) (by omega)
      refine ⟨t', leftOf (descend c t []).1, k, inorder a1 ++ rightOf (descend c t []).1, hk, ?_, i', ?_, ?_, hfind⟩
      · simp only [e]
      · rw [hino]; simp [inorder]
      · rw [ino]; simp
    | node lk l0 l1 lh =>
      have isub' := isub
      obtain ⟨i0, i1, eh, d0, d1⟩ := isub
      obtain ⟨gs, pk, ch, hp, eg, ip, uz, cx, ro, ln⟩ := goRight_spec lk l0 l1 lh [] i0
      simp only [List.append_nil] at eg
      simp only [eg]
      have hgl : gs.length + 1 + (descend c t []).1.length < height t := by
        simp only [realHeight] at ln hlen'
        omega
      rw [if_neg (by simp only [List.length_append, List.length_cons, MAXH]; omega)]
      have cx2 : Ctx (gs ++ (⟨false, pk, a1, h⟩ : Frame E) :: (descend c t []).1) hp := by
        refine Ctx_append gs _ (node pk ch nil hp) hp rfl ?_ ?_ cx
        · rw [uz]; exact i0
        · rw [uz]
          refine ⟨i1, ?_, ?_, ?_, ?_⟩
          · exact d0
          · exact d1
          · exact eh
          · exact ctx
      obtain ⟨ic, _, ehp, b0, b1⟩ := ip
      simp only [height_node, height_nil] at ehp b0 b1
      obtain ⟨t', e, i', ino⟩ := fixup_spec _ ch hp cx2 ic (by omega) (by omega)
      have hin0 : inorder (node lk l0 l1 lh) = leftOf gs ++ inorder ch ++ [pk] := by
        rw [← uz, inorder_unzip, ro]; simp [inorder]
      refine ⟨t', leftOf (descend c t []).1 ++ inorder (node lk l0 l1 lh), k,
        inorder a1 ++ rightOf (descend c t []).1, hk, ?_, i', ?_, ?_, hfind⟩
      · simp only [e]
      · rw [hino]; simp [inorder]
      · rw [ino, hin0, leftOf_append, rightOf_append, ro]
        simp [leftOf, rightOf]

theorem tdelete_spec (c : E → Int) (t : Tree E) (i : Inv t) (hc : Cut c (inorder t))
    (hn : count t < 2 ^ 64) :
    ((∀ k ∈ inorder t, c k ≠ 0) ∧ tdelete c t = .ok none) ∨
    (∃ t' L k R, c k = 0 ∧ tdelete c t = .ok (some t') ∧ Inv t' ∧ inorder t = L ++ k :: R ∧
      inorder t' = L ++ R ∧ tfind c t = some k) := by
  rcases tdelete_any c t i hn with ⟨h1, h2⟩ | h
  · exact .inl ⟨h1 hc, h2⟩
  · exact .inr h

/-! ### walking -/

@[simp] theorem isFirst_preorder : isFirst .preorder = true := rfl
@[simp] theorem isFirst_leaf : isFirst .leaf = true := rfl
@[simp] theorem isFirst_postorder : isFirst .postorder = false := rfl
@[simp] theorem isFirst_endorder : isFirst .endorder = false := rfl

theorem walk_node (k : E) (a0 a1 : Tree E) (h d : Nat) :
    walk (node k a0 a1 h) d =
      if h = 1 then [(k, .leaf, d)]
      else (k, .preorder, d) :: walk a0 (d + 1) ++ (k, .postorder, d) :: walk a1 (d + 1)
        ++ [(k, .endorder, d)] := rfl

theorem walk_filter (t : Tree E) (i : Inv t) (d : Nat) :
    ((walk t d).filter (fun e => isFirst e.2.1)).map (fun e => e.1) =
      match t with
      | nil => []
      | node k a0 a1 _ => k :: (((walk a0 (d+1)).filter (fun e => isFirst e.2.1)).map (fun e => e.1)
          ++ ((walk a1 (d+1)).filter (fun e => isFirst e.2.1)).map (fun e => e.1)) := by
  cases t with
  | nil => rfl
  | node k a0 a1 h =>
    obtain ⟨i0, i1, eh, d0, d1⟩ := i
    simp only [walk_node]
    split
    · next h1 =>
      have e0 : a0 = nil := i0.height_eq_zero.1 (by omega)
      have e1 : a1 = nil := i1.height_eq_zero.1 (by omega)
      subst e0 e1
      simp [walk, List.filter_cons]
    · simp [List.filter_append, List.filter_cons]

theorem walk_depth (t : Tree E) (i : Inv t) (d d' : Nat) :
    ((walk t d).filter (fun e => isFirst e.2.1)).map (fun e => e.1) =
    ((walk t d').filter (fun e => isFirst e.2.1)).map (fun e => e.1) := by
  induction t generalizing d d' with
  | nil => rfl
  | node k a0 a1 h ih0 ih1 =>
    rw [walk_filter _ i, walk_filter _ i]
    simp only
    rw [ih0 i.1 (d+1) (d'+1), ih1 i.2.1 (d+1) (d'+1)]

/-- in a balanced tree the container actions see the preorder sequence -/
def preorderList : Tree E → List E
  | nil => []
  | node k a0 a1 _ => k :: (preorderList a0 ++ preorderList a1)

theorem visited_eq (t : Tree E) (i : Inv t) : visited t = preorderList t := by
  induction t with
  | nil => rfl
  | node k a0 a1 h ih0 ih1 =>
    unfold visited
    rw [walk_filter _ i]
    simp only [preorderList]
    rw [walk_depth a0 i.1 1 0, walk_depth a1 i.2.1 1 0]
    rw [← ih0 i.1, ← ih1 i.2.1]
    rfl

theorem preorder_perm (t : Tree E) : (preorderList t).Perm (inorder t) := by
  induction t with
  | nil => exact List.Perm.refl _
  | node k a0 a1 h ih0 ih1 =>
    simp only [preorderList, inorder]
    exact ((ih0.append ih1).cons k).trans List.perm_middle.symm

theorem visited_perm (t : Tree E) (i : Inv t) : (visited t).Perm (inorder t) := by
  rw [visited_eq t i]; exact preorder_perm t

theorem tdestroy_perm (t : Tree E) : (tdestroy t).Perm (inorder t) := by
  induction t with
  | nil => exact List.Perm.refl _
  | node k a0 a1 h ih0 ih1 =>
    simp only [tdestroy, inorder, List.append_assoc]
    exact ih0.append ((List.perm_append_singleton k _).trans (ih1.cons k))

end Verif.Tree
