import Verif.Tree.Lemmas

/-!
# Properties of the search tree (C04)

The comparator answers are arbitrary: each operation of a history brings its own function `c` from
stored elements to answers, so the theorem covers inconsistent comparators too.
-/

namespace Verif.Tree.Props

open Tree

/-! ## Specification -/

/-- number of nodes on the longest downward path -/
def depth : Tree E → Nat
  | nil => 0
  | node _ a0 a1 _ => 1 + max (depth a0) (depth a1)

/-- every stored height is the real one and siblings differ by at most one -/
def Balanced : Tree E → Prop
  | nil => True
  | node k a0 a1 h =>
    h = depth (node k a0 a1 h) ∧ depth a0 ≤ depth a1 + 1 ∧ depth a1 ≤ depth a0 + 1 ∧
      Balanced a0 ∧ Balanced a1

/-- slots of the array `a[]` used while inserting or deleting with answers `c`: the root slot
(musl-tsearch.c:84-87, 169-176), and one per step down -/
def slotsDown (c : E → Int) : Tree E → Nat
  | nil => 1
  | node k a0 a1 _ =>
    if c k = 0 then 1 else 1 + (if c k > 0 then slotsDown c a1 else slotsDown c a0)

/-- a call of `musl_tsearch` or of `musl_tdelete` -/
inductive Op (E : Type) where
  | insert (c : E → Int) (new : E)
  | delete (c : E → Int)

def exec (t : Tree E) : Op E → Res (Tree E)
  | .insert c new => (tsearch c new t).map (fun r => r.2)
  | .delete c => (tdelete c t).map (fun r => r.getD t)

def execAll (t : Tree E) : List (Op E) → Res (Tree E)
  | [] => .ok t
  | op :: ops => (exec t op).bind (fun t' => execAll t' ops)

/-! ## Proof -/

theorem depth_eq (t : Tree E) : depth t = realHeight t := by
  induction t with
  | nil => rfl
  | node k a0 a1 h ih0 ih1 => simp only [depth, realHeight, ih0, ih1]; omega

theorem balanced_of_Inv {t : Tree E} (i : Inv t) : Balanced t := by
  induction t with
  | nil => trivial
  | node k a0 a1 h ih0 ih1 =>
    have e := i.realHeight
    obtain ⟨i0, i1, eh, d0, d1⟩ := i
    have e0 := i0.realHeight
    have e1 := i1.realHeight
    refine ⟨?_, ?_, ?_, ih0 i0, ih1 i1⟩
    · rw [depth_eq]; exact e
    · rw [depth_eq, depth_eq]; omega
    · rw [depth_eq, depth_eq]; omega

theorem exec_inv (t : Tree E) (op : Op E) (i : Inv t) (hn : count t < 2 ^ 64) :
    ∃ t', exec t op = .ok t' ∧ Inv t' ∧ count t' ≤ count t + 1 := by
  cases op with
  | insert c new =>
    rcases tsearch_any c new t i hn with ⟨k, _, _, h, _⟩ | ⟨t', L, R, h, i', h1, h2, _⟩
    · exact ⟨t, by simp [exec, h, Res.map], i, by omega⟩
    · refine ⟨t', by simp [exec, h, Res.map], i', ?_⟩
      rw [count_eq_length, count_eq_length, h1, h2]
      simp; omega
  | delete c =>
    rcases tdelete_any c t i hn with ⟨_, h⟩ | ⟨t', L, k, R, _, h, i', h1, h2, _⟩
    · exact ⟨t, by simp [exec, h, Res.map], i, by omega⟩
    · refine ⟨t', by simp [exec, h, Res.map], i', ?_⟩
      rw [count_eq_length, count_eq_length, h1, h2]
      simp; omega

theorem execAll_inv (ops : List (Op E)) (t : Tree E) (i : Inv t)
    (hn : count t + ops.length < 2 ^ 64) :
    ∃ t', execAll t ops = .ok t' ∧ Inv t' ∧ count t' ≤ count t + ops.length := by
  induction ops generalizing t with
  | nil => exact ⟨t, rfl, i, by simp⟩
  | cons op ops ih =>
    simp only [List.length_cons] at hn
    obtain ⟨t1, h1, i1, c1⟩ := exec_inv t op i (by omega)
    obtain ⟨t2, h2, i2, c2⟩ := ih t1 i1 (by omega)
    exact ⟨t2, by simp [execAll, h1, Res.bind, h2], i2, by simp only [List.length_cons]; omega⟩

theorem slotsDown_le (c : E → Int) (t : Tree E) : slotsDown c t ≤ depth t + 1 := by
  induction t with
  | nil => simp [slotsDown, depth]
  | node k a0 a1 h ih0 ih1 =>
    simp only [slotsDown, depth]
    split
    · omega
    · split <;> omega

/-- **C04.**  Start from the empty tree and apply any history of fewer than 2^64 insertions and
deletions, each with arbitrary comparator answers.  No call has undefined behaviour — in the model
every write to `a[]` beyond `MAXH` (insert) or `MAXH+1` (delete) slots and every dereference of a
NULL child in a rotation is UB — the heights stored in the nodes are the real heights, siblings
differ by at most one, and any further descent uses at most 95 slots. -/
theorem C04_tree_path_array (ops : List (Op E)) (hn : ops.length < 2 ^ 64) :
    ∃ t, execAll nil ops = .ok t ∧ Balanced t ∧ (∀ c, slotsDown c t ≤ 95) := by
  obtain ⟨t, h, i, hc⟩ := execAll_inv ops nil trivial (by simpa [count] using hn)
  refine ⟨t, h, balanced_of_Inv i, fun c => ?_⟩
  have h1 := slotsDown_le c t
  have h2 := i.height_lt (by simp only [count] at hc; omega)
  rw [i.realHeight, ← depth_eq] at h2
  omega

/-- A history with an insertion into both sides, a double rotation, a duplicate and a deletion of
an inner node meets the hypothesis, and ends in a non-empty tree. -/
example :
    let cmp : Nat → Nat → Int := fun k x => (k : Int) - x
    let ops : List (Op Nat) := [.insert (cmp 5) 5, .insert (cmp 1) 1, .insert (cmp 3) 3,
      .insert (cmp 3) 3, .insert (cmp 9) 9, .delete (cmp 3)]
    ops.length < 2 ^ 64 ∧ execAll nil ops = .ok (node 5 (node 1 nil nil 1) (node 9 nil nil 1) 2) := by
  decide

end Verif.Tree.Props
