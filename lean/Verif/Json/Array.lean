import Verif.List.Props

/-!
# JSON arrays by index (cee-json/value.c:518-603) (C42, C70)

An array is a `cee_list` (the model of list.c with its cells).  The argument is the result of
`cee_json_to_array`: `none` for a value that is no array.
-/

namespace Verif.Json

open CList (Cell)

variable {E : Type}

/-- `cee_json_array_get` (value.c:587-595); `i < cee_list_size(o)` is a comparison of unsigned numbers -/
def arrayGet (o : Option (CList.CList E)) (i : Int) : Res (Option E) :=
  match o with
  | none => .segv
  | some l => if 0 ≤ i ∧ toU64 i < CList.sizeOf (some l) then CList.rd l.cells i else .ok none

/-- `cee_json_array_remove` (value.c:597-603) -/
def arrayRemove [DecidableEq E] (o : Option (CList.CList E)) (i : Int) : Res (CList.CList E) :=
  match o with
  | none => .segv
  | some l =>
    if 0 ≤ i ∧ toU64 i < CList.sizeOf (some l) then (CList.remove (some l) i).map fun r => r.2.getD l else .ok l

/-- `cee_json_array_insert` (value.c:518-527); `cee_list_insert` does not move the list -/
def arrayInsert [DecidableEq E] (o : Option (CList.CList E)) (i : Int) (v : Option E) : Res (CList.CList E) :=
  match o with
  | none => .segv
  | some l => CList.insert l i v

end Verif.Json

namespace Verif.Json.Props

open CList CList.Props

variable {E : Type} [DecidableEq E]

/-- the arrays a program can have: made by `cee_list_mk` and changed by append, insert and remove -/
def Reach (l : CList E) (A : List (Option E)) : Prop :=
  ∃ pol cap ops outs caps, cap < 2 ^ 60 ∧ ops.length < 2 ^ 31 ∧ Legal pol [] ops ∧
    execAll (mkE pol cap) ops = .ok (outs, caps, l) ∧ A = (specRun [] ops).2

omit [DecidableEq E] in
theorem specRun_length (pol : Policy) (ops : List (Op E)) : ∀ (A : List (Option E)), Legal pol A ops →
    (specRun A ops).2.length ≤ A.length + ops.length := by
  induction ops with
  | nil => intro A _; simp [specRun]
  | cons op ops ih =>
    intro A hA
    have := ih _ hA.2
    have h1 : (specStep A op).2.length ≤ A.length + 1 := by
      cases op with
      | append e => simp [specStep]
      | insert i e =>
        have := hA.1
        simp [specStep, List.length_take, List.length_drop]; omega
      | remove i =>
        simp only [specStep]
        split
        · simp only [List.length_eraseIdx]; split <;> omega
        · simp
      | size => simp [specStep]
    simp only [specRun, List.length_cons] at *
    omega

theorem Reach.rel {l : CList E} {A : List (Option E)} (h : Reach l A) : Rel l A ∧ A.length < 2 ^ 31 := by
  obtain ⟨pol, cap, ops, outs, caps, h1, h2, h3, h4, rfl⟩ := h
  obtain ⟨caps', l', e, r, -⟩ := execAll_spec ops (Rel_mk pol cap h1) (by simpa using h2) h3
  rw [h4] at e
  simp only [Res.ok.injEq, Prod.mk.injEq] at e
  obtain ⟨-, -, rfl⟩ := e
  refine ⟨r, ?_⟩
  have := specRun_length pol ops [] h3
  simp only [List.length_nil] at this
  omega

/-- **C42** (get): for every `int` the element at that index, or NULL. -/
theorem C42_get {l : CList E} {A : List (Option E)} (h : Reach l A) (i : Int) (hi : IsInt i) :
    arrayGet (some l) i = .ok (if 0 ≤ i then (A[i.toNat]?).join else none) := by
  obtain ⟨r, hA⟩ := h.rel
  rw [arrayGet]
  by_cases h0 : 0 ≤ i
  · rw [toU64_nonneg h0 (by have := hi.2; omega), if_pos h0]
    have hs : CList.sizeOf (some l) = A.length := r.size
    rw [hs]
    by_cases hl : i.toNat < A.length
    · rw [if_pos ⟨h0, hl⟩]
      have hc : l.cells[i.toNat]? = some (some A[i.toNat]) := by
        have : (l.cells.take l.size)[i.toNat]? = (A.map some)[i.toNat]? := by rw [r.cont]
        rw [List.getElem?_take_of_lt (by rw [r.size]; exact hl)] at this
        rw [this]; simp [hl]
      have := rd_ok (e := A[i.toNat]) hc
      rw [show ((i.toNat : Nat) : Int) = i by omega] at this
      rw [this]; simp [hl]
    · rw [if_neg (fun h => hl h.2), List.getElem?_eq_none (by omega)]; rfl
  · rw [if_neg (fun h => h0 h.1), if_neg h0]

/-- **C42** (remove): for every `int` the element at that index is taken out, or nothing is changed. -/
theorem C42_remove {l : CList E} {A : List (Option E)} (h : Reach l A) (i : Int) (hi : IsInt i) :
    ∃ l', arrayRemove (some l) i = .ok l' ∧
      contents l' = (if 0 ≤ i ∧ i < A.length then A.eraseIdx i.toNat else A).map some ∧
      (¬ (0 ≤ i ∧ i < A.length) → l' = l) := by
  obtain ⟨r, hA⟩ := h.rel
  rw [arrayRemove]
  have hs : CList.sizeOf (some l) = A.length := r.size
  by_cases h0 : 0 ≤ i ∧ i < A.length
  · simp only [hs]
    rw [if_pos ⟨h0.1, by rw [toU64_nonneg h0.1 (by have := hi.2; omega)]; omega⟩]
    obtain ⟨l', e, r', -, -⟩ := remove_spec r hA i.toNat (by omega)
    rw [show ((i.toNat : Nat) : Int) = i by omega] at e
    refine ⟨l', by rw [e]; rfl, ?_, fun h => absurd h0 h⟩
    rw [if_pos h0]; exact r'.cont
  · refine ⟨l, ?_, by rw [if_neg h0]; exact r.cont, fun _ => rfl⟩
    rw [if_neg]
    intro ⟨h1, h2⟩
    rw [hs, toU64_nonneg h1 (by have := hi.2; omega)] at h2
    exact h0 ⟨h1, by omega⟩

/-- the list `[7, 8]` can be made -/
theorem reach_demo : ∃ l, Reach l [some 7, some 8] := by
  obtain ⟨caps, l, h, -⟩ := C10_list_refines .rc 1 (by decide) [Op.append (some 7), .append (some 8)] (by decide)
    (by simp [Legal])
  exact ⟨l, .rc, 1, _, _, _, by decide, by decide, by simp [Legal], h, rfl⟩

example : ∃ l, Reach l [some 7, some 8] ∧ arrayGet (some l) 1 = .ok (some 8) ∧ arrayGet (some l) (-1) = .ok none ∧
    arrayGet (some l) 2 = .ok none := by
  obtain ⟨l, h⟩ := reach_demo
  exact ⟨l, h, C42_get h 1 (by unfold IsInt; decide), C42_get h (-1) (by unfold IsInt; decide), C42_get h 2 (by unfold IsInt; decide)⟩

/-! ## C70: insertion -/

/-- **C70 is false**: inserting at a negative index or one above the capacity accesses memory outside the array.
In between, above the size, the new element is not in the array, but another, never written cell is: the array
is the old one and one cell more, whatever the new element is. -/
theorem C70_insert_false {l : CList E} {A : List (Option E)} (h : Reach l A) (v : Option E) :
    (∀ i : Int, -2 ^ 31 ≤ i → i < 0 → arrayInsert (some l) i v = .ub) ∧
    (∀ i : Int, (grow l).capacity ≤ i → i < 2 ^ 31 → arrayInsert (some l) i v = .ub) ∧
    (∀ (i : Int) (v : E), A.length < i → i < (grow l).capacity → ∃ l', arrayInsert (some l) i (some v) = .ok l' ∧
      contents l' = A.map some ++ ((grow l).cells.drop A.length).take 1) := by
  obtain ⟨r, hA⟩ := h.rel
  obtain ⟨rg, hlt, -, -, -⟩ := grow_spec r hA
  have hcs : cInt (grow l).size = ((grow l).size : Int) := cInt_small (by rw [rg.size]; exact hA)
  refine ⟨?_, ?_, ?_⟩
  · intro i h1 h2
    simp only [arrayInsert, CList.insert, hcs]
    have down : ∀ (n : Nat) (cells : List (Cell E)) (k : Int), k + 1 ≤ n → 0 ≤ k → shiftUp n cells k = .ub := by
      intro n
      induction n with
      | zero => intro cells k hk h0; omega
      | succ n ih =>
        intro cells k hk h0
        rw [shiftUp]
        by_cases h : k = 0
        · subst h; rw [rd, if_pos (by omega)]; rfl
        · cases hr : rd cells (k - 1) with
          | ub => rfl
          | segv => unfold rd at hr; split at hr <;> (try split at hr) <;> simp at hr
          | ok e =>
            cases hw : wr cells k e with
            | ub => simp only [Res.ok_bind, hw]; rfl
            | segv => unfold wr at hw; split at hw <;> (try split at hw) <;> simp at hw
            | ok c => simp only [Res.ok_bind, hw]; exact ih _ _ (by omega) (by omega)
    rw [down _ _ _ (by omega) (by omega)]; rfl
  · intro i h1 h2
    simp only [arrayInsert, CList.insert, hcs]
    have : (((grow l).size : Int) - i).toNat = 0 := by have := rg.le; omega
    rw [this, shiftUp]
    simp only [Res.ok_bind]
    rw [wr, if_neg (by omega), if_neg (by rw [rg.len]; omega)]; rfl

  · intro i v h1 h2
    simp only [arrayInsert, CList.insert, hcs]
    have hz : (((grow l).size : Int) - i).toNat = 0 := by rw [rg.size]; omega
    have ht : touch (grow l).pol (some v) = .ok () := by unfold touch; simp
    rw [hz, shiftUp]
    simp only [Res.ok_bind]
    rw [wr, if_neg (by omega), if_pos (by rw [rg.len]; omega)]
    simp only [Res.ok_bind, ht, Res.pure_eq]
    refine ⟨_, rfl, ?_⟩
    simp only [contents]
    rw [rg.size, List.take_set_of_le (by omega), List.take_add, ← rg.cont, rg.size]

/-- the part that holds: an index from 0 to the size -/
theorem C70_partial {l : CList E} {A : List (Option E)} (h : Reach l A) (i : Int) (h0 : 0 ≤ i) (h1 : i ≤ A.length)
    (v : E) : ∃ l', arrayInsert (some l) i (some v) = .ok l' ∧
      contents l' = (A.take i.toNat ++ some v :: A.drop i.toNat).map some := by
  obtain ⟨r, hA⟩ := h.rel
  obtain ⟨l', e, r', -, -⟩ := insert_spec r hA i.toNat (by omega) (some v) (.inl (by simp))
  rw [show ((i.toNat : Nat) : Int) = i by omega] at e
  exact ⟨l', e, r'.cont⟩

example : ∃ l, Reach l [some 7, some 8] ∧ ∃ l', arrayInsert (some l) 1 (some 9) = .ok l' ∧
    contents l' = [some (some 7), some (some 9), some (some 8)] := by
  obtain ⟨l, h⟩ := reach_demo
  obtain ⟨l', e, c⟩ := C70_partial h 1 (by decide) (by decide) 9
  exact ⟨l, h, l', e, c⟩

end Verif.Json.Props
