import Verif.Str.Model

/-! Helper lemmas for the string model. -/

namespace Verif.Str

/-- the C string stored in the bytes `c` is `s` -/
def Holds (c : Cells) (s : List Byte) : Prop := 0 ∉ s ∧ ∃ r, c = s.map some ++ some 0 :: r

theorem Holds.length_lt {c : Cells} {s : List Byte} (h : Holds c s) : s.length < c.length := by
  obtain ⟨-, r, rfl⟩ := h
  simp

theorem strlen_holds {c : Cells} {s : List Byte} (h : Holds c s) : strlen c = .ok s.length := by
  obtain ⟨h0, r, rfl⟩ := h
  induction s with
  | nil => simp [strlen]
  | cons b s ih =>
    simp only [List.mem_cons, not_or] at h0
    simp only [List.map_cons, List.cons_append, strlen]
    rw [if_neg (fun h => h0.1 h.symm), ih h0.2]
    rfl

theorem wrAll_ok (bs : List Byte) : ∀ (c : Cells) (i : Nat), i + bs.length ≤ c.length →
    wrAll c i bs = .ok (c.take i ++ bs.map some ++ c.drop (i + bs.length)) := by
  induction bs with
  | nil => intro c i _; simp [wrAll]
  | cons b bs ih =>
    intro c i h
    simp only [List.length_cons] at h
    rw [wrAll, wr, if_pos (by omega)]
    show wrAll (c.set i (some b)) (i + 1) bs = _
    rw [ih _ _ (by simp; omega)]
    congr 1
    have e1 : (c.set i (some b)).take (i + 1) = c.take i ++ [some b] := by
      rw [List.take_add_one, List.take_set_of_le (Nat.le_refl i)]
      simp [show i < c.length by omega]
    have e2 : (c.set i (some b)).drop (i + 1 + bs.length) = c.drop (i + 1 + bs.length) := by
      rw [List.drop_set]
      simp [show i < i + 1 + bs.length by omega]
    rw [e1, e2]
    simp [show i + 1 + bs.length = i + (bs.length + 1) by omega]

theorem wrAll_ub (bs : List Byte) : ∀ (c : Cells) (i : Nat), bs ≠ [] → c.length < i + bs.length →
    wrAll c i bs = .ub := by
  induction bs with
  | nil => intro c i h; exact absurd rfl h
  | cons b bs ih =>
    intro c i _ h
    simp only [List.length_cons] at h
    rw [wrAll, wr]
    split
    · show wrAll (c.set i (some b)) (i + 1) bs = _
      apply ih
      · rintro rfl; simp at h; omega
      · simp; omega
    · rfl

/-- writing a whole C string at the end (or inside) of a held one -/
theorem wrAll_holds {c : Cells} {s t : List Byte} (h0 : 0 ∉ t) (h : Holds c s)
    (hl : s.length + t.length < c.length) :
    ∃ c', wrAll c s.length (t ++ [0]) = .ok c' ∧ Holds c' (s ++ t) ∧ c'.length = c.length := by
  refine ⟨_, wrAll_ok _ _ _ (by simp; omega), ⟨?_, ?_⟩, ?_⟩
  · simp only [List.mem_append, not_or]; exact ⟨h.1, h0⟩
  · obtain ⟨-, r, rfl⟩ := h
    refine ⟨(s.map some ++ some 0 :: r).drop (s.length + (t ++ [0]).length), ?_⟩
    rw [List.take_left' (by simp)]
    simp only [List.map_append, List.map_cons, List.map_nil, List.append_assoc, List.cons_append,
      List.nil_append]
  · simp; omega

theorem wrAll_holds0 {c : Cells} {t : List Byte} (h0 : 0 ∉ t) (hl : t.length < c.length) :
    ∃ c', wrAll c 0 (t ++ [0]) = .ok c' ∧ Holds c' t ∧ c'.length = c.length := by
  refine ⟨_, wrAll_ok _ _ _ (by simp; omega), ⟨h0, ?_⟩, ?_⟩
  · refine ⟨c.drop (0 + (t ++ [0]).length), ?_⟩
    simp only [List.take_zero, List.nil_append, List.map_append, List.map_cons, List.map_nil,
      List.append_assoc, List.cons_append]
  · simp; omega

theorem holds_append {c : Cells} {s : List Byte} (h : Holds c s) (r : Cells) : Holds (c ++ r) s := by
  obtain ⟨h0, r', rfl⟩ := h
  exact ⟨h0, r' ++ r, by simp⟩

/-- copying from a C string is writing a slice of it -/
theorem copy_eq (src : List Byte) (n : Nat) : ∀ (c : Cells) (i j : Nat), i + n ≤ src.length →
    copy src c i j n = wrAll c j ((src.drop i).take n) := by
  induction n with
  | zero => intro c i j _; simp [copy, wrAll]
  | succ n ih =>
    intro c i j h
    have hi : i < src.length := by omega
    rw [copy, cstr, if_pos hi, List.drop_eq_getElem_cons hi, List.take_succ_cons, wrAll]
    simp only [Res.bind, List.getD_eq_getElem?_getD, List.getElem?_eq_getElem hi, Option.getD_some]
    cases wr c j src[i] with
    | ok c' => exact ih c' (i + 1) (j + 1) (by omega)
    | ub => rfl
    | segv => rfl

/-- two consecutive runs of writes -/
theorem wrAll_append (xs : List Byte) : ∀ (ys : List Byte) (c : Cells) (i : Nat),
    wrAll c i (xs ++ ys) = (wrAll c i xs).bind (fun c' => wrAll c' (i + xs.length) ys) := by
  induction xs with
  | nil => intro ys c i; simp [wrAll, Res.bind]
  | cons x xs ih =>
    intro ys c i
    simp only [List.cons_append, wrAll]
    cases wr c i x with
    | ok c' =>
      simp only [Res.bind]
      rw [ih]
      simp only [Res.bind, List.length_cons, show i + 1 + xs.length = i + (xs.length + 1) by omega]
    | ub => rfl
    | segv => rfl

theorem wr_eq (c : Cells) (i : Nat) (b : Byte) : wr c i b = wrAll c i [b] := by
  simp only [wrAll, wr]
  split <;> rfl

/-- a complete write of a fresh allocation of `n` bytes -/
theorem wrAll_fresh (n : Nat) (bs : List Byte) (hb : bs ≠ []) :
    wrAll (List.replicate n none) 0 bs =
      if bs.length ≤ n then .ok (bs.map some ++ List.replicate (n - bs.length) none) else .ub := by
  split
  · rw [wrAll_ok _ _ _ (by simp; omega)]
    simp
  · exact wrAll_ub _ _ _ hb (by simp; omega)

end Verif.Str
