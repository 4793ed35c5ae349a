import Verif.Str.Props

/-!
# C139: the end of a string (`cee_str_end`)

The comment of the function (str.c:166-168) says that NULL is returned for a string without terminator.
-/

namespace Verif.Str

/-- `cee_str_end` (str.c:169-181): the index of the byte pointed at; `none` would be NULL -/
def strEnd (b : Block) : Res (Option Nat) := (strlen b.cells).map some

namespace Props

theorem strlen_iff (c : Cells) : ∀ n : Nat, strlen c = .ok n ↔
    c[n]? = some (some 0) ∧ ∀ i : Nat, i < n → ∃ x : Byte, c[i]? = some (some x) ∧ x ≠ 0 := by
  induction c with
  | nil => intro n; simp [strlen]
  | cons a c ih =>
    intro n
    match a, n with
    | none, 0 => simp [strlen]
    | none, n + 1 =>
      simp only [strlen]
      constructor
      · intro h; cases h
      · rintro ⟨-, h⟩
        obtain ⟨x, hx, -⟩ := h 0 (by omega)
        simp at hx
    | some b, 0 =>
      rw [strlen]
      split
      · next h => simp [h]
      · next h =>
        constructor
        · intro e
          cases hc : strlen c <;> simp [hc, Res.map] at e
        · rintro ⟨e, -⟩
          simp at e
          exact absurd e h
    | some b, n + 1 =>
      rw [strlen]
      split
      · next h =>
        constructor
        · intro e
          simp at e
        · rintro ⟨-, e⟩
          obtain ⟨x, hx, h0⟩ := e 0 (by omega)
          simp at hx
          exact absurd (hx ▸ h) h0
      · next h =>
        have : (strlen c).map (· + 1) = .ok (n + 1) ↔ strlen c = .ok n := by
          cases strlen c <;> simp [Res.map]
        rw [this, ih n, List.getElem?_cons_succ]
        refine and_congr_right fun _ => ⟨fun g i hi => ?_, fun g i hi => ?_⟩
        · match i with
          | 0 => exact ⟨b, rfl, h⟩
          | i + 1 => exact g i (by omega)
        · exact g (i + 1) (by omega)

/-- **C139**: the result is exactly the first NUL of the block, provided all bytes before it are initialised -/
theorem C139_end (b : Block) (n : Nat) : strEnd b = .ok (some n) ↔
    b.cells[n]? = some (some 0) ∧ ∀ i : Nat, i < n → ∃ x : Byte, b.cells[i]? = some (some x) ∧ x ≠ 0 := by
  rw [← strlen_iff, strEnd]
  cases strlen b.cells <;> simp [Res.map]

/-- **C139**: after any history of appends and replacements the end is found, it is inside the block, and it is where the next text that is
appended will be: the bytes before it stay, the text and a terminator follow, and the new end is after the text. -/
theorem C139_append (text : List Byte) (ops : List Op) (t : List Byte) (h0 : Text text)
    (hl : Legal (text, .malloc) ops) (ht : Text t) :
    ∃ b b' n, (mk text).bind (fun b => execAll b ops) = .ok b ∧ strEnd b = .ok (some n) ∧ n < b.cells.length ∧
      catf b t = .ok b' ∧ b'.cells.take n = b.cells.take n ∧ t.map some ++ [some 0] <+: b'.cells.drop n ∧
      strEnd b' = .ok (some (n + t.length)) := by
  obtain ⟨b0, e0, i0⟩ := mk_inv text h0
  obtain ⟨b, e, i⟩ := execAll_inv ops i0 hl
  obtain ⟨b', e', i'⟩ := exec_inv i (.catf t) ht
  obtain ⟨r, hr⟩ := i.holds.2
  obtain ⟨r', hr'⟩ := i'.holds.2
  refine ⟨b, b', _, by rw [e0]; exact e, by rw [strEnd, strlen_holds i.holds]; rfl, i.holds.length_lt, e', ?_, ?_, ?_⟩
  · rw [hr, hr']
    simp [specStep]
  · rw [hr']
    exact ⟨r', by simp [specStep]⟩
  · rw [strEnd, strlen_holds i'.holds]
    simp [specStep, Res.map]

/-- **C139** is false for every block without terminator: what is read is undefined, NULL is not returned -/
theorem C139_null_false (b : Block) (h : some 0 ∉ b.cells) : strEnd b = .ub := by
  rw [strEnd]
  generalize b.cells = c at h
  have : strlen c = .ub := by
    induction c with
    | nil => rfl
    | cons a c ih =>
      simp only [List.mem_cons, not_or] at h
      match a with
      | none => rfl
      | some a => rw [strlen, if_neg (fun e => h.1 (by rw [e])), ih h.2]; rfl
  rw [this]
  rfl

/-- the end of "abc" is found, with the hypotheses of `C139_append` for a text longer than the block -/
example : Text [97, 98, 99] ∧ Legal ([97, 98, 99], .malloc) [.add 100, .use .realloc, .catf [102]] ∧ Text (List.replicate 100 101) ∧
    ∃ b, mk [97, 98, 99] = .ok b ∧ strEnd b = .ok (some 3) :=
  ⟨⟨by decide, by decide⟩, by simp [Legal, OkOp, Text, specStep], ⟨by decide, by decide⟩, _, rfl, rfl⟩

/-- `cee_str_strn` gives blocks without terminator -/
example : ∃ b, strn [97] = .ok b ∧ some 0 ∉ b.cells := ⟨_, rfl, by decide⟩

end Props
end Verif.Str
