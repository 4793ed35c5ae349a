import Verif.Json.Escape
import Verif.Json.UnescapeProps

/-!
# Escaping into a buffer, conversion to integers: the properties (C45, C46)
-/

namespace Verif.Json

theorem wrBs_ok (bs : List Byte) : ∀ (pre old : List Byte), bs.length ≤ old.length →
    wrBs (pre ++ old) pre.length bs = .ok (pre ++ bs ++ old.drop bs.length) := by
  induction bs with
  | nil => intro pre old _; simp [wrBs]
  | cons b bs ih =>
    intro pre old h
    cases old with
    | nil => simp at h
    | cons o old =>
      simp only [List.length_cons] at h
      rw [wrBs, wrB, if_pos (by simp), Res.bind_ok]
      have := ih (pre ++ [b]) old (by omega)
      simp only [List.length_append, List.length_cons, List.length_nil] at this
      rw [show (pre ++ o :: old).set pre.length b = pre ++ [b] ++ old by simp, this]
      simp

theorem wrBs_ub (bs : List Byte) : ∀ (pre old : List Byte), old.length < bs.length →
    wrBs (pre ++ old) pre.length bs = .ub := by
  induction bs with
  | nil => intro pre old h; simp at h
  | cons b bs ih =>
    intro pre old h
    simp only [List.length_cons] at h
    cases old with
    | nil => rw [wrBs, wrB, if_neg (by simp)]; rfl
    | cons o old =>
      simp only [List.length_cons] at h
      rw [wrBs, wrB, if_pos (by simp), Res.bind_ok]
      have := ih (pre ++ [b]) old (by omega)
      simp only [List.length_append, List.length_cons, List.length_nil] at this
      rw [show (pre ++ o :: old).set pre.length b = pre ++ [b] ++ old by simp, this]

end Verif.Json

namespace Verif.Json.Props

/-- the bytes RFC 8259 gives two character escapes for, and the letters -/
def escTable : List (Byte × Byte) := [(34, 34), (92, 92), (8, 98), (12, 102), (10, 110), (13, 114), (9, 116)]

/-- the escape of a byte: from the table, or the byte itself -/
def escByte (c : Byte) : List Byte :=
  match escTable.lookup c with
  | some e => [92, e]
  | none => [c]

/-- bytes that have an escape of two characters or need none -/
def EscOk (c : Byte) : Prop := (escTable.lookup c).isSome ∨ 0x20 ≤ c.toNat

theorem escLetter_table (c : Byte) : escLetter c = escTable.lookup c := by
  revert c; apply byte_forall; decide +kernel

theorem escStep_ok {c : Byte} (hc : EscOk c) (pre old : List Byte) (h : (escByte c).length ≤ old.length) :
    escStep (pre ++ old) pre.length c =
      .ok (pre ++ escByte c ++ old.drop (escByte c).length, (pre ++ escByte c).length) := by
  rw [escStep, escLetter_table]
  unfold escByte at h ⊢
  cases e : escTable.lookup c with
  | some l =>
    rw [e] at h
    simp only
    rw [wrBs_ok _ _ _ h, Res.map_ok']
    simp
  | none =>
    rw [e] at h
    have : ¬ c ≤ 0x1f := by
      rcases hc with hc | hc
      · rw [e] at hc; simp at hc
      · rw [UInt8.le_iff_toNat_le]; simp; omega
    simp only [if_neg this]
    have := wrBs_ok [c] pre old h
    rw [wrBs] at this
    cases hw : wrB (pre ++ old) pre.length c with
    | ub => rw [hw] at this; simp [Res.bind] at this
    | segv => rw [hw] at this; simp [Res.bind] at this
    | ok d =>
      rw [hw, Res.bind_ok, wrBs] at this
      simp only [Res.ok.injEq] at this
      rw [Res.map_ok', this]; simp

theorem escStep_ub {c : Byte} (hc : EscOk c) (pre old : List Byte) (h : old.length < (escByte c).length) :
    escStep (pre ++ old) pre.length c = .ub := by
  rw [escStep, escLetter_table]
  unfold escByte at h
  cases e : escTable.lookup c with
  | some l =>
    rw [e] at h
    simp only
    rw [wrBs_ub _ _ _ h]; rfl
  | none =>
    rw [e] at h
    have : ¬ c ≤ 0x1f := by
      rcases hc with hc | hc
      · rw [e] at hc; simp at hc
      · rw [UInt8.le_iff_toNat_le]; simp; omega
    simp only [if_neg this]
    rw [wrB, if_neg (by simp at h ⊢; omega)]; rfl

theorem escByte_length (c : Byte) : (escByte c).length ≤ 2 := by
  unfold escByte; split <;> simp

theorem escLoop_ok (s : List Byte) (hs : ∀ c ∈ s, EscOk c) : ∀ (pre old : List Byte),
    (s.flatMap escByte).length ≤ old.length → pre.length + (s.flatMap escByte).length + 4 < 2 ^ 31 →
    escLoop (pre ++ old) pre.length s =
      .ok (pre ++ s.flatMap escByte ++ old.drop (s.flatMap escByte).length, (pre ++ s.flatMap escByte).length) := by
  induction s with
  | nil => intro pre old _ _; simp [escLoop]
  | cons c s ih =>
    intro pre old h1 h2
    rw [List.forall_mem_cons] at hs
    rw [List.flatMap_cons, List.length_append] at h1 h2
    rw [escLoop, if_neg (by omega), escStep_ok hs.1 _ _ (by omega), Res.bind_ok]
    simp only
    rw [ih hs.2 (pre ++ escByte c) (old.drop (escByte c).length) (by rw [List.length_drop]; omega) (by rw [List.length_append]; omega)]
    simp [List.flatMap_cons, Nat.add_comm]

theorem escLoop_ub (s : List Byte) (hs : ∀ c ∈ s, EscOk c) : ∀ (pre old : List Byte),
    old.length < (s.flatMap escByte).length → escLoop (pre ++ old) pre.length s = .ub := by
  induction s with
  | nil => intro pre old h; simp at h
  | cons c s ih =>
    intro pre old h
    rw [List.forall_mem_cons] at hs
    rw [List.flatMap_cons, List.length_append] at h
    rw [escLoop]
    split
    · rfl
    · by_cases hl : (escByte c).length ≤ old.length
      · rw [escStep_ok hs.1 _ _ hl, Res.bind_ok]
        simp only
        exact ih hs.2 _ _ (by rw [List.length_drop]; omega)
      · rw [escStep_ub hs.1 _ _ (by omega)]; rfl

theorem decodes_esc_append (s : List Byte) (hs : ∀ c ∈ s, EscOk c) {x t : List Byte} (hx : Decodes x t) :
    Decodes (s.flatMap escByte ++ x) (s ++ t) := by
  induction s with
  | nil => exact hx
  | cons c s ih =>
    rw [List.forall_mem_cons] at hs
    have ih := ih hs.2
    have h1 : ∀ c e, escTable.lookup c = some e → EscLetter e c := by
      intro c e he
      have : ∀ c : Byte, ∀ e ∈ escTable.lookup c, (e, c) ∈ [((34 : Byte), (34 : Byte)), (92, 92), (47, 47), (98, 8),
          (102, 12), (110, 10), (114, 13), (116, 9)] := by
        apply byte_forall; decide +kernel
      exact this c e he
    have h2 : ∀ c : Byte, escTable.lookup c = none → c ≠ 92 := by apply byte_forall; decide +kernel
    rw [List.flatMap_cons, List.append_assoc]
    unfold escByte
    cases e : escTable.lookup c with
    | some l => exact .esc (h1 c l e) ih
    | none =>
      refine .raw ?_ (h2 c e) ih
      rcases hs.1 with hc | hc
      · rw [e] at hc; simp at hc
      · exact hc

theorem decodes_esc (s : List Byte) (hs : ∀ c ∈ s, EscOk c) : Decodes (s.flatMap escByte) s := by
  simpa using decodes_esc_append s hs .nil

/-- **C46 is false**: when the escaped text does not fit, the buffer is overrun; there is no check at all. -/
theorem C46_overflow_false (s dest : List Byte) (hs : ∀ c ∈ s, EscOk c)
    (h : dest.length < (s.flatMap escByte).length) : escapeString s dest = .ub := by
  have := escLoop_ub s hs [] dest h
  rw [List.nil_append, List.length_nil] at this
  rw [escapeString, this]; rfl

example : (∀ c ∈ ([97, 34] : List Byte), EscOk c) ∧
    ([0, 0] : List Byte).length < (([97, 34] : List Byte).flatMap escByte).length := by
  refine ⟨?_, by decide⟩
  intro c hc
  simp only [List.mem_cons, List.not_mem_nil, or_false] at hc
  rcases hc with rfl | rfl
  · exact .inr (by decide)
  · exact .inl (by decide)

/-- **C46 is false** also with room enough: for every other control character four bytes `\\u00` are
returned, which are not the body of a JSON string. -/
theorem C46_control_false (c : Byte) (hc : ¬ EscOk c) (dest : List Byte) (h : 6 ≤ dest.length)
    (hd : dest.length < 2 ^ 64) :
    ∃ dest' r, escapeString [c] dest = .ok (dest', 4, 4, r) ∧ dest'.take 4 = [92, 117, 48, 48] ∧
      ¬ ∃ t, Decodes (dest'.take 4) t := by
  have h1 : escLetter c = none := by
    rw [escLetter_table]
    cases e : escTable.lookup c with
    | none => rfl
    | some l => exact absurd (.inl (by rw [e]; rfl)) hc
  have h2 : c ≤ 0x1f := by
    rw [UInt8.le_iff_toNat_le]; simp
    have : ¬ 0x20 ≤ c.toNat := fun h => hc (.inr h)
    omega
  have w1 := wrBs_ok [92, 117] [] dest (by simp; omega)
  simp only [List.nil_append, List.length_nil, List.length_cons, Nat.zero_add] at w1
  have hsub : sub64 (sub64 dest.length 0) 2 = dest.length - 2 := by
    rw [sub64_le (Nat.zero_le _), Nat.sub_zero, sub64_le (by omega)]
  have nodec : ¬ ∃ t, Decodes [92, 117, 48, 48] t := by
    rintro ⟨t, ht⟩
    generalize he : ([92, 117, 48, 48] : List Byte) = x at ht
    cases ht with
    | nil => simp at he
    | raw _ h _ => simp only [List.cons.injEq] at he; exact h he.1.symm
    | @esc e b s t h _ =>
      simp only [List.cons.injEq, true_and] at he
      obtain ⟨rfl, -⟩ := he
      revert h
      simp [EscLetter]
    | @uni k x s t h _ _ =>
      obtain ⟨a, b, c, d, _, _, _, _, rfl, -⟩ := h
      simp at he
    | @pair k x k2 y s t h _ _ _ _ _ _ =>
      obtain ⟨a, b, c, d, _, _, _, _, rfl, -⟩ := h
      simp at he
  have fin : ∀ d, d.take 4 = [92, 117, 48, 48] → escStep dest 0 c = .ok (d, 4) →
      ∃ dest' r, escapeString [c] dest = .ok (dest', 4, 4, r) ∧ dest'.take 4 = [92, 117, 48, 48] ∧
      ¬ ∃ t, Decodes (dest'.take 4) t := by
    intro d hd e
    refine ⟨d, sub64 dest.length 4, ?_, hd, by rw [hd]; exact nodec⟩
    rw [escapeString, escLoop, if_neg (by omega), e, Res.bind_ok, escLoop, Res.map_ok']
  have tw : (hex04 c.toNat).take (dest.length - 2 - 1) =
      48 :: 48 :: ([hexDigit (c.toNat / 16), hexDigit (c.toNat % 16)].take (dest.length - 5)) := by
    rw [hex04, show dest.length - 2 - 1 = (dest.length - 5) + 1 + 1 by omega, List.take_succ_cons, List.take_succ_cons]
  have w2 := wrBs_ok ((hex04 c.toNat).take (dest.length - 2 - 1) ++ [0]) [92, 117] (dest.drop 2)
    (by rw [tw]; simp; omega)
  refine fin _ ?_ (by
    rw [escStep, h1]
    simp only [if_pos h2]
    rw [w1, Res.bind_ok, hsub, snprintfAt, if_neg (by omega)]
    simp only [List.length_cons, List.length_nil, Nat.zero_add] at w2
    rw [show (0 + 2 : Nat) = 0 + 1 + 1 by rfl, Nat.zero_add, w2, Res.map_ok'])
  rw [tw]; simp

example : ¬ EscOk 1 := by
  unfold EscOk; decide

/-- the part that holds: if every byte has a two character escape or needs none, and the escaped text fits, it
is what is written, nothing behind it is changed, and it is the body of a JSON string denoting the input -/
theorem C46_partial (s dest : List Byte) (hs : ∀ c ∈ s, EscOk c) (h : (s.flatMap escByte).length ≤ dest.length)
    (hl : (s.flatMap escByte).length + 4 < 2 ^ 31) :
    escapeString s dest = .ok (s.flatMap escByte ++ dest.drop (s.flatMap escByte).length,
      (s.flatMap escByte).length, (s.flatMap escByte).length, dest.length - (s.flatMap escByte).length) ∧
    Decodes (s.flatMap escByte) s := by
  refine ⟨?_, decodes_esc s hs⟩
  have := escLoop_ok s hs [] dest h (by simpa using hl)
  rw [List.nil_append, List.length_nil] at this
  rw [escapeString, this, Res.map_ok']
  simp only [List.nil_append]
  rw [sub64_le h]

example : escapeString [97, 34] [1, 2, 3, 4] = .ok ([97, 92, 34, 4], 3, 3, 1) := by
  have := (C46_partial [97, 34] [1, 2, 3, 4] (by
    intro c hc
    simp only [List.mem_cons, List.not_mem_nil, or_false] at hc
    rcases hc with rfl | rfl
    · exact .inr (by decide)
    · exact .inl (by decide)) (by decide) (by decide)).1
  rw [this]; decide

/-! ### Control characters without an escape of two characters -/

/-- a control character leaves its six characters and a NUL, but only four are counted -/
theorem escStep_control {c : Byte} (hc : ¬ EscOk c) (pre old : List Byte) (h : 7 ≤ old.length) (hl : pre.length + old.length < 2 ^ 64) :
    escStep (pre ++ old) pre.length c =
      .ok (pre ++ [92, 117, 48, 48] ++ (hexDigit (c.toNat / 16) :: hexDigit (c.toNat % 16) :: 0 :: old.drop 7), (pre ++ [92, 117, 48, 48]).length) := by
  have h1 : escLetter c = none := by
    rw [escLetter_table]
    cases e : escTable.lookup c with
    | none => rfl
    | some l => exact absurd (.inl (by rw [e]; rfl)) hc
  have h2 : c ≤ 0x1f := by
    rw [UInt8.le_iff_toNat_le]; simp
    have : ¬ 0x20 ≤ c.toNat := fun h => hc (.inr h)
    omega
  have w1 := wrBs_ok [92, 117] pre old (by simp; omega)
  have hsub : sub64 (sub64 (pre ++ old).length pre.length) 2 = old.length - 2 := by
    rw [List.length_append, sub64_le (x := pre.length + old.length) (Nat.le_add_right _ _), Nat.add_sub_cancel_left, sub64_le (by omega)]
  have tw : (hex04 c.toNat).take (old.length - 2 - 1) = hex04 c.toNat := List.take_of_length_le (by simp [hex04]; omega)
  have w2 := wrBs_ok (hex04 c.toNat ++ [0]) (pre ++ [92, 117]) (old.drop 2) (by simp [hex04]; omega)
  rw [escStep, h1]
  simp only [if_pos h2]
  rw [w1, Res.bind_ok, hsub, snprintfAt, if_neg (by omega), tw]
  simp only [List.length_append, List.length_cons, List.length_nil, Nat.zero_add] at w2
  rw [show pre.length + 2 = pre.length + (1 + 1) by rfl]
  simp only [List.length_cons, List.length_nil, Nat.zero_add]
  rw [w2, Res.map_ok']
  simp [hex04]

/-- what a byte puts into the text: a control character without a letter always puts the same four characters -/
def escShort (c : Byte) : List Byte :=
  if c.toNat < 0x20 ∧ (escTable.lookup c).isNone then [92, 117, 48, 48] else escByte c

theorem escShort_ok {c : Byte} (hc : EscOk c) : escShort c = escByte c := by
  unfold escShort
  rw [if_neg]
  rintro ⟨h1, h2⟩
  rcases hc with hc | hc
  · rw [Option.isNone_iff_eq_none] at h2; rw [h2] at hc; simp at hc
  · omega

theorem escShort_control {c : Byte} (hc : ¬ EscOk c) : escShort c = [92, 117, 48, 48] := by
  unfold escShort
  rw [if_pos]
  refine ⟨?_, ?_⟩
  · have : ¬ 0x20 ≤ c.toNat := fun h => hc (.inr h)
    omega
  · cases e : escTable.lookup c with
    | none => rfl
    | some l => exact absurd (.inl (by rw [e]; rfl)) hc

theorem escLoop_all (s : List Byte) : ∀ (pre old : List Byte),
    (s.flatMap escShort).length + 3 ≤ old.length → pre.length + (s.flatMap escShort).length + 4 < 2 ^ 31 → pre.length + old.length < 2 ^ 64 →
    ∃ old', old'.length + (s.flatMap escShort).length = old.length ∧ escLoop (pre ++ old) pre.length s =
      .ok (pre ++ s.flatMap escShort ++ old', (pre ++ s.flatMap escShort).length) := by
  induction s with
  | nil => intro pre old _ _ _; exact ⟨old, by simp, by simp [escLoop]⟩
  | cons c s ih =>
    intro pre old h1 h2 h3
    rw [List.flatMap_cons, List.length_append] at h1 h2
    by_cases hc : EscOk c
    · have e1 := escShort_ok hc
      rw [e1] at h1 h2
      obtain ⟨o, q1, q2⟩ := ih (pre ++ escByte c) (old.drop (escByte c).length) (by rw [List.length_drop]; omega) (by rw [List.length_append]; omega)
        (by rw [List.length_append, List.length_drop]; omega)
      rw [List.length_drop] at q1
      refine ⟨o, by rw [List.flatMap_cons, List.length_append, e1]; omega, ?_⟩
      rw [escLoop, if_neg (by omega), escStep_ok hc _ _ (by omega), Res.bind_ok]
      simp only
      rw [q2, List.flatMap_cons, e1]
      simp
    · have e1 := escShort_control hc
      rw [e1] at h1 h2
      simp only [List.length_cons, List.length_nil] at h1 h2
      obtain ⟨o, q1, q2⟩ := ih (pre ++ [92, 117, 48, 48]) (hexDigit (c.toNat / 16) :: hexDigit (c.toNat % 16) :: 0 :: old.drop 7)
        (by simp only [List.length_cons, List.length_drop]; omega) (by simp only [List.length_append, List.length_cons, List.length_nil]; omega)
        (by simp only [List.length_append, List.length_cons, List.length_nil, List.length_drop]; omega)
      simp only [List.length_cons, List.length_drop] at q1
      refine ⟨o, by rw [List.flatMap_cons, List.length_append, e1]; simp only [List.length_cons, List.length_nil]; omega, ?_⟩
      rw [escLoop, if_neg (by omega), escStep_control hc _ _ (by omega) h3, Res.bind_ok]
      simp only
      rw [q2, List.flatMap_cons, e1]
      simp

/-- **C46, all texts.**  With three bytes to spare, what is counted is the text in which every control character without a letter has become the
same four characters, `\u00`: no two of them can be told apart. -/
theorem C46_text (s dest : List Byte) (h : (s.flatMap escShort).length + 3 ≤ dest.length) (hl : (s.flatMap escShort).length + 4 < 2 ^ 31)
    (hd : dest.length < 2 ^ 64) :
    ∃ rest, rest.length + (s.flatMap escShort).length = dest.length ∧
      escapeString s dest = .ok (s.flatMap escShort ++ rest, (s.flatMap escShort).length, (s.flatMap escShort).length, rest.length) := by
  obtain ⟨o, q1, q2⟩ := escLoop_all s [] dest h (by simpa using hl) (by simpa using hd)
  refine ⟨o, q1, ?_⟩
  rw [List.nil_append, List.length_nil] at q2
  rw [escapeString, q2, Res.map_ok']
  simp only [List.nil_append]
  rw [sub64_le (by omega), show dest.length - (s.flatMap escShort).length = o.length by omega]

example : ∃ r1 r2, escapeString [97, 1, 98] (List.replicate 9 0) = .ok ([97, 92, 117, 48, 48, 98] ++ r1, 6, 6, 3) ∧
    escapeString [97, 31, 98] (List.replicate 9 0) = .ok ([97, 92, 117, 48, 48, 98] ++ r2, 6, 6, 3) := by
  obtain ⟨r1, h1, e1⟩ := C46_text [97, 1, 98] (List.replicate 9 0) (by decide) (by decide) (by decide)
  obtain ⟨r2, h2, e2⟩ := C46_text [97, 31, 98] (List.replicate 9 0) (by decide) (by decide) (by decide)
  have k1 : r1.length = 3 := by
    rw [show (([97, 1, 98] : List Byte).flatMap escShort).length = 6 by decide, List.length_replicate] at h1; omega
  have k2 : r2.length = 3 := by
    rw [show (([97, 31, 98] : List Byte).flatMap escShort).length = 6 by decide, List.length_replicate] at h2; omega
  rw [k1] at e1; rw [k2] at e2
  exact ⟨r1, r2, e1, e2⟩

theorem hexDigit_ok {n : Nat} (h : n < 16) : HexDigit (hexDigit n) n := by
  rw [← hexVal_iff]
  have : ∀ n : Fin 16, hexVal (hexDigit n.val) = some n.val := by decide +kernel
  exact this ⟨n, h⟩

/-- **C46, one control character at the end.**  The buffer then holds the JSON escape of the whole text and a NUL; only the two numbers given back
are too small by two. -/
theorem C46_last (s dest : List Byte) (c : Byte) (hs : ∀ c ∈ s, EscOk c) (hc : ¬ EscOk c) (h : (s.flatMap escByte).length + 7 ≤ dest.length)
    (hl : (s.flatMap escByte).length + 8 < 2 ^ 31) (hd : dest.length < 2 ^ 64) :
    ∃ text, text.length = (s.flatMap escByte).length + 6 ∧ Decodes text (s ++ [c]) ∧
      escapeString (s ++ [c]) dest = .ok (text ++ 0 :: dest.drop (text.length + 1), text.length - 2, text.length - 2, dest.length - text.length + 2) := by
  have h0 : c.toNat < 0x20 := by
    have : ¬ 0x20 ≤ c.toNat := fun h => hc (.inr h)
    omega
  refine ⟨s.flatMap escByte ++ 92 :: 117 :: ([48, 48, hexDigit (c.toNat / 16), hexDigit (c.toNat % 16)] ++ []), by simp, ?_, ?_⟩
  · have hx : Hex4 [48, 48, hexDigit (c.toNat / 16), hexDigit (c.toNat % 16)] c.toNat := by
      refine ⟨_, _, _, _, 0, 0, c.toNat / 16, c.toNat % 16, rfl, ?_, ?_, hexDigit_ok (by omega), hexDigit_ok (by omega), by omega⟩ <;>
        exact (hexVal_iff _ _).1 (by decide)
    have h1 : Decodes (92 :: 117 :: ([48, 48, hexDigit (c.toNat / 16), hexDigit (c.toNat % 16)] ++ [])) [c] := by
      have := Decodes.uni hx (by omega) .nil
      have e : encode c.toNat = [c] := by
        have : ∀ c : Byte, c.toNat < 0x20 → encode c.toNat = [c] := by apply byte_forall; decide +kernel
        exact this c h0
      rw [e] at this
      exact this
    exact decodes_esc_append s hs h1
  · have hsplit : ∀ (s : List Byte), (∀ c ∈ s, EscOk c) → ∀ (pre old : List Byte), (s.flatMap escByte).length + 7 ≤ old.length →
        pre.length + (s.flatMap escByte).length + 8 < 2 ^ 31 → pre.length + old.length < 2 ^ 64 →
        escLoop (pre ++ old) pre.length (s ++ [c]) = .ok (pre ++ s.flatMap escByte ++ [92, 117, 48, 48] ++
          (hexDigit (c.toNat / 16) :: hexDigit (c.toNat % 16) :: 0 :: old.drop ((s.flatMap escByte).length + 7)), (pre ++ s.flatMap escByte).length + 4) := by
      intro s
      induction s with
      | nil =>
        intro _ pre old h1 h2 h3
        simp only [List.flatMap_nil, List.length_nil] at h1 h2
        rw [List.nil_append, escLoop, if_neg (by omega), escStep_control hc _ _ (by omega) h3, Res.bind_ok, escLoop]
        simp
      | cons b s ih =>
        intro hs pre old h1 h2 h3
        rw [List.forall_mem_cons] at hs
        rw [List.flatMap_cons, List.length_append] at h1 h2
        rw [List.cons_append, escLoop, if_neg (by omega), escStep_ok hs.1 _ _ (by omega), Res.bind_ok]
        simp only
        rw [ih hs.2 (pre ++ escByte b) (old.drop (escByte b).length) (by rw [List.length_drop]; omega) (by rw [List.length_append]; omega)
          (by rw [List.length_append, List.length_drop]; omega)]
        simp [List.flatMap_cons, Nat.add_comm, Nat.add_left_comm]
    have e := hsplit s hs [] dest h (by simpa using hl) (by simpa using hd)
    rw [List.nil_append, List.length_nil] at e
    rw [escapeString, e, Res.map_ok']
    simp only [List.nil_append]
    rw [sub64_le (by omega)]
    generalize s.flatMap escByte = t at h ⊢
    simp
    omega

example : escapeString [97, 10, 26] (List.replicate 12 7) = .ok ([97, 92, 110, 92, 117, 48, 48, 49, 97, 0, 7, 7], 7, 7, 5) := by decide +kernel

example : (∀ c ∈ ([97, 10] : List Byte), EscOk c) ∧ ¬ EscOk 26 := by
  refine ⟨fun c hc => ?_, by unfold EscOk; decide⟩
  simp only [List.mem_cons, List.not_mem_nil, or_false] at hc
  rcases hc with rfl | rfl
  · exact .inr (by decide)
  · exact .inl (by decide)

/-! ## C45 -/

/-- **C45 is false**: no string is ever converted; the object stays as it is and false is returned. -/
theorem C45_never_false (kvs : List (List Byte × Val)) (key s : List Byte)
    (h : kvs.lookup key = some (.atom (.str s))) : convertToI64 (.obj kvs) key = .ok (false, .obj kvs) := by
  simp [convertToI64, h]

example : ([([97], Val.atom (.str [49]))] : List (List Byte × Val)).lookup [97] = some (.atom (.str [49])) := rfl

/-- a missing key is undefined behaviour (NULL is dereferenced) -/
theorem C45_missing_false (kvs : List (List Byte × Val)) (key : List Byte) (h : kvs.lookup key = none) :
    convertToI64 (.obj kvs) key = .ub := by
  simp [convertToI64, h]

example : ([([97], Val.atom (.str [49]))] : List (List Byte × Val)).lookup [98] = none := rfl

/-- the part that holds: true is returned only for a value that is an integer already, and nothing is ever
changed -/
theorem C45_partial (j : Val) (key : List Byte) (b : Bool) (j' : Val) (h : convertToI64 j key = .ok (b, j')) :
    j' = j ∧ (b = true ↔ ∃ kvs n, j = .obj kvs ∧ kvs.lookup key = some (.atom (.i64 n))) := by
  cases j with
  | atom a => simp [convertToI64] at h; obtain ⟨rfl, rfl⟩ := h; simp
  | arr xs => simp [convertToI64] at h; obtain ⟨rfl, rfl⟩ := h; simp
  | obj kvs =>
    simp only [convertToI64] at h
    cases e : kvs.lookup key with
    | none => rw [e] at h; simp at h
    | some v =>
      rw [e] at h
      cases v with
      | arr xs => simp at h; obtain ⟨rfl, rfl⟩ := h; simp [e]
      | obj xs => simp at h; obtain ⟨rfl, rfl⟩ := h; simp [e]
      | atom a => cases a <;> (simp at h; obtain ⟨rfl, rfl⟩ := h; simp [e])

example : convertToI64 (.obj [([97], .atom (.i64 5))]) [97] = .ok (true, .obj [([97], .atom (.i64 5))]) := rfl

end Verif.Json.Props
