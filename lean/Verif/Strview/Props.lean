import Verif.Strview.Model
import Mathlib.Data.List.Induction
import Mathlib.Data.List.Infix
import Mathlib.Data.List.Forall2
import Mathlib.Tactic.ByContra

/-! # Properties C28, C29: string views -/

namespace Verif.Strview.Props
open Verif.Strview

/-- the view lies inside the array it points into -/
def Valid (v : View) : Prop := v.data + v.count ≤ v.mem.length

instance (v : View) : Decidable (Valid v) := by unfold Valid; infer_instance

/-- the viewed text -/
def text (v : View) : List Byte := (v.mem.drop v.data).take v.count

/-- `w` is a view of the text `t` inside the view `v` -/
def Views (v w : View) (t : List Byte) : Prop :=
  w.mem = v.mem ∧ v.data ≤ w.data ∧ w.data + w.count ≤ v.data + v.count ∧ text w = t

theorem Views.valid {v w : View} {t : List Byte} (h : Views v w t) (hv : Valid v) : Valid w := by
  obtain ⟨h1, h2, h3, -⟩ := h
  unfold Valid at *
  rw [h1]; omega

theorem text_length {v : View} (h : Valid v) : (text v).length = v.count := by
  unfold Valid at h
  simp [text]; omega

theorem rd_text {v : View} (h : Valid v) {i : Nat} (hi : i < v.count) :
    rd v i = .ok ((text v)[i]'(by rw [text_length h]; exact hi)) := by
  unfold Valid at h
  have : v.mem[v.data + i]? = some ((text v)[i]'(by rw [text_length h]; exact hi)) := by
    rw [← List.getElem?_eq_getElem]
    simp [text, hi]
  rw [rd, this]

theorem part_ok {v : View} (h : Valid v) {i n : Nat} (hi : i + n ≤ v.count) :
    ∃ w, part v i n = .ok w ∧ Views v w (((text v).drop i).take n) ∧ w.count = n ∧
      w.data = v.data + i := by
  unfold Valid at h
  refine ⟨⟨v.mem, v.data + i, n⟩, by rw [part, if_pos (by omega)], ⟨rfl, ?_, ?_, ?_⟩, rfl, rfl⟩
  · simp
  · simp; omega
  · simp only [text]
    rw [List.drop_take, List.take_take, List.drop_drop]
    congr 1
    omega

theorem scan_spec {v : View} (h : Valid v) (p : Byte → Bool) (n : Nat) : ∀ i, n + i = v.count →
    scan p v n i = .ok (i + (((text v).drop i).takeWhile p).length) := by
  have hl := text_length h
  induction n with
  | zero =>
    intro i hi
    rw [List.drop_eq_nil_of_le (by omega)]
    simp [scan]
  | succ n ih =>
    intro i hi
    have hlt : i < v.count := by omega
    rw [scan, rd_text h hlt, Res.bind_ok, List.drop_eq_getElem_cons (by rw [hl]; exact hlt),
      List.takeWhile_cons]
    by_cases hp : p ((text v)[i]'(by rw [hl]; exact hlt)) = true
    · rw [if_pos hp, if_pos hp, ih (i + 1) (by omega)]
      simp; omega
    · rw [if_neg hp, if_neg hp]
      simp

theorem scan_zero {v : View} (h : Valid v) (p : Byte → Bool) :
    scan p v v.count 0 = .ok ((text v).takeWhile p).length := by
  rw [scan_spec h p v.count 0 rfl]
  simp

theorem takeWhile_le {v : View} (h : Valid v) (p : Byte → Bool) :
    ((text v).takeWhile p).length ≤ v.count := by
  rw [← text_length h]; exact (List.takeWhile_prefix p).length_le

theorem take_takeWhile (l : List Byte) (p : Byte → Bool) :
    l.take (l.takeWhile p).length = l.takeWhile p := by
  induction l with
  | nil => rfl
  | cons a l ih =>
    rw [List.takeWhile_cons]
    split
    · simp [ih]
    · simp

theorem drop_takeWhile (l : List Byte) (p : Byte → Bool) :
    l.drop (l.takeWhile p).length = l.dropWhile p := by
  induction l with
  | nil => rfl
  | cons a l ih =>
    rw [List.takeWhile_cons, List.dropWhile_cons]
    split
    · simp [ih]
    · simp

/-- white space as in the C locale -/
def Space (c : Byte) : Prop := c = 32 ∨ c = 9 ∨ c = 10 ∨ c = 11 ∨ c = 12 ∨ c = 13

instance (c : Byte) : Decidable (Space c) := by unfold Space; infer_instance

theorem byte_forall {p : Byte → Prop} (h : ∀ n : Fin 256, p (UInt8.ofNat n.1)) (c : Byte) : p c := by
  have := h ⟨c.toNat, c.toNat_lt⟩
  rwa [UInt8.ofNat_toNat] at this

theorem isspace_eq (c : Byte) : isspace c = decide (Space c) := by
  revert c; apply byte_forall; decide +kernel

theorem isspace_fun : isspace = fun c => decide (Space c) := funext isspace_eq

/-- **C28**, `sv_trim_left`: the text without its leading white space -/
theorem C28_trim_left (v : View) (h : Valid v) :
    ∃ w, trimLeft v = .ok w ∧ Views v w ((text v).dropWhile (fun c => decide (Space c))) := by
  have hle := takeWhile_le h isspace
  have hl := text_length h
  obtain ⟨w, e, hv, -⟩ := part_ok h (i := ((text v).takeWhile isspace).length)
    (n := v.count - ((text v).takeWhile isspace).length) (by omega)
  refine ⟨w, by rw [trimLeft, scan_zero h, Res.bind_ok, e], ?_⟩
  rwa [drop_takeWhile, List.take_of_length_le, isspace_fun] at hv
  have := congrArg List.length (List.takeWhile_append_dropWhile (p := isspace) (l := text v))
  simp only [List.length_append] at this
  omega

theorem scanRight_spec {v : View} (h : Valid v) (n : Nat) : ∀ i, n + i = v.count →
    scanRight v n i = .ok (i + (((text v).reverse.drop i).takeWhile isspace).length) := by
  have hl := text_length h
  induction n with
  | zero =>
    intro i hi
    rw [List.drop_eq_nil_of_le (by simp; omega)]
    simp [scanRight]
  | succ n ih =>
    intro i hi
    have hlt : i < (text v).reverse.length := by rw [List.length_reverse]; omega
    rw [scanRight, rd_text h (show v.count - 1 - i < v.count by omega), Res.bind_ok,
      List.drop_eq_getElem_cons hlt, List.takeWhile_cons]
    have e : (text v).reverse[i] = (text v)[v.count - 1 - i]'(by omega) := by
      rw [List.getElem_reverse]
      congr 1
      omega
    rw [e]
    split
    · rw [ih (i + 1) (by omega)]
      simp; omega
    · simp

/-- **C28**, `sv_trim_right`: the text without its trailing white space -/
theorem C28_trim_right (v : View) (h : Valid v) :
    ∃ w, trimRight v = .ok w ∧
      Views v w ((text v).reverse.dropWhile (fun c => decide (Space c))).reverse := by
  have hl := text_length h
  have e1 := scanRight_spec h v.count 0 rfl
  rw [List.drop_zero, Nat.zero_add] at e1
  have hle : ((text v).reverse.takeWhile isspace).length ≤ v.count := by
    have := (List.takeWhile_prefix isspace (l := (text v).reverse)).length_le
    rwa [List.length_reverse, hl] at this
  obtain ⟨w, e, hv, -⟩ := part_ok h (i := 0)
    (n := v.count - ((text v).reverse.takeWhile isspace).length) (by omega)
  refine ⟨w, by rw [trimRight, e1, Res.bind_ok, e], ?_⟩
  have e2 : (text v).take (v.count - ((text v).reverse.takeWhile isspace).length) =
      ((text v).reverse.dropWhile (fun c => decide (Space c))).reverse := by
    rw [← isspace_fun, ← drop_takeWhile, List.drop_reverse, List.reverse_reverse, hl]
  rwa [List.drop_zero, e2] at hv

theorem Views.trans {u v w : View} {s t : List Byte} (h1 : Views u v s) (h2 : Views v w t) :
    Views u w t := by
  obtain ⟨a1, a2, a3, -⟩ := h1
  obtain ⟨b1, b2, b3, b4⟩ := h2
  exact ⟨b1.trans a1, by omega, by omega, b4⟩

/-- **C28**, `sv_trim` -/
theorem C28_trim (v : View) (h : Valid v) :
    ∃ w, trim v = .ok w ∧ Views v w
      ((((text v).dropWhile (fun c => decide (Space c))).reverse.dropWhile
        (fun c => decide (Space c))).reverse) := by
  obtain ⟨w1, e1, h1⟩ := C28_trim_left v h
  obtain ⟨w2, e2, h2⟩ := C28_trim_right w1 (h1.valid h)
  refine ⟨w2, by rw [trim, e1, Res.bind_ok, e2], ?_⟩
  have := h1.trans h2
  rwa [h1.2.2.2] at this

/-- **C28**, `sv_chop_left`: the first `n` bytes (or all) and the rest -/
theorem C28_chop_left (v : View) (h : Valid v) (n : Nat) :
    ∃ r v', chopLeft v n = .ok (r, v') ∧ Views v r ((text v).take n) ∧ Views v v' ((text v).drop n) := by
  have hl := text_length h
  rw [chopLeft]
  generalize hm : (if v.count < n then v.count else n) = m
  have hle : m ≤ v.count := by subst hm; split <;> omega
  obtain ⟨r, e1, h1, -⟩ := part_ok h (i := 0) (n := m) (by omega)
  obtain ⟨w, e2, h2, -⟩ := part_ok h (i := m) (n := v.count - m) (by omega)
  refine ⟨r, w, by simp only [e1, Res.bind_ok, e2]; rfl, ?_, ?_⟩
  · have : (text v).take n = ((text v).drop 0).take m := by
      rw [List.drop_zero]
      subst hm
      split
      · rw [List.take_of_length_le (by omega), List.take_of_length_le (by omega)]
      · rfl
    rw [this]; exact h1
  · have : (text v).drop n = ((text v).drop m).take (v.count - m) := by
      rw [List.take_of_length_le (by simp; omega)]
      subst hm
      split
      · rw [List.drop_eq_nil_of_le (by omega), List.drop_eq_nil_of_le (by omega)]
      · rfl
    rw [this]; exact h2

/-- **C28**, `sv_chop_right`: the last `n` bytes (or all) and the rest -/
theorem C28_chop_right (v : View) (h : Valid v) (n : Nat) :
    ∃ r v', chopRight v n = .ok (r, v') ∧ Views v r ((text v).drop ((text v).length - n)) ∧
      Views v v' ((text v).take ((text v).length - n)) := by
  have hl := text_length h
  rw [chopRight]
  generalize hm : (if v.count < n then v.count else n) = m
  have hle : m ≤ v.count := by subst hm; split <;> omega
  have hmn : v.count - m = v.count - n := by subst hm; split <;> omega
  obtain ⟨r, e1, h1, -⟩ := part_ok h (i := v.count - m) (n := m) (by omega)
  obtain ⟨w, e2, h2, -⟩ := part_ok h (i := 0) (n := v.count - m) (by omega)
  refine ⟨r, w, by simp only [e1, Res.bind_ok, e2]; rfl, ?_, ?_⟩
  · rw [List.take_of_length_le (by simp; omega), hmn] at h1
    rw [hl]; exact h1
  · rw [List.drop_zero, hmn] at h2
    rw [hl]; exact h2

/-- the text up to the first delimiter -/
theorem takeWhile_split (d : Byte) (t : List Byte) :
    (d ∉ t ∧ t.takeWhile (· != d) = t) ∨
    ∃ pre post, t = pre ++ d :: post ∧ d ∉ pre ∧ t.takeWhile (· != d) = pre := by
  induction t with
  | nil => exact .inl ⟨by simp, rfl⟩
  | cons c t ih =>
    by_cases hc : c = d
    · subst hc; exact .inr ⟨[], t, rfl, by simp, by simp⟩
    · have hb : (c != d) = true := by simpa using hc
      rcases ih with ⟨h1, h2⟩ | ⟨pre, post, rfl, h2, h3⟩
      · exact .inl ⟨by simp [h1, Ne.symm hc], by rw [List.takeWhile_cons, hb, h2]; rfl⟩
      · exact .inr ⟨c :: pre, post, rfl, by simp [h2, Ne.symm hc],
          by rw [List.takeWhile_cons, hb, h3]; rfl⟩

/-- **C28**, `sv_index_of`: the position of the first occurrence -/
theorem C28_index_of (v : View) (h : Valid v) (c : Byte) :
    (c ∉ text v → indexOf v c = .ok none) ∧
    (∀ pre post, text v = pre ++ c :: post → c ∉ pre → indexOf v c = .ok (some pre.length)) := by
  have hl := text_length h
  rw [indexOf, scan_zero h, Res.map_ok']
  constructor
  · intro hc
    rcases takeWhile_split c (text v) with ⟨-, h2⟩ | ⟨pre, post, h1, -, -⟩
    · rw [h2, hl, if_neg (by omega)]
    · exact absurd (by rw [h1]; simp) hc
  · intro pre post ht hc
    have : (text v).takeWhile (· != c) = pre := by
      rw [ht, List.takeWhile_append_of_pos (by
        intro a ha
        simp only [bne_iff_ne, ne_eq]
        rintro rfl
        exact hc ha)]
      simp
    rw [this, if_pos]
    rw [← hl, ht]; simp

/-- **C28**, `sv_chop_by_delim`: splits at the first delimiter and drops it -/
theorem C28_chop_by_delim (v : View) (h : Valid v) (d : Byte) :
    ∃ r v', chopByDelim v d = .ok (r, v') ∧
      ((d ∉ text v ∧ Views v r (text v) ∧ Views v v' []) ∨
       ∃ pre post, text v = pre ++ d :: post ∧ d ∉ pre ∧ Views v r pre ∧ Views v v' post) := by
  have hl := text_length h
  rw [chopByDelim, scan_zero h, Res.bind_ok]
  rcases takeWhile_split d (text v) with ⟨h1, h2⟩ | ⟨pre, post, h1, h2, h3⟩
  · rw [h2, hl]
    obtain ⟨r, e1, hr, -⟩ := part_ok h (i := 0) (n := v.count) (by omega)
    obtain ⟨w, e2, hw, -⟩ := part_ok h (i := v.count) (n := v.count - v.count) (by omega)
    refine ⟨r, w, by rw [e1, Res.bind_ok, if_neg (by omega), e2]; rfl, .inl ⟨h1, ?_, ?_⟩⟩
    · rwa [List.drop_zero, List.take_of_length_le (by omega)] at hr
    · rwa [Nat.sub_self, List.take_zero] at hw
  · have hlen := congrArg List.length h1
    simp only [List.length_append, List.length_cons] at hlen
    rw [h3]
    obtain ⟨r, e1, hr, -⟩ := part_ok h (i := 0) (n := pre.length) (by omega)
    obtain ⟨w, e2, hw, -⟩ := part_ok h (i := pre.length + 1) (n := v.count - (pre.length + 1)) (by omega)
    refine ⟨r, w, by rw [e1, Res.bind_ok, if_pos (by omega), e2]; rfl, .inr ⟨pre, post, h1, h2, ?_, ?_⟩⟩
    · rw [h1, List.drop_zero, List.take_left] at hr; exact hr
    · have : (text v).drop (pre.length + 1) = post := by rw [h1]; simp
      rw [this, List.take_of_length_le (by omega)] at hw; exact hw

/-- **C28**, `sv_try_chop_by_delim`: the same, but fails and changes nothing without a delimiter -/
theorem C28_try_chop_by_delim (v : View) (h : Valid v) (d : Byte) :
    (d ∉ text v → tryChopByDelim v d = .ok none) ∧
    (∀ pre post, text v = pre ++ d :: post → d ∉ pre →
      ∃ r v', tryChopByDelim v d = .ok (some (r, v')) ∧ Views v r pre ∧ Views v v' post) := by
  have hl := text_length h
  rw [tryChopByDelim, scan_zero h, Res.bind_ok]
  constructor
  · intro hd
    rcases takeWhile_split d (text v) with ⟨h1, h2⟩ | ⟨pre, post, h1, h2, h3⟩
    · rw [h2, hl]
      obtain ⟨r, e1, hr, -⟩ := part_ok h (i := 0) (n := v.count) (by omega)
      rw [e1, Res.bind_ok, if_neg (by omega)]
    · exact absurd (by rw [h1]; simp) hd
  · intro pre post h1 h2
    have h3 : (text v).takeWhile (· != d) = pre := by
      rw [h1, List.takeWhile_append_of_pos (by
        intro a ha
        simp only [bne_iff_ne, ne_eq]
        rintro rfl
        exact h2 ha)]
      simp
    have hlen := congrArg List.length h1
    simp only [List.length_append, List.length_cons] at hlen
    rw [h3]
    obtain ⟨r, e1, hr, -⟩ := part_ok h (i := 0) (n := pre.length) (by omega)
    obtain ⟨w, e2, hw, -⟩ := part_ok h (i := pre.length + 1) (n := v.count - (pre.length + 1)) (by omega)
    refine ⟨r, w, by rw [e1, Res.bind_ok, if_pos (by omega), e2]; rfl, ?_, ?_⟩
    · rw [h1, List.drop_zero, List.take_left] at hr; exact hr
    · have : (text v).drop (pre.length + 1) = post := by rw [h1]; simp
      rw [this, List.take_of_length_le (by omega)] at hw; exact hw

theorem memeq_spec {a b : View} (ha : Valid a) (hb : Valid b) (hc : a.count = b.count) (n : Nat) :
    ∀ i, n + i = a.count → memeq a b n i = .ok (decide ((text a).drop i = (text b).drop i)) := by
  have la := text_length ha
  have lb := text_length hb
  induction n with
  | zero =>
    intro i hi
    rw [List.drop_eq_nil_of_le (by omega), List.drop_eq_nil_of_le (by omega)]
    simp [memeq]
  | succ n ih =>
    intro i hi
    rw [memeq, rd_text ha (show i < a.count by omega), Res.bind_ok,
      rd_text hb (show i < b.count by omega), Res.bind_ok, ih (i + 1) (by omega), Res.map_ok',
      List.drop_eq_getElem_cons (show i < (text a).length by omega),
      List.drop_eq_getElem_cons (show i < (text b).length by omega)]
    congr 1
    generalize (text a)[i]'(by omega) = x
    generalize (text b)[i]'(by omega) = y
    by_cases h1 : x = y
    · simp only [h1, List.cons.injEq, true_and, beq_self_eq_true, Bool.true_and]
    · simp [h1]

/-- **C28**, `sv_eq`: equality of texts -/
theorem C28_eq (a b : View) (ha : Valid a) (hb : Valid b) : eq a b = .ok (decide (text a = text b)) := by
  have la := text_length ha
  have lb := text_length hb
  rw [eq]
  split
  · rename_i hc
    have : text a ≠ text b := fun h => hc (by rw [← la, ← lb, h])
    simp [this]
  · rename_i hc
    rw [memeq_spec ha hb (by omega) a.count 0 rfl]
    simp

/-- **C28**, `sv_starts_with` -/
theorem C28_starts_with (v p : View) (hv : Valid v) (hp : Valid p) :
    ∃ b, startsWith v p = .ok b ∧ (b = true ↔ text p <+: text v) := by
  have lv := text_length hv
  have lp := text_length hp
  rw [startsWith]
  split
  · rename_i hc
    obtain ⟨w, e1, hw, hwc, -⟩ := part_ok hv (i := 0) (n := p.count) (by omega)
    refine ⟨_, by rw [e1, Res.bind_ok, C28_eq p w hp (hw.valid hv)], ?_⟩
    rw [hw.2.2.2, decide_eq_true_eq, List.drop_zero, List.prefix_iff_eq_take, lp]
  · rename_i hc
    refine ⟨false, rfl, ?_⟩
    simp only [Bool.false_eq_true, false_iff]
    intro h
    have := h.length_le
    omega

/-- **C28**, `sv_ends_with` -/
theorem C28_ends_with (v p : View) (hv : Valid v) (hp : Valid p) :
    ∃ b, endsWith v p = .ok b ∧ (b = true ↔ text p <:+ text v) := by
  have lv := text_length hv
  have lp := text_length hp
  rw [endsWith]
  split
  · rename_i hc
    obtain ⟨w, e1, hw, hwc, -⟩ := part_ok hv (i := v.count - p.count) (n := p.count) (by omega)
    refine ⟨_, by rw [e1, Res.bind_ok, C28_eq p w hp (hw.valid hv)], ?_⟩
    rw [hw.2.2.2, decide_eq_true_eq, List.take_of_length_le (by simp; omega),
      List.suffix_iff_eq_drop, lv, lp]
  · rename_i hc
    refine ⟨false, rfl, ?_⟩
    simp only [Bool.false_eq_true, false_iff]
    intro h
    have := h.length_le
    omega

/-- two bytes are the same letter, or equal -/
def SameLetter (x y : Byte) : Prop :=
  x = y ∨ (65 ≤ x ∧ x ≤ 90 ∧ y.toNat = x.toNat + 32) ∨ (65 ≤ y ∧ y ≤ 90 ∧ x.toNat = y.toNat + 32)

theorem lower_eq_iff (x y : Byte) : lower x = lower y ↔ SameLetter x y := by
  have hx := x.toNat_lt
  have hy := y.toNat_lt
  simp only [SameLetter, lower, UInt8.le_iff_toNat_le, Bool.and_eq_true, decide_eq_true_eq]
  have e1 : (65 : Byte).toNat = 65 := rfl
  have e2 : (90 : Byte).toNat = 90 := rfl
  rw [← UInt8.toNat_inj (a := x) (b := y), ← UInt8.toNat_inj]
  split <;> split <;> simp only [UInt8.toNat_add, e1, e2, show (32 : Byte).toNat = 32 from rfl] at * <;>
    omega

theorem eqLoop_spec {a b : View} (ha : Valid a) (hb : Valid b) (hc : a.count = b.count) (n : Nat) :
    ∀ i, n + i = a.count → ∃ r, eqLoop a b n i = .ok r ∧
      (r = true ↔ List.Forall₂ SameLetter ((text a).drop i) ((text b).drop i)) := by
  have la := text_length ha
  have lb := text_length hb
  induction n with
  | zero =>
    intro i hi
    rw [List.drop_eq_nil_of_le (by omega), List.drop_eq_nil_of_le (by omega)]
    exact ⟨true, rfl, by simp⟩
  | succ n ih =>
    intro i hi
    obtain ⟨r, e, hr⟩ := ih (i + 1) (by omega)
    rw [eqLoop, rd_text ha (show i < a.count by omega), Res.bind_ok,
      rd_text hb (show i < b.count by omega), Res.bind_ok, e,
      List.drop_eq_getElem_cons (show i < (text a).length by omega),
      List.drop_eq_getElem_cons (show i < (text b).length by omega), List.forall₂_cons,
      ← lower_eq_iff]
    split
    · rename_i h1
      exact ⟨r, rfl, by rw [hr]; simp [h1]⟩
    · rename_i h1
      exact ⟨false, rfl, by simp [h1]⟩

/-- **C28**, `sv_eq_ignorecase`: the texts have equal length and the same letters, ASCII case aside -/
theorem C28_eq_ignorecase (a b : View) (ha : Valid a) (hb : Valid b) :
    ∃ r, eqIgnorecase a b = .ok r ∧ (r = true ↔ List.Forall₂ SameLetter (text a) (text b)) := by
  rw [eqIgnorecase]
  split
  · rename_i hc
    refine ⟨false, rfl, ?_⟩
    simp only [Bool.false_eq_true, false_iff]
    intro h
    have := h.length_eq
    rw [text_length ha, text_length hb] at this
    exact hc this
  · rename_i hc
    obtain ⟨r, e, hr⟩ := eqLoop_spec ha hb (by omega) a.count 0 rfl
    exact ⟨r, e, by simpa using hr⟩

/-- a decimal digit -/
def Digit (c : Byte) : Prop := 48 ≤ c.toNat ∧ c.toNat ≤ 57

instance (c : Byte) : Decidable (Digit c) := by unfold Digit; infer_instance

/-- the value of a digit string -/
def decimal (ds : List Byte) : Nat := ds.foldl (fun a c => 10 * a + (c.toNat - 48)) 0

theorem isdigit_eq (c : Byte) : isdigit c = decide (Digit c) := by
  revert c; apply byte_forall; decide +kernel

theorem u64_step {acc : Nat} {c : Byte} (hc : Digit c) :
    sub64 (add64 (mul64 acc 10) c.toNat) 48 % 18446744073709551616 =
      (10 * acc + (c.toNat - 48)) % 18446744073709551616 := by
  unfold Digit at hc
  unfold sub64 add64 mul64
  split <;> omega

theorem u64Loop_spec {v : View} (h : Valid v) (n : Nat) : ∀ (i acc A : Nat), n + i = v.count →
    acc = A % 18446744073709551616 →
    u64Loop v n i acc = .ok ((((text v).drop i).takeWhile (fun c => decide (Digit c))).foldl
      (fun a c => 10 * a + (c.toNat - 48)) A % 18446744073709551616) := by
  have hl := text_length h
  induction n with
  | zero =>
    intro i acc A hi hA
    rw [List.drop_eq_nil_of_le (by omega)]
    simp [u64Loop, hA]
  | succ n ih =>
    intro i acc A hi hA
    have hlt : i < v.count := by omega
    rw [u64Loop, rd_text h hlt, Res.bind_ok, List.drop_eq_getElem_cons (by rw [hl]; exact hlt),
      List.takeWhile_cons, isdigit_eq]
    split
    · rename_i hd
      have hd' : Digit ((text v)[i]'(by omega)) := by simpa using hd
      rw [List.foldl_cons]
      apply ih (i + 1) _ _ (by omega)
      have := u64_step (acc := acc) hd'
      have hlt : sub64 (add64 (mul64 acc 10) ((text v)[i]'(by omega)).toNat) 48
          < 18446744073709551616 := by
        unfold sub64 add64; split <;> omega
      rw [Nat.mod_eq_of_lt hlt] at this
      rw [this, hA]
      omega
    · simp [hA]

/-- **C28**, `sv_to_u64`: the value of the maximal decimal prefix, modulo 2^64 -/
theorem C28_to_u64 (v : View) (h : Valid v) :
    toU64 v = .ok (decimal ((text v).takeWhile (fun c => decide (Digit c))) % 2 ^ 64) := by
  rw [toU64, u64Loop_spec h v.count 0 0 0 rfl rfl]
  simp [decimal]

theorem chopU64Loop_spec (n : Nat) : ∀ (v : View) (acc A : Nat), Valid v → v.count < n →
    acc = A % 18446744073709551616 →
    ∃ w, chopU64Loop n v acc = .ok (((text v).takeWhile (fun c => decide (Digit c))).foldl
        (fun a c => 10 * a + (c.toNat - 48)) A % 18446744073709551616, w) ∧
      Views v w ((text v).dropWhile (fun c => decide (Digit c))) := by
  induction n with
  | zero => intro v acc A _ h; omega
  | succ n ih =>
    intro v acc A hv hn hA
    have hl := text_length hv
    rw [chopU64Loop]
    by_cases hc : 0 < v.count
    · rw [if_pos hc, rd_text hv hc, Res.bind_ok]
      have ht : text v = (text v)[0]'(by omega) :: (text v).drop 1 := by
        conv_lhs => rw [← List.drop_zero (l := text v), List.drop_eq_getElem_cons (by omega)]
      generalize hx : (text v)[0]'(by omega) = x at ht
      rw [isdigit_eq]
      by_cases hd : Digit x
      · rw [if_pos (by simpa using hd)]
        obtain ⟨w, e, hw, hwc, hwd⟩ := part_ok hv (i := 1) (n := v.count - 1) (by omega)
        rw [e, Res.bind_ok]
        have hlt : sub64 (add64 (mul64 acc 10) x.toNat) 48 < 18446744073709551616 := by
          unfold sub64 add64; split <;> omega
        have hstep := u64_step (acc := acc) hd
        rw [Nat.mod_eq_of_lt hlt] at hstep
        obtain ⟨w2, e2, hw2⟩ := ih w (sub64 (add64 (mul64 acc 10) x.toNat) 48)
          (10 * A + (x.toNat - 48)) (hw.valid hv) (by omega) (by rw [hstep, hA]; omega)
        have htw : text w = (text v).drop 1 := by
          rw [hw.2.2.2, List.take_of_length_le (by simp; omega)]
        rw [htw] at e2 hw2
        refine ⟨w2, ?_, ?_⟩
        · rw [e2]; conv_rhs => rw [ht]
          simp [hd]
        · have := hw.trans hw2
          rw [ht]
          simpa [hd] using this
      · rw [if_neg (by simpa using hd)]
        refine ⟨v, ?_, ?_⟩
        · rw [ht]; simp [hd, hA]
        · refine ⟨rfl, by omega, by omega, ?_⟩
          rw [ht]; simp [hd]
    · rw [if_neg hc]
      have ht : text v = [] := List.length_eq_zero_iff.1 (by omega)
      exact ⟨v, by rw [ht]; simp [hA], rfl, by omega, by omega, by rw [ht]; rfl⟩

/-- **C28**, `sv_chop_u64`: the same number, and the rest of the text -/
theorem C28_chop_u64 (v : View) (h : Valid v) :
    ∃ w, chopU64 v = .ok (decimal ((text v).takeWhile (fun c => decide (Digit c))) % 2 ^ 64, w) ∧
      Views v w ((text v).dropWhile (fun c => decide (Digit c))) := by
  obtain ⟨w, e, hw⟩ := chopU64Loop_spec (v.count + 1) v 0 0 h (by omega) rfl
  exact ⟨w, by rw [chopU64, e]; rfl, hw⟩

/-- **C28**, `sv_take_left_while` -/
theorem C28_take_left_while (v : View) (h : Valid v) (p : Byte → Bool) :
    ∃ w, takeLeftWhile v p = .ok w ∧ Views v w ((text v).takeWhile p) := by
  have hle := takeWhile_le h p
  obtain ⟨w, e, hv, -⟩ := part_ok h (i := 0) (n := ((text v).takeWhile p).length) (by omega)
  refine ⟨w, by rw [takeLeftWhile, scan_zero h, Res.bind_ok, e], ?_⟩
  rwa [List.drop_zero, take_takeWhile] at hv

/-- **C28**, `sv_chop_left_while` -/
theorem C28_chop_left_while (v : View) (h : Valid v) (p : Byte → Bool) :
    ∃ r v', chopLeftWhile v p = .ok (r, v') ∧ Views v r ((text v).takeWhile p) ∧
      Views v v' ((text v).dropWhile p) := by
  obtain ⟨r, w, e, h1, h2⟩ := C28_chop_left v h ((text v).takeWhile p).length
  refine ⟨r, w, by rw [chopLeftWhile, scan_zero h, Res.bind_ok, e], ?_, ?_⟩
  · rwa [take_takeWhile] at h1
  · rwa [drop_takeWhile] at h2

/-- a view of a C string is valid and shows the string -/
theorem fromCstr_valid (s : List Byte) : Valid (fromCstr s) ∧ text (fromCstr s) = s := by
  constructor
  · simp [Valid, fromCstr]
  · simp [text, fromCstr]

/-- a view of "b 12" inside " ab 12x": all hypotheses are `Valid` -/
example : Valid ⟨[32, 97, 98, 32, 49, 50, 120], 2, 4⟩ ∧
    text ⟨[32, 97, 98, 32, 49, 50, 120], 2, 4⟩ = [98, 32, 49, 50] := by decide

/-! ## C29 -/

/-- `d` occurs in `t` at position `i` -/
def At (d t : List Byte) (i : Nat) : Prop := d <+: t.drop i

instance (d t : List Byte) (i : Nat) : Decidable (At d t i) := by unfold At; infer_instance

theorem chopLoop_spec {v d : View} (hv : Valid v) (hd : Valid d) (n : Nat) : ∀ (i k : Nat),
    i ≤ k → k + d.count ≤ v.count → (∀ j, i ≤ j → j < k → ¬ At (text d) (text v) j) →
    (k + d.count < v.count → At (text d) (text v) k) → k - i < n →
    chopLoop v d n i = .ok k := by
  have lv := text_length hv
  have ld := text_length hd
  induction n with
  | zero => intro i k _ _ _ _ h; omega
  | succ n ih =>
    intro i k hik hk hno hyes hn
    have hat : ∀ w, Views v w (((text v).drop i).take d.count) →
        (text w = text d ↔ At (text d) (text v) i) := by
      intro w hw
      rw [hw.2.2.2, At, List.prefix_iff_eq_take, ld]
      exact ⟨fun h => h.symm, fun h => h.symm⟩
    rw [chopLoop]
    by_cases hlt : i + d.count < v.count
    · rw [if_pos hlt]
      obtain ⟨w, e, hw, -⟩ := part_ok hv (i := i) (n := d.count) (by omega)
      rw [e, Res.bind_ok, C28_eq w d (hw.valid hv) hd, Res.bind_ok]
      by_cases hik' : i = k
      · subst hik'
        rw [if_pos]
        rw [decide_eq_true_eq, hat w hw]
        exact hyes hlt
      · rw [if_neg]
        · exact ih (i + 1) k (by omega) hk (fun j h1 h2 => hno j (by omega) h2) hyes (by omega)
        · rw [decide_eq_true_eq, hat w hw]
          exact hno i (Nat.le_refl _) (by omega)
    · rw [if_neg hlt]
      congr 1
      omega

/-- **C29**, what holds: when the first occurrence is followed by at least one more byte, the text before
it is returned and the text after it is left; and when there is no occurrence (and the delimiter is
not longer than the text) the whole text is returned and nothing is left.  Missing: an occurrence at
the very end (`C29_split_false`), and delimiters longer than the text (`C29_long_delim_false`). -/
theorem C29_split_partial (v d : View) (hv : Valid v) (hd : Valid d) :
    (∀ pre post, text v = pre ++ text d ++ post → post ≠ [] →
      (∀ j, j < pre.length → ¬ At (text d) (text v) j) →
      ∃ r v', chopBySv v d = .ok (r, v') ∧ Views v r pre ∧ Views v v' post) ∧
    (d.count ≤ v.count → ¬ text d <:+: text v →
      ∃ r v', chopBySv v d = .ok (r, v') ∧ Views v r (text v) ∧ Views v v' []) := by
  have lv := text_length hv
  have ld := text_length hd
  have sub_eq : ∀ k, k ≤ v.count → sub64 v.count k = v.count - k := fun k hk => sub64_le hk
  constructor
  · intro pre post ht hp hno
    have hlen := congrArg List.length ht
    simp only [List.length_append] at hlen
    have hpl := List.length_pos_iff.2 hp
    have e1 : chopLoop v d v.count 0 = .ok pre.length := by
      refine chopLoop_spec hv hd _ 0 pre.length (by omega) (by omega) (fun j _ h => hno j h) ?_ ?_
      · intro _
        rw [At, ht, List.append_assoc, List.drop_left]
        exact List.prefix_append _ _
      · omega
    obtain ⟨r, e2, hr, -⟩ := part_ok hv (i := 0) (n := pre.length) (by omega)
    obtain ⟨w, e3, hw, -⟩ := part_ok hv (i := pre.length + d.count)
      (n := v.count - (pre.length + d.count)) (by omega)
    refine ⟨r, w, ?_, ?_, ?_⟩
    · rw [chopBySv, e1, Res.bind_ok, if_neg (by omega), e2, Res.bind_ok, sub_eq _ (by omega), e3]
      rfl
    · rw [ht, List.drop_zero, List.append_assoc, List.take_left] at hr; exact hr
    · have : (text v).drop (pre.length + d.count) = post := by
        rw [ht, List.append_assoc, ← ld, ← List.drop_drop, List.drop_left, List.drop_left]
      rw [this, List.take_of_length_le (by omega)] at hw; exact hw
  · intro hle hno
    have hno' : ∀ j, ¬ At (text d) (text v) j := by
      intro j hj
      obtain ⟨u, hu⟩ := hj
      exact hno ⟨(text v).take j, u, by rw [List.append_assoc, hu, List.take_append_drop]⟩
    have hd0 : 0 < d.count := by
      by_contra h
      have : text d = [] := List.length_eq_zero_iff.1 (by omega)
      rw [this] at hno
      exact hno (List.nil_infix)
    have e1 : chopLoop v d v.count 0 = .ok (v.count - d.count) :=
      chopLoop_spec hv hd _ 0 _ (by omega) (by omega) (fun j _ _ => hno' j) (fun h => by omega)
        (by omega)
    obtain ⟨r, e2, hr, -⟩ := part_ok hv (i := 0) (n := v.count) (by omega)
    obtain ⟨w, e3, hw, -⟩ := part_ok hv (i := v.count) (n := v.count - v.count) (by omega)
    refine ⟨r, w, ?_, ?_, ?_⟩
    · rw [chopBySv, e1, Res.bind_ok, Nat.sub_add_cancel hle, if_pos rfl, e2, Res.bind_ok,
        sub_eq _ (by omega), e3]
      rfl
    · rwa [List.drop_zero, List.take_of_length_le (by omega)] at hr
    · rwa [Nat.sub_self, List.take_zero] at hw

/-- the claim in the first half of C29, for the case that the rest is empty -/
theorem C29_split_false (v d : View) (hv : Valid v) (hd : Valid d) (h0 : 0 < d.count)
    (pre : List Byte) (ht : text v = pre ++ text d)
    (hno : ∀ j, j < pre.length → ¬ At (text d) (text v) j) :
    ∃ r v', chopBySv v d = .ok (r, v') ∧ Views v r (pre ++ text d) ∧ Views v v' [] := by
  have lv := text_length hv
  have ld := text_length hd
  have hlen := congrArg List.length ht
  simp only [List.length_append] at hlen
  have e1 : chopLoop v d v.count 0 = .ok pre.length :=
    chopLoop_spec hv hd _ 0 _ (by omega) (by omega) (fun j _ h => hno j h) (fun h => by omega) (by omega)
  obtain ⟨r, e2, hr, -⟩ := part_ok hv (i := 0) (n := v.count) (by omega)
  obtain ⟨w, e3, hw, -⟩ := part_ok hv (i := v.count) (n := v.count - v.count) (by omega)
  refine ⟨r, w, ?_, ?_, ?_⟩
  · have h2 : pre.length + d.count = v.count := by omega
    rw [chopBySv, e1, Res.bind_ok, h2, if_pos rfl, e2, Res.bind_ok,
      sub64_le (Nat.le_refl _), e3]
    rfl
  · rw [← ht]
    rwa [List.drop_zero, List.take_of_length_le (by omega)] at hr
  · rwa [Nat.sub_self, List.take_zero] at hw

/-- "a--" split at "--" yields "a--" -/
example : text (fromCstr [97, 45, 45]) = [97] ++ text (fromCstr [45, 45]) ∧
    0 < (fromCstr [45, 45]).count ∧
    ∀ j, j < [(97 : Byte)].length → ¬ At (text (fromCstr [45, 45])) (text (fromCstr [97, 45, 45])) j := by
  refine ⟨by decide, by decide, ?_⟩
  intro j hj
  have : j = 0 := by simpa using hj
  subst this
  decide

/-- **C29** is false for a delimiter longer than the text: the pointer leaves the array, or the view
left over is not inside the array (its count wrapped around) -/
theorem C29_long_delim_false (v d : View) (hv : Valid v) (hd : v.count < d.count)
    (h64 : d.count < 2 ^ 62) (hm : v.mem.length < 2 ^ 62) :
    chopBySv v d = .ub ∨ ∃ r v', chopBySv v d = .ok (r, v') ∧ ¬ Valid v' := by
  have e1 : chopLoop v d v.count 0 = .ok 0 := by
    cases v.count with
    | zero => rfl
    | succ n => rw [chopLoop, if_neg (by omega)]
  unfold Valid at hv
  have e2 : part v 0 0 = .ok ⟨v.mem, v.data, 0⟩ := by rw [part, if_pos (by omega), Nat.add_zero]
  rw [chopBySv, e1, Res.bind_ok, Nat.zero_add, if_neg (by omega), e2, Res.bind_ok, part]
  split
  · refine .inr ⟨_, _, rfl, ?_⟩
    simp only [Valid]
    unfold sub64
    split <;> omega
  · exact .inl rfl

example : Valid (fromCstr [97]) ∧ (fromCstr [97]).count < (fromCstr [45, 45]).count ∧
    chopBySv (fromCstr [97]) (fromCstr [45, 45]) = .ok (⟨[97, 0], 0, 0⟩, ⟨[97, 0], 2, 2 ^ 64 - 1⟩) := by
  refine ⟨by decide, by decide, ?_⟩
  simp [chopBySv, chopLoop, fromCstr, part, Res.bind, Res.map, sub64]

end Verif.Strview.Props
