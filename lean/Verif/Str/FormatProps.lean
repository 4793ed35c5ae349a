import Verif.Str.Format
import Verif.Str.Props

/-! # C91: formatted strings -/

namespace Verif.Str.Props
open Verif.Str

/-- a part of a format: a character, `%%`, `%s` or `%d` -/
inductive Part where
  | char (c : Byte)
  | percent
  | str
  | int

/-- how a format is written -/
def Part.text : Part → List Byte
  | .char c => [c]
  | .percent => [37, 37]
  | .str => [37, 115]
  | .int => [37, 100]

/-- what a format means: the arguments it takes and the output -/
inductive Means : List Part → List Arg → List Byte → Prop where
  | nil (rest : List Arg) : Means [] rest []
  | char {ps : List Part} {args : List Arg} {t : List Byte} (c : Byte) (hc : c ≠ 37) (h : Means ps args t) :
      Means (.char c :: ps) args (c :: t)
  | percent {ps : List Part} {args : List Arg} {t : List Byte} (h : Means ps args t) :
      Means (.percent :: ps) args (37 :: t)
  | str {ps : List Part} {args : List Arg} {t : List Byte} (s : List Byte) (h : Means ps args t) :
      Means (.str :: ps) (.str s :: args) (s ++ t)
  | int {ps : List Part} {args : List Arg} {t : List Byte} (i : Int) (h : Means ps args t) :
      Means (.int :: ps) (.int i :: args) (Json.intText i ++ t)

/-- a part takes an argument -/
def Part.takes : Part → Bool
  | .str => true
  | .int => true
  | _ => false

theorem vfmt_char {c : Byte} (hc : c ≠ 37) (fmt : List Byte) (ap : Va) :
    vfmt (c :: fmt) ap = (vfmt fmt ap).map fun r => (c :: r.1, r.2) := by
  rw [vfmt.eq_def]
  split
  · rename_i h; cases h
  · rename_i h; cases h; exact absurd rfl hc
  · rename_i h; cases h; rw [if_neg hc]

theorem vfmt_percent (fmt : List Byte) (ap : Va) :
    vfmt (37 :: 37 :: fmt) ap = (vfmt fmt ap).map fun r => (37 :: r.1, r.2) := by
  rw [vfmt.eq_def]
  simp

theorem vfmt_means {ps : List Part} {args : List Arg} {t : List Byte} (h : Means ps args t) :
    ∃ left, vfmt (ps.flatMap Part.text) (some args) = .ok (t, some left, ps.any Part.takes) ∧
      (ps.any Part.takes = false → left = args) := by
  induction h with
  | nil rest => exact ⟨rest, rfl, fun _ => rfl⟩
  | @char ps args t c hc h ih =>
    obtain ⟨left, h1, h2⟩ := ih
    refine ⟨left, ?_, by simpa [Part.takes] using h2⟩
    have := vfmt_char hc (ps.flatMap Part.text) (some args)
    simp only [List.flatMap_cons, Part.text, List.singleton_append, this, h1, Res.map, List.any_cons, Part.takes,
      Bool.false_or]
  | @percent ps args t h ih =>
    obtain ⟨left, h1, h2⟩ := ih
    exact ⟨left, by simp [Part.text, vfmt_percent, h1, Res.map, Part.takes], by simpa [Part.takes] using h2⟩
  | @str ps args t s h ih =>
    obtain ⟨left, h1, h2⟩ := ih
    exact ⟨left, by simp [Part.text, vfmt, h1, Res.map, Part.takes], by simp [Part.takes]⟩
  | @int ps args t i h ih =>
    obtain ⟨left, h1, h2⟩ := ih
    exact ⟨left, by simp [Part.text, vfmt, h1, Res.map, Part.takes], by simp [Part.takes]⟩

/-- a format that takes an argument cannot be used with an indeterminate list -/
theorem vfmt_none (ps : List Part) {args : List Arg} {t : List Byte} (h : Means ps args t)
    (ht : ps.any Part.takes = true) : vfmt (ps.flatMap Part.text) none = .ub := by
  induction h with
  | nil rest => cases ht
  | @char ps args t c hc h ih =>
    have := vfmt_char hc (ps.flatMap Part.text) none
    simp only [List.flatMap_cons, Part.text, List.singleton_append, this, ih (by simpa [Part.takes] using ht), Res.map]
  | @percent ps args t h ih => simp [Part.text, vfmt_percent, ih (by simpa [Part.takes] using ht), Res.map]
  | str s h ih => simp [Part.text, vfmt]
  | int i h ih => simp [Part.text, vfmt]

/-- C91, for formats without conversions: the string has the text of the format -/
theorem C91_mk_partial {ps : List Part} {args : List Arg} {t : List Byte} (h : Means ps args t) (ht : Text t)
    (hn : ps.any Part.takes = false) : ∃ b, mkFmt (ps.flatMap Part.text) args = .ok b ∧ Inv b t .malloc := by
  obtain ⟨left, h1, h2⟩ := vfmt_means h
  obtain rfl := h2 hn
  have hv : vsn (ps.flatMap Part.text) (some left) = .ok (t, some left) := by simp [vsn, h1, Res.map, hn]
  obtain ⟨b, hb, hi⟩ := mk_inv t ht
  refine ⟨b, ?_, hi⟩
  simp only [mkFmt, mkv, hv, Res.bind]
  exact hb

/-- C91 is false for `cee_str_mk` with every format that takes an argument: the list of arguments is used up by the
first call of `vsnprintf` and used again by the second -/
theorem C91_mk_false {ps : List Part} {args : List Arg} {t : List Byte} (h : Means ps args t)
    (hn : ps.any Part.takes = true) : mkFmt (ps.flatMap Part.text) args = .ub := by
  obtain ⟨left, h1, -⟩ := vfmt_means h
  have hv : vsn (ps.flatMap Part.text) (some args) = .ok (t, none) := by simp [vsn, h1, Res.map, hn]
  have hv2 : vsn (ps.flatMap Part.text) none = .ub := by simp [vsn, vfmt_none ps h hn, Res.map]
  simp only [mkFmt, mkv, hv, hv2, Res.bind]

theorem vsn_text {ps : List Part} {args : List Arg} {t : List Byte} (h : Means ps args t) :
    ∃ ap, vsn (ps.flatMap Part.text) (some args) = .ok (t, ap) := by
  obtain ⟨left, h1, -⟩ := vfmt_means h
  exact ⟨_, by simp only [vsn, h1, Res.map]; rfl⟩

/-- C91: `cee_str_mk_e`, `cee_str_catf` and `cee_str_replace` format their arguments -/
theorem C91_others {ps : List Part} {args : List Arg} {t : List Byte} (h : Means ps args t) (ht : Text t) :
    (∀ n, ∃ b, mkEFmt n (ps.flatMap Part.text) args = .ok b ∧ Holds b.cells t) ∧
    (∀ b s m, Inv b s m → ∃ b', catfFmt b (ps.flatMap Part.text) args = .ok b' ∧ Inv b' (s ++ t) m) ∧
    (∀ b s m, Inv b s m → ∃ b', replaceFmt b (ps.flatMap Part.text) args = .ok b' ∧ Inv b' t m) := by
  obtain ⟨ap, hv⟩ := vsn_text h
  refine ⟨fun n => ?_, fun b s m hi => ?_, fun b s m hi => ?_⟩
  · obtain ⟨b, h1, h2, -⟩ := C54_mk_e_size_false t ht
    refine ⟨b, ?_, h2⟩
    simp only [mkEFmt, hv, Res.bind]
    exact h1 n
  · obtain ⟨b', h1, h2⟩ := exec_inv hi (.catf t) ht
    refine ⟨b', ?_, h2⟩
    simp only [catfFmt, hv, Res.bind]
    exact h1
  · obtain ⟨b', h1, h2⟩ := exec_inv hi (.replace t) ht
    refine ⟨b', ?_, h2⟩
    simp only [replaceFmt, hv, Res.bind]
    exact h1

/-- `cee_str_mk(state, "%d", 10)` -/
example : Means [.int] [.int 10] (Json.intText 10 ++ []) ∧ mkFmt [37, 100] [.int 10] = .ub :=
  ⟨.int 10 (.nil []), C91_mk_false (.int 10 (.nil [])) rfl⟩

/-- `cee_str_mk(state, "a%%")` -/
example : ∃ b, mkFmt [97, 37, 37] [] = .ok b ∧ Inv b [97, 37] .malloc :=
  C91_mk_partial (ps := [.char 97, .percent]) (.char 97 (by decide) (.percent (.nil []))) ⟨by decide, by decide⟩ rfl

/-- `cee_str_mk_e(state, 10, "%s=%s", "a", "b")` -/
example : ∃ b, mkEFmt 10 [37, 115, 61, 37, 115] [.str [97], .str [98]] = .ok b ∧ Holds b.cells [97, 61, 98] :=
  (C91_others (ps := [.str, .char 61, .str]) (.str [97] (.char 61 (by decide) (.str [98] (.nil []))))
    ⟨by decide, by decide⟩).1 10

end Verif.Str.Props
