import Verif.Str.Lemmas
import Mathlib.Data.List.Infix
import Mathlib.Tactic.Ring

/-! # Properties C26, C27, C55: text replacement (`str_replace_*`) -/

namespace Verif.Str.Props
open Verif.Str

/-! ## C26 -/

theorem wr_cases (c : Cells) (i : Nat) (b : Byte) :
    wr c i b = .ub ∨ ∃ c', wr c i b = .ok c' ∧ c'.length = c.length := by
  rw [wr]
  split
  · exact .inr ⟨_, rfl, by simp⟩
  · exact .inl rfl

theorem copy_cases (src : List Byte) (n : Nat) : ∀ (c : Cells) (i j : Nat),
    copy src c i j n = .ub ∨ ∃ c', copy src c i j n = .ok c' ∧ c'.length = c.length := by
  induction n with
  | zero => intro c i j; exact .inr ⟨c, rfl, rfl⟩
  | succ n ih =>
    intro c i j
    rw [copy]
    have hb : cstr src i = .ub ∨ ∃ b, cstr src i = .ok b := by
      rw [cstr]
      split
      · exact .inr ⟨_, rfl⟩
      · split
        · exact .inr ⟨_, rfl⟩
        · exact .inl rfl
    rcases hb with e | ⟨b, e⟩
    · rw [e]; exact .inl rfl
    · rw [e, Res.bind_ok]
      rcases wr_cases c j b with e | ⟨c1, e, hl⟩
      · rw [e]; exact .inl rfl
      · rw [e, Res.bind_ok, ← hl]
        exact ih c1 (i + 1) (j + 1)

/-- **C26**: with `offset + len` inside the string the result is the string with these `len` characters
replaced; the allocation is filled exactly. -/
theorem C26_replace_at_offset (str new : List Byte) (offset len : Nat)
    (h : offset + len ≤ str.length) (hs : str.length + new.length < 2 ^ 62) :
    replaceAtOffset str offset len new =
      .ok ((str.take offset ++ new ++ str.drop (offset + len) ++ [0]).map some) := by
  have e1 : add64 (add64 (sub64 str.length len) new.length) 1 =
      str.length - len + new.length + 1 := by
    have e0 : add64 (str.length - len) new.length = str.length - len + new.length :=
      add64_small (by omega)
    rw [sub64_le (by omega), e0, add64_small (by omega)]
  have e2 : add64 offset len = offset + len := add64_small (by omega)
  rw [replaceAtOffset, e1, e2, alloc, if_pos (by omega), Res.bind_ok]
  simp only []
  have key : ∀ c : Cells, ((copy str c 0 0 offset).bind fun c =>
      (copy new c 0 offset new.length).bind fun c =>
      (copy str c (offset + len) (offset + new.length) (str.length - (offset + len))).bind fun c =>
      wr c (offset + new.length + (str.length - (offset + len))) 0) =
      wrAll c 0 (str.take offset ++ new ++ str.drop (offset + len) ++ [0]) := by
    intro c
    rw [wrAll_append, wrAll_append, wrAll_append, copy_eq str offset c 0 0 (by omega), List.drop_zero]
    cases wrAll c 0 (str.take offset) with
    | ub => rfl
    | segv => rfl
    | ok c1 =>
      simp only [Res.bind_ok, List.length_append, List.length_take, List.length_drop, Nat.zero_add,
        Nat.min_eq_left (show offset ≤ str.length by omega)]
      rw [copy_eq new _ c1 0 offset (by omega), List.drop_zero, List.take_length]
      cases wrAll c1 offset new with
      | ub => rfl
      | segv => rfl
      | ok c2 =>
        simp only [Res.bind_ok]
        rw [copy_eq str _ c2 _ _ (by omega), List.take_of_length_le (by simp)]
        cases wrAll c2 (offset + new.length) (str.drop (offset + len)) with
        | ub => rfl
        | segv => rfl
        | ok c3 => simp only [Res.bind_ok]; rw [wr_eq]
  rw [key, wrAll_fresh _ _ (by simp)]
  have hl : (str.take offset ++ new ++ str.drop (offset + len) ++ [0]).length =
      str.length - len + new.length + 1 := by simp; omega
  rw [if_pos (by omega), hl]
  simp

/-- **C26**: the condition is necessary: otherwise the function writes outside its allocation (or reads
outside `str`, or cannot allocate) -/
theorem C26_out_of_range (str new : List Byte) (offset len : Nat)
    (h : str.length < offset + len) (hs : str.length + new.length < 2 ^ 62)
    (ho : offset < 2 ^ 62) (hl : len < 2 ^ 62) :
    replaceAtOffset str offset len new = .ub := by
  rw [replaceAtOffset]
  generalize ha : add64 (add64 (sub64 str.length len) new.length) 1 = a
  have hsmall : 2 ^ 63 ≤ a ∨ a ≤ offset + new.length := by
    subst ha
    unfold add64 sub64
    split <;> omega
  rw [alloc]
  split
  · rename_i hlt
    have hle : a ≤ offset + new.length := by omega
    rw [Res.bind_ok]
    rcases copy_cases str offset (List.replicate a none) 0 0 with e | ⟨c1, e, h1⟩
    · rw [e]; rfl
    · rw [e, Res.bind_ok]
      rcases copy_cases new new.length c1 0 offset with e | ⟨c2, e, h2⟩
      · rw [e]; rfl
      · rw [e, Res.bind_ok]
        simp only []
        rcases copy_cases str (str.length - add64 offset len) c2 (add64 offset len)
          (offset + new.length) with e | ⟨c3, e, h3⟩
        · rw [e]; rfl
        · rw [e, Res.bind_ok, wr, if_neg]
          rw [h3, h2, h1, List.length_replicate]
          omega
  · rfl

example : (1 : Nat) + 2 ≤ [97, 98, 99, 100].length ∧ [97, 98, 99, 100].length + [120].length < 2 ^ 62 := by
  decide

example : [97].length < 1 + 1 ∧ (1 : Nat) < 2 ^ 62 := by decide

/-! ## C27 -/

/-- `t` is `s` with the left-to-right, non-overlapping occurrences of `old` replaced by `new` -/
inductive Repl (old new : List Byte) : List Byte → List Byte → Prop
  | nil : Repl old new [] []
  | hit {s t} : Repl old new s t → Repl old new (old ++ s) (new ++ t)
  | miss {c s t} : ¬ old <+: c :: s → Repl old new s t → Repl old new (c :: s) (c :: t)

theorem repl_exists (old new : List Byte) (ho : old ≠ []) (n : Nat) : ∀ s : List Byte, s.length ≤ n →
    ∃ t, Repl old new s t := by
  induction n with
  | zero => intro s h; rw [List.length_eq_zero_iff.1 (by omega : s.length = 0)]; exact ⟨_, .nil⟩
  | succ n ih =>
    intro s h
    by_cases hp : old <+: s
    · obtain ⟨u, rfl⟩ := hp
      have : 0 < old.length := List.length_pos_iff.2 ho
      obtain ⟨t, ht⟩ := ih u (by simp at h; omega)
      exact ⟨_, .hit ht⟩
    · cases s with
      | nil => exact ⟨_, .nil⟩
      | cons c s =>
        obtain ⟨t, ht⟩ := ih s (by simp at h; omega)
        exact ⟨_, .miss hp ht⟩

/-- the result of replacing is unique, so `Repl` is a specification -/
theorem repl_unique {old new : List Byte} (ho : old ≠ []) {s t t' : List Byte} (h : Repl old new s t)
    (h' : Repl old new s t') : t = t' := by
  induction h generalizing t' with
  | nil =>
    generalize hs : ([] : List Byte) = s at h'
    cases h' with
    | nil => rfl
    | hit _ => simp at hs; exact absurd hs.1 ho
    | miss _ _ => simp at hs
  | @hit s t hst ih =>
    generalize hu : old ++ s = u at h'
    cases h' with
    | nil => simp at hu; exact absurd hu.1 ho
    | @hit s2 t2 h2 =>
      have : s = s2 := List.append_cancel_left hu
      subst this
      rw [ih h2]
    | @miss c s2 t2 hn h2 => exact absurd ⟨s, hu⟩ hn
  | @miss c s t hn hst ih =>
    generalize hu : c :: s = u at h'
    cases h' with
    | nil => simp at hu
    | @hit s2 t2 h2 => exact absurd ⟨s2, hu.symm⟩ hn
    | @miss c2 s2 t2 hn2 h2 =>
      simp only [List.cons.injEq] at hu
      obtain ⟨rfl, rfl⟩ := hu
      rw [ih h2]

/-- the number of replacements and the lengths -/
theorem repl_count {old new s t : List Byte} (ho : old ≠ []) (h : Repl old new s t) :
    ∃ k, t.length + k * old.length = s.length + k * new.length ∧ k * old.length ≤ s.length ∧
      (k = 0 ↔ ¬ old <:+: s) := by
  induction h with
  | nil => exact ⟨0, by simp, by simp, by simp [ho]⟩
  | @hit s t hst ih =>
    obtain ⟨k, h1, h2, -⟩ := ih
    refine ⟨k + 1, ?_, ?_, ?_⟩
    · simp only [List.length_append, Nat.add_mul, Nat.one_mul]; omega
    · simp only [List.length_append, Nat.add_mul, Nat.one_mul]; omega
    · simp only [Nat.add_one_ne_zero, false_iff, not_not]
      exact (List.prefix_append old s).isInfix
  | @miss c s t hn hst ih =>
    obtain ⟨k, h1, h2, h3⟩ := ih
    refine ⟨k, by simp only [List.length_cons]; omega, by simp only [List.length_cons]; omega, ?_⟩
    rw [h3, List.infix_cons_iff]
    simp [hn]

theorem bump_ok {i k : Nat} (h : i + k < 2 ^ 31) : bump i k = .ok (i + k) := by rw [bump, if_pos h]

theorem replaceAllLoop_eq (str old new : List Byte) (ho : old ≠ []) (hs : str.length < 2 ^ 31)
    (fuel : Nat) : ∀ (c : Cells) (src dest : Nat) (t : List Byte), src ≤ str.length →
    str.length - src < fuel → Repl old new (str.drop src) t → dest + t.length < 2 ^ 31 →
    replaceAllLoop str old new fuel c src dest = (wrAll c dest (t ++ [0])).map some := by
  induction fuel with
  | zero => intro c src dest t _ h; omega
  | succ fuel ih =>
    intro c src dest t hsrc hf hr hd
    rw [replaceAllLoop]
    by_cases hl : src < str.length
    · rw [if_pos hl]
      generalize hu : str.drop src = u at hr
      cases hr with
      | nil =>
        have := congrArg List.length hu
        simp at this; omega
      | @hit s t hst =>
        have hlen := congrArg List.length hu
        simp only [List.length_drop, List.length_append] at hlen
        have hop : 0 < old.length := List.length_pos_iff.2 ho
        rw [if_pos (by rw [List.isPrefixOf_iff_prefix]; exact List.prefix_append old s)]
        rw [copy_eq new _ c 0 dest (by omega), List.drop_zero, List.take_length]
        simp only [List.length_append] at hd
        rw [List.append_assoc, wrAll_append]
        cases wrAll c dest new with
        | ub => rfl
        | segv => rfl
        | ok c1 =>
          simp only [Res.bind_ok]
          rw [bump_ok (by omega), Res.bind_ok, bump_ok (by omega), Res.bind_ok]
          refine ih c1 _ _ t (by omega) (by omega) ?_ (by omega)
          have : str.drop (src + old.length) = s := by
            rw [← List.drop_drop, hu, List.drop_left]
          rw [this]; exact hst
      | @miss b s t hn hst =>
        have hhead : str.drop src = str[src] :: str.drop (src + 1) := List.drop_eq_getElem_cons hl
        rw [hu] at hhead
        simp only [List.cons.injEq] at hhead
        obtain ⟨rfl, rfl⟩ := hhead
        rw [if_neg (by rw [List.isPrefixOf_iff_prefix]; exact hn)]
        have hb : cstr str src = .ok str[src] := by simp [cstr, hl]
        simp only [List.length_cons] at hd
        rw [hb, Res.bind_ok, List.cons_append, wrAll]
        cases wr c dest str[src] with
        | ub => rfl
        | segv => rfl
        | ok c1 =>
          simp only [Res.bind_ok]
          rw [bump_ok (by omega), Res.bind_ok, bump_ok (by omega), Res.bind_ok]
          exact ih c1 _ _ t (by omega) (by omega) hst (by omega)
    · rw [if_neg hl]
      have : str.drop src = [] := List.drop_eq_nil_of_le (by omega)
      rw [this] at hr
      have ht : t = [] := repl_unique ho hr .nil
      subst ht
      rw [List.nil_append, wr_eq]

/-- when the result with its terminator fits in the allocation -/
theorem fits_iff {old new s t : List Byte} (ho : old ≠ []) (h : Repl old new s t) :
    t.length < s.length * (new.length / old.length + 1) ↔
      s ≠ [] ∧ (old.length ≤ new.length ∨ old <:+: s) := by
  obtain ⟨k, h1, h2, h3⟩ := repl_count ho h
  have hop : 0 < old.length := List.length_pos_iff.2 ho
  rw [← List.length_pos_iff]
  generalize old.length = o at *
  generalize new.length = n at *
  generalize s.length = L at *
  generalize t.length = T at *
  have hinf : (old <:+: s) ↔ 0 < k := by
    rw [Nat.pos_iff_ne_zero, Ne, h3, not_not]
  rw [hinf]
  by_cases hon : o ≤ n
  · simp only [hon, true_or, and_true]
    constructor
    · intro h
      rcases Nat.eq_zero_or_pos L with h0 | h0
      · rw [h0, Nat.zero_mul] at h; omega
      · exact h0
    · intro hL
      have hq : 1 ≤ n / o := (Nat.one_le_div_iff hop).2 hon
      generalize hqq : n / o = q at *
      generalize hrr : n % o = r
      have hn : n = o * q + r := by rw [← hqq, ← hrr]; exact (Nat.div_add_mod n o).symm
      have hr : r < o := by rw [← hrr]; exact Nat.mod_lt _ hop
      subst hn
      -- T + k o = L + k (o q + r),  k o ≤ L
      have e1 : k * (o * q + r) = k * o * q + k * r := by ring
      have e2 : L * (q + 1) = L * q + L := by ring
      have e3 : k * o * q ≤ L * q := Nat.mul_le_mul_right q h2
      rcases Nat.eq_zero_or_pos k with hk | hk
      · subst hk
        have : 0 < L * q := Nat.mul_pos hL (by omega)
        simp at h1; omega
      · have e4 : k * r < k * o := Nat.mul_lt_mul_of_pos_left hr hk
        omega
  · have hq : n / o = 0 := Nat.div_eq_of_lt (by omega)
    simp only [hon, false_or, hq, Nat.zero_add, Nat.mul_one]
    constructor
    · intro h
      refine ⟨by omega, ?_⟩
      rcases Nat.eq_zero_or_pos k with hk | hk
      · subst hk; simp at h1; omega
      · exact hk
    · rintro ⟨-, hk⟩
      have e4 : k * n < k * o := Nat.mul_lt_mul_of_pos_left (by omega) hk
      omega

/-- **C27**: `str_replace_all` with a non-empty `old` (and texts whose lengths fit an `int`): if the
string is not empty and either `new` is at least as long as `old` or `old` does occur, the result is the
string with all non-overlapping occurrences replaced, NUL terminated, inside the allocation;
otherwise the terminator is written outside the allocation. -/
theorem C27_replace_all (str old new t : List Byte) (ho : old ≠ []) (hr : Repl old new str t)
    (hs : str.length < 2 ^ 31) (ht : t.length < 2 ^ 31) (hn : new.length < 2 ^ 31) :
    ((str ≠ [] ∧ (old.length ≤ new.length ∨ old <:+: str)) →
      ∃ c rest, replaceAll (str.length + 1) str old new = .ok (some c) ∧
        c = (t ++ [0]).map some ++ rest) ∧
    (¬ (str ≠ [] ∧ (old.length ≤ new.length ∨ old <:+: str)) →
      replaceAll (str.length + 1) str old new = .ub) := by
  have hop : old.length ≠ 0 := by
    have := List.length_pos_iff.2 ho; omega
  have hsz : str.length * (new.length / old.length + 1) < 2 ^ 63 := by
    have h1 : new.length / old.length + 1 ≤ 2 ^ 31 := by
      have := Nat.div_le_self new.length old.length; omega
    have h2 : str.length * (new.length / old.length + 1) ≤ str.length * 2 ^ 31 :=
      Nat.mul_le_mul_left _ h1
    omega
  have key : replaceAll (str.length + 1) str old new =
      if t.length < str.length * (new.length / old.length + 1) then
        .ok (some ((t ++ [0]).map some ++ List.replicate
          (str.length * (new.length / old.length + 1) - (t ++ [0]).length) none)) else .ub := by
    rw [replaceAll, if_neg hop, alloc, if_pos hsz, Res.bind_ok,
      replaceAllLoop_eq str old new ho hs _ _ 0 0 t (by omega) (by omega) (by rwa [List.drop_zero])
        (by omega), wrAll_fresh _ _ (by simp)]
    simp only [List.length_append, List.length_singleton, Nat.lt_iff_add_one_le]
    split <;> rfl
  rw [key]
  constructor
  · intro h
    rw [if_pos ((fits_iff ho hr).2 h)]
    exact ⟨_, _, rfl, rfl⟩
  · intro h
    rw [if_neg (fun h' => h ((fits_iff ho hr).1 h'))]

/-- "abab" with "ab" -> "xyz": fits; the relation holds -/
example : ([97, 98] : List Byte) ≠ [] ∧
    Repl [97, 98] [120, 121, 122] [97, 98, 97, 98] [120, 121, 122, 120, 121, 122] := by
  exact ⟨by decide, .hit (s := [97, 98]) (.hit (s := []) .nil)⟩

/-- **C27** is false: replacing "bb" by "c" in "a" overruns the one byte that is allocated -/
theorem C27_memory_safety_false : replaceAll 2 [97] [98, 98] [99] = .ub := by rfl

/-- an empty `old` is a division by zero -/
theorem C27_empty_old (fuel : Nat) (str new : List Byte) : replaceAll fuel str [] new = .ub := rfl

/-! ## C55 -/

/-- `t` is `s` with occurrences of needles replaced: at each place the first pair of the list whose
needle occurs is used -/
inductive ReplMany (ps : List (List Byte × List Byte)) : List Byte → List Byte → Prop
  | nil : ReplMany ps [] []
  | hit {pre p post s t} : ps = pre ++ p :: post → (∀ q ∈ pre, ¬ q.1 <+: p.1 ++ s) →
      ReplMany ps s t → ReplMany ps (p.1 ++ s) (p.2 ++ t)
  | miss {c s t} : (∀ p ∈ ps, ¬ p.1 <+: c :: s) → ReplMany ps s t → ReplMany ps (c :: s) (c :: t)

theorem findPair_pred (p : List Byte × List Byte) (s : List Byte) :
    (decide (p.1.length ≤ s.length) && p.1.isPrefixOf s) = true ↔ p.1 <+: s := by
  rw [Bool.and_eq_true, decide_eq_true_eq, List.isPrefixOf_iff_prefix]
  exact ⟨fun h => h.2, fun h => ⟨h.length_le, h⟩⟩

theorem extLoop_eq (str : List Byte) (ps : List (List Byte × List Byte)) (ho : ∀ p ∈ ps, p.1 ≠ [])
    (fuel : Nat) : ∀ (c : Cells) (src dest : Nat) (t : List Byte), src ≤ str.length →
    str.length - src < fuel → ReplMany ps (str.drop src) t →
    extLoop str ps fuel c src dest =
      (wrAll c dest (t ++ [0])).map (fun c => some (c, dest + t.length)) := by
  induction fuel with
  | zero => intro c src dest t _ h; omega
  | succ fuel ih =>
    intro c src dest t hsrc hf hr
    rw [extLoop]
    by_cases hl : src < str.length
    · rw [if_pos hl]
      generalize hu : str.drop src = u at hr
      cases hr with
      | nil =>
        have := congrArg List.length hu
        simp at this; omega
      | @hit pre p post s t hps hpre hst =>
        have hlen := congrArg List.length hu
        simp only [List.length_drop, List.length_append] at hlen
        have hop : 0 < p.1.length := List.length_pos_iff.2 (ho p (by rw [hps]; simp))
        have hfind : findPair ps (p.1 ++ s) = some p := by
          have hnone : findPair pre (p.1 ++ s) = none := by
            rw [findPair, List.find?_eq_none]
            intro q hq
            rw [findPair_pred]
            exact hpre q hq
          rw [findPair] at hnone
          rw [findPair, hps, List.find?_append, hnone, Option.none_or]
          exact List.find?_cons_of_pos (l := post)
            ((findPair_pred p (p.1 ++ s)).2 (List.prefix_append _ _))
        rw [hfind]
        simp only []
        rw [copy_eq p.2 _ c 0 dest (by omega), List.drop_zero, List.take_length,
          List.append_assoc, wrAll_append]
        cases wrAll c dest p.2 with
        | ub => rfl
        | segv => rfl
        | ok c1 =>
          simp only [Res.bind_ok, List.length_append]
          rw [ih c1 _ _ t (by omega) (by omega), Nat.add_assoc]
          have : str.drop (src + p.1.length) = s := by
            rw [← List.drop_drop, hu, List.drop_left]
          rw [this]; exact hst
      | @miss b s t hn hst =>
        have hhead : str.drop src = str[src] :: str.drop (src + 1) := List.drop_eq_getElem_cons hl
        rw [hu] at hhead
        simp only [List.cons.injEq] at hhead
        obtain ⟨rfl, rfl⟩ := hhead
        have hfind : findPair ps (str[src] :: str.drop (src + 1)) = none := by
          rw [findPair, List.find?_eq_none]
          intro q hq
          rw [findPair_pred]
          exact hn q hq
        rw [hfind]
        simp only []
        have hb : cstr str src = .ok str[src] := by simp [cstr, hl]
        rw [hb, Res.bind_ok, List.cons_append, wrAll]
        cases wr c dest str[src] with
        | ub => rfl
        | segv => rfl
        | ok c1 =>
          simp only [Res.bind_ok, List.length_cons]
          rw [ih c1 _ _ t (by omega) (by omega) hst]
          congr 1
          funext c
          congr 2
          omega
    · rw [if_neg hl]
      have hnil : str.drop src = [] := List.drop_eq_nil_of_le (by omega)
      rw [hnil] at hr
      have ht : t = [] := by
        generalize hs : ([] : List Byte) = s at hr
        cases hr with
        | nil => rfl
        | @hit pre p post s t hps _ _ =>
          simp at hs
          exact absurd hs.1 (ho p (by rw [hps]; simp))
        | miss _ _ => simp at hs
      subst ht
      rw [List.nil_append, wr_eq]
      simp

/-- the shortest needle, at most 1000; the longest replacement -/
def shortest (ps : List (List Byte × List Byte)) : Nat := (ps.map (·.1.length)).foldr min 1000
def longest (ps : List (List Byte × List Byte)) : Nat := (ps.map (·.2.length)).foldr max 0

theorem minOld_eq (ps : List (List Byte × List Byte)) : minOld ps = shortest ps := by
  have key : ∀ (ps : List (List Byte × List Byte)) (m : Nat), m ≤ 1000 →
      ps.foldl (fun m p => if p.1.length < m then p.1.length else m) m = min m (shortest ps) := by
    intro ps
    induction ps with
    | nil => intro m h; simp [shortest]; omega
    | cons p ps ih =>
      intro m h
      simp only [List.foldl_cons]
      rw [ih _ (by split <;> omega)]
      have : shortest (p :: ps) = min p.1.length (shortest ps) := rfl
      rw [this]
      split <;> omega
  rw [minOld, key ps 1000 (by omega)]
  have : ∀ ps, shortest ps ≤ 1000 := by
    intro ps
    induction ps with
    | nil => simp [shortest]
    | cons p ps ih =>
      have : shortest (p :: ps) = min p.1.length (shortest ps) := rfl
      omega
  have := this ps
  omega

theorem maxNew_eq (ps : List (List Byte × List Byte)) : maxNew ps = longest ps := by
  have key : ∀ (ps : List (List Byte × List Byte)) (m : Nat),
      ps.foldl (fun m p => if m < p.2.length then p.2.length else m) m = max m (longest ps) := by
    intro ps
    induction ps with
    | nil => intro m; simp [longest]
    | cons p ps ih =>
      intro m
      simp only [List.foldl_cons]
      rw [ih]
      have : longest (p :: ps) = max p.2.length (longest ps) := rfl
      rw [this]
      split <;> omega
  rw [maxNew, key ps 0]
  omega

theorem shortest_le (ps : List (List Byte × List Byte)) : ∀ p ∈ ps, shortest ps ≤ p.1.length := by
  induction ps with
  | nil => simp
  | cons q ps ih =>
    intro p hp
    have : shortest (q :: ps) = min q.1.length (shortest ps) := rfl
    rcases List.mem_cons.1 hp with rfl | hp
    · omega
    · have := ih p hp; omega

theorem longest_ge (ps : List (List Byte × List Byte)) : ∀ p ∈ ps, p.2.length ≤ longest ps := by
  induction ps with
  | nil => simp
  | cons q ps ih =>
    intro p hp
    have : longest (q :: ps) = max q.2.length (longest ps) := rfl
    rcases List.mem_cons.1 hp with rfl | hp
    · omega
    · have := ih p hp; omega

/-- the number of bytes reserved for the result -/
def room (n : Nat) (ps : List (List Byte × List Byte)) : Nat :=
  n / min (longest ps) (shortest ps) * max (longest ps) (shortest ps)

/-- **C55**, exactly when `str_replace_all_ext` works: no needle is empty, some replacement is not
empty, and the result fits in the estimate.  Then the result is right and `*out_size` is its length;
otherwise the behaviour is undefined. -/
theorem C55_replace_all_ext (str t : List Byte) (ps : List (List Byte × List Byte))
    (hr : ReplMany ps str t) (hroom : room str.length ps < 2 ^ 62) :
    ((∀ p ∈ ps, p.1 ≠ []) → (∃ p ∈ ps, p.2 ≠ []) → t.length ≤ room str.length ps →
      ∃ c rest, replaceAllExt (str.length + 1) str ps = .ok (some (c, t.length)) ∧
        c = (t ++ [0]).map some ++ rest) ∧
    ((∃ p ∈ ps, p.1 = []) ∨ (∀ p ∈ ps, p.2 = []) ∨ room str.length ps < t.length →
      replaceAllExt (str.length + 1) str ps = .ub) := by
  have hz : min (longest ps) (shortest ps) = 0 ↔ (∃ p ∈ ps, p.1 = []) ∨ (∀ p ∈ ps, p.2 = []) := by
    have h1 : shortest ps = 0 ↔ ∃ p ∈ ps, p.1 = [] := by
      clear hr hroom
      induction ps with
      | nil => simp [shortest]
      | cons q ps ih =>
        have : shortest (q :: ps) = min q.1.length (shortest ps) := rfl
        rw [this]
        simp only [List.mem_cons, exists_eq_or_imp]
        rw [← ih, ← List.length_eq_zero_iff]
        omega
    have h2 : longest ps = 0 ↔ ∀ p ∈ ps, p.2 = [] := by
      clear hr hroom h1
      induction ps with
      | nil => simp [longest]
      | cons q ps ih =>
        have : longest (q :: ps) = max q.2.length (longest ps) := rfl
        rw [this]
        simp only [List.mem_cons, forall_eq_or_imp]
        rw [← ih, ← List.length_eq_zero_iff]
        omega
    rw [← h1, ← h2]
    omega
  have key : (∀ p ∈ ps, p.1 ≠ []) → (∃ p ∈ ps, p.2 ≠ []) →
      replaceAllExt (str.length + 1) str ps = if t.length ≤ room str.length ps then
        .ok (some ((t ++ [0]).map some ++ List.replicate
          (room str.length ps + 1 - (t ++ [0]).length) none, t.length)) else .ub := by
    intro h1 h2
    have hz' : ¬ min (longest ps) (shortest ps) = 0 := by
      rw [hz]
      rintro (⟨p, hp, h⟩ | h)
      · exact h1 p hp h
      · obtain ⟨p, hp, h3⟩ := h2
        exact h3 (h p hp)
    rw [replaceAllExt]
    simp only [minOld_eq, maxNew_eq]
    rw [if_neg hz']
    show (alloc (room str.length ps + 1)).bind _ = _
    rw [alloc, if_pos (by omega), Res.bind_ok, extLoop_eq str ps h1 _ _ 0 0 t (by omega) (by omega)
      (by rwa [List.drop_zero]), wrAll_fresh _ _ (by simp)]
    simp only [List.length_append, List.length_singleton, Nat.add_le_add_iff_right, Nat.zero_add]
    split <;> rfl
  constructor
  · intro h1 h2 h3
    rw [key h1 h2, if_pos h3]
    exact ⟨_, _, rfl, rfl⟩
  · intro h
    by_cases hz0 : min (longest ps) (shortest ps) = 0
    · rw [replaceAllExt]
      simp only [minOld_eq, maxNew_eq, hz0, if_true]
    · have h3 : room str.length ps < t.length := by
        rcases h with h | h | h
        · exact absurd (hz.2 (.inl h)) hz0
        · exact absurd (hz.2 (.inr h)) hz0
        · exact h
      rw [hz, not_or] at hz0
      rw [key (fun p hp h => hz0.1 ⟨p, hp, h⟩) (by
        by_contra hc
        exact hz0.2 (fun p hp => by
          by_contra h; exact hc ⟨p, hp, h⟩)), if_neg (by omega)]

/-- a sufficient condition on the pairs alone: the shortest needle or the longest replacement is one
byte long -/
theorem C55_safe (str t : List Byte) (ps : List (List Byte × List Byte)) (hr : ReplMany ps str t)
    (h1 : min (longest ps) (shortest ps) = 1) : t.length ≤ room str.length ps := by
  rw [room, h1, Nat.div_one]
  generalize hM : max (longest ps) (shortest ps) = M
  have hM1 : 1 ≤ M := by omega
  have hnew : ∀ p ∈ ps, p.2.length ≤ M := fun p hp => by have := longest_ge ps p hp; omega
  have hold : ∀ p ∈ ps, 1 ≤ p.1.length := fun p hp => by have := shortest_le ps p hp; omega
  clear h1 hM
  induction hr with
  | nil => simp
  | @hit pre p post s t hps _ hst ih =>
    have hp : p ∈ ps := by rw [hps]; simp
    have e1 := hnew p hp
    have e2 : 1 * M ≤ p.1.length * M := Nat.mul_le_mul_right M (hold p hp)
    simp only [List.length_append, Nat.add_mul]
    omega
  | miss _ _ ih =>
    simp only [List.length_cons, Nat.add_mul]
    omega

example : min (longest [([97], [98, 98]), ([99, 99], [])]) (shortest [([97], [98, 98]), ([99, 99], [])]) = 1 ∧
    ReplMany [([97], [98, 98]), ([99, 99], [])] [97, 99, 99, 100] [98, 98, 100] := by
  refine ⟨by decide, ?_⟩
  refine .hit (p := ([97], [98, 98])) (pre := []) (post := [([99, 99], [])]) rfl (by simp) ?_
  refine .hit (p := ([99, 99], [])) (pre := [([97], [98, 98])]) (post := []) (s := [100]) rfl
    (by decide) ?_
  exact .miss (by decide) .nil

/-- **C55** is false: "x" with the pair "ab" -> "cde" -/
theorem C55_memory_safety_false : replaceAllExt 2 [120] [([97, 98], [99, 100, 101])] = .ub := by rfl

/-- and deleting text (every replacement empty) is a division by zero -/
theorem C55_delete_false (fuel : Nat) (str : List Byte) (ps : List (List Byte × List Byte))
    (h : ∀ p ∈ ps, p.2 = []) : replaceAllExt fuel str ps = .ub := by
  have : longest ps = 0 := by
    induction ps with
    | nil => rfl
    | cons q ps ih =>
      have e : longest (q :: ps) = max q.2.length (longest ps) := rfl
      rw [e, ih (fun p hp => h p (by simp [hp])), h q (by simp)]
      rfl
  rw [replaceAllExt]
  simp only [minOld_eq, maxNew_eq, this, Nat.zero_min, if_true]

example : ∀ p ∈ ([([97], [])] : List (List Byte × List Byte)), p.2 = [] := by simp

end Verif.Str.Props
