import Verif.Json.LexemeProps

/-!
# The tokenizer and the parser see only what they read

If reading stays within the memory, then more memory after it changes nothing.
-/

namespace Verif.Json

/-- more memory after the position -/
def Tz.more (t : Tz) (e : List Byte) : Tz := { t with mem := t.mem ++ e }

theorem map_eq_ok {α β : Type} {f : α → β} {x : Res α} {b : β} : x.map f = .ok b ↔ ∃ a, x = .ok a ∧ f a = b := by
  cases x <;> simp [Res.map]

theorem check_more : ∀ {p m : List Byte} {r : Option (List Byte)}, check p m = .ok r → ∀ e,
    check p (m ++ e) = .ok (r.map (· ++ e)) := by
  intro p
  induction p with
  | nil => intro m r h e; cases h; rfl
  | cons p ps ih =>
    intro m r h e
    cases m with
    | nil => cases h
    | cons c m =>
      rw [check] at h
      rw [List.cons_append, check]
      split at h
      · next hc => rw [if_pos hc]; exact ih h e
      · next hc => rw [if_neg hc]; cases h; rfl

theorem digits_more : ∀ {m : List Byte} {r : List Byte × List Byte}, digits m = .ok r → ∀ e,
    digits (m ++ e) = .ok (r.1, r.2 ++ e) := by
  intro m
  induction m with
  | nil => intro r h; cases h
  | cons c m ih =>
    intro r h e
    rw [digits] at h
    rw [List.cons_append, digits]
    split at h
    · next hc =>
      obtain ⟨a, ha, rfl⟩ := map_eq_ok.1 h
      rw [if_pos hc, ih ha e]; rfl
    · next hc => rw [if_neg hc]; cases h; rfl

theorem peek_more {m : List Byte} {c : Byte} (h : peek m = .ok c) (e : List Byte) : peek (m ++ e) = .ok c := by
  cases m with
  | nil => cases h
  | cons d m => exact h

theorem peek_ne {m : List Byte} {c : Byte} (h : peek m = .ok c) : ∃ m', m = c :: m' := by
  cases m with
  | nil => cases h
  | cons d m => cases h; exact ⟨m, rfl⟩

theorem fraction_more {m : List Byte} {r : Option (List Byte × List Byte)} (h : fraction m = .ok r) (e : List Byte) :
    fraction (m ++ e) = .ok (r.map fun r => (r.1, r.2 ++ e)) := by
  obtain ⟨c, hc, h⟩ := Res.bind_eq_ok.1 h
  obtain ⟨m', rfl⟩ := peek_ne hc
  rw [fraction, peek_more hc, Res.bind_ok]
  split at h
  · next h1 =>
    rw [if_pos h1]
    obtain ⟨a, ha, rfl⟩ := map_eq_ok.1 h
    have := digits_more ha e
    simp only [List.drop_succ_cons, List.drop_zero, List.cons_append] at this ⊢
    rw [this, Res.map_ok']
    split <;> rfl
  · next h1 => rw [if_neg h1]; cases h; rfl

theorem exponent_more {m : List Byte} {r : Option (List Byte × List Byte)} (h : exponent m = .ok r) (e : List Byte) :
    exponent (m ++ e) = .ok (r.map fun r => (r.1, r.2 ++ e)) := by
  obtain ⟨c, hc, h⟩ := Res.bind_eq_ok.1 h
  obtain ⟨m', rfl⟩ := peek_ne hc
  rw [exponent, peek_more hc, Res.bind_ok]
  obtain ⟨a, ha, rfl⟩ := map_eq_ok.1 h
  have := digits_more ha e
  rw [← List.drop_append_of_le_length (by split <;> simp)] at this
  simp only [this, Res.map_ok']
  split <;> rfl

theorem number_more [Libc] {m : List Byte} {r : Option (Atom × List Byte)} (h : parseNumber m = .ok r) (e : List Byte) :
    parseNumber (m ++ e) = .ok (r.map fun r => (r.1, r.2 ++ e)) := by
  obtain ⟨c, hc, h⟩ := Res.bind_eq_ok.1 h
  obtain ⟨m', rfl⟩ := peek_ne hc
  rw [parseNumber, peek_more hc, Res.bind_ok]
  simp only at h ⊢
  obtain ⟨⟨ds, m1⟩, hd, h⟩ := Res.bind_eq_ok.1 h
  have e1 : (if (c == 45) = true then (c :: m' ++ e).drop 1 else c :: m' ++ e) =
      (if (c == 45) = true then (c :: m').drop 1 else c :: m') ++ e := by split <;> simp
  rw [e1, digits_more hd e, Res.bind_ok]
  simp only at h ⊢
  split at h
  · next h1 => rw [if_pos h1]; cases h; rfl
  · next h1 =>
    rw [if_neg h1]
    obtain ⟨q, hq, h⟩ := Res.bind_eq_ok.1 h
    rw [fraction_more hq e, Res.bind_ok]
    cases q with
    | none => cases h; rfl
    | some q =>
      obtain ⟨fr, m2⟩ := q
      simp only [Option.map_some] at h ⊢
      obtain ⟨c2, hc2, h⟩ := Res.bind_eq_ok.1 h
      obtain ⟨m3, rfl⟩ := peek_ne hc2
      rw [peek_more hc2, Res.bind_ok]
      split at h
      · next h2 =>
        rw [if_pos h2]
        obtain ⟨a, ha, h⟩ := map_eq_ok.1 h
        have := exponent_more ha e
        simp only [List.drop_succ_cons, List.drop_zero, List.cons_append] at this ⊢
        rw [this, Res.map_ok']
        cases a with
        | none => cases h; rfl
        | some a => cases h; rfl
      · next h2 =>
        rw [if_neg h2]
        split at h
        · next h3 =>
          rw [if_pos h3]
          split at h
          · next h4 => rw [if_pos h4]; cases h; rfl
          · next h4 => rw [if_neg h4]; cases h; rfl
        · next h3 => rw [if_neg h3]; cases h; rfl

theorem scan_more (n : Nat) : ∀ {m : List Byte} {r : Option (List Byte × List Byte)}, m.length ≤ n → scanStr m = .ok r → ∀ e,
    scanStr (m ++ e) = .ok (r.map fun r => (r.1, r.2 ++ e)) := by
  induction n with
  | zero =>
    intro m r hm h
    cases m with
    | nil => rw [scanStr] at h; cases h
    | cons c m => simp at hm
  | succ n ih =>
    intro m r hm h e
    cases m with
    | nil => rw [scanStr] at h; cases h
    | cons c m =>
      simp only [List.length_cons] at hm
      rw [scanStr.eq_def] at h
      rw [List.cons_append, scanStr.eq_def]
      simp only at h ⊢
      split at h
      · next h1 => rw [if_pos h1]; cases h; rfl
      · next h1 =>
        rw [if_neg h1]
        split at h
        · next h2 => rw [if_pos h2]; cases h; rfl
        · next h2 =>
          rw [if_neg h2]
          split at h
          · next h3 =>
            rw [if_pos h3]
            cases m with
            | nil => cases h
            | cons d m =>
              simp only [List.cons_append, List.length_cons] at h hm ⊢
              split at h
              · next h4 =>
                rw [if_pos h4]
                obtain ⟨a, ha, rfl⟩ := map_eq_ok.1 h
                rw [ih (by omega) ha e]
                cases a <;> rfl
              · next h4 => rw [if_neg h4]; cases h; rfl
          · next h3 =>
            rw [if_neg h3]
            obtain ⟨a, ha, rfl⟩ := map_eq_ok.1 h
            rw [ih (by omega) ha e]
            cases a <;> rfl

theorem string_more {m : List Byte} {r : Option (List Byte × List Byte)} (h : parseString m = .ok r) (e : List Byte) :
    parseString (m ++ e) = .ok (r.map fun r => (r.1, r.2 ++ e)) := by
  obtain ⟨q, hq, h⟩ := Res.bind_eq_ok.1 h
  rw [parseString, scan_more _ (Nat.le_refl _) hq e, Res.bind_ok]
  cases q with
  | none => cases h; rfl
  | some q =>
    obtain ⟨b, m1⟩ := q
    simp only [Option.map_some] at h ⊢
    obtain ⟨u, hu, h⟩ := Res.bind_eq_ok.1 h
    rw [hu, Res.bind_ok]
    cases u with
    | err => cases h; rfl
    | same =>
      simp only at h ⊢
      split at h
      · next h1 => rw [if_pos h1]; cases h; rfl
      · cases h
    | fresh o =>
      simp only at h ⊢
      obtain ⟨a, ha, rfl⟩ := map_eq_ok.1 h
      rw [ha]; rfl

theorem comment_more : ∀ {n : Nat} {m : List Byte} {r : Tok}, comment n m = .ok r → ∀ e, comment n (m ++ e) = .ok r := by
  intro n
  induction n with
  | zero => intro m r h e; exact h
  | succ n ih =>
    intro m r h e
    cases m with
    | nil => cases h
    | cons c m =>
      rw [comment] at h
      rw [List.cons_append, comment]
      split at h
      · next h1 => rw [if_pos h1]; exact h
      · next h1 =>
        rw [if_neg h1]
        split at h
        · next h2 => rw [if_pos h2]; exact h
        · next h2 => rw [if_neg h2]; exact ih h e

theorem to_more (t : Tz) (m e : List Byte) : (t.more e).to (m ++ e) = (t.to m).more e := by
  simp only [Tz.to, Tz.more, List.length_append, Tz.mk.injEq, true_and, and_true]
  omega

theorem take_more {t : Tz} {x y : Res (Option (Tok × List Byte))} {r : Tok × Tz} {e : List Byte}
    (hxy : ∀ r, x = .ok r → y = .ok (r.map fun r => (r.1, r.2 ++ e))) (h : t.take x = .ok r) :
    (t.more e).take y = .ok (r.1, r.2.more e) := by
  obtain ⟨a, ha, rfl⟩ := map_eq_ok.1 h
  rw [Tz.take, hxy a ha, Res.map_ok']
  cases a with
  | none => rfl
  | some a =>
    simp only [Option.map_some]
    rw [to_more]

theorem step_more [Libc] {t : Tz} {r : Option (Tok × Tz)} (h : tokenStep t = .ok r) (e : List Byte) :
    tokenStep (t.more e) = .ok (r.map fun r => (r.1, r.2.more e)) := by
  have key : ∀ {x y : Res (Option (Tok × List Byte))} {r : Option (Tok × Tz)},
      (∀ r, x = .ok r → y = .ok (r.map fun r => (r.1, r.2 ++ e))) → (t.take x).map some = .ok r →
      ((t.more e).take y).map some = .ok (r.map fun r => (r.1, r.2.more e)) := by
    intro x y r hxy h
    obtain ⟨a, ha, rfl⟩ := map_eq_ok.1 h
    rw [take_more hxy ha]; rfl
  obtain ⟨m, l, line⟩ := t
  rw [tokenStep] at h ⊢
  by_cases h0 : l = 0
  · simp only [h0, ↓reduceIte, Tz.more] at h ⊢; cases h; rfl
  · cases m with
    | nil => simp only [h0, ↓reduceIte] at h; cases h
    | cons c m =>
      simp only [h0, ↓reduceIte] at h
      have e0 : (Tz.more ⟨c :: m, l, line⟩ e).left = l := rfl
      have e1 : (Tz.more ⟨c :: m, l, line⟩ e).mem = c :: (m ++ e) := rfl
      have e2 := to_more ⟨c :: m, l, line⟩ m e
      rw [e0, if_neg h0, e1]
      simp only [e2]
      by_cases hc : (c == 91) = true
      · rw [if_pos hc] at h ⊢; cases h; rfl
      rw [if_neg hc] at h ⊢; clear hc
      by_cases hc : (c == 123) = true
      · rw [if_pos hc] at h ⊢; cases h; rfl
      rw [if_neg hc] at h ⊢; clear hc
      by_cases hc : (c == 58) = true
      · rw [if_pos hc] at h ⊢; cases h; rfl
      rw [if_neg hc] at h ⊢; clear hc
      by_cases hc : (c == 44) = true
      · rw [if_pos hc] at h ⊢; cases h; rfl
      rw [if_neg hc] at h ⊢; clear hc
      by_cases hc : (c == 125) = true
      · rw [if_pos hc] at h ⊢; cases h; rfl
      rw [if_neg hc] at h ⊢; clear hc
      by_cases hc : (c == 93) = true
      · rw [if_pos hc] at h ⊢; cases h; rfl
      rw [if_neg hc] at h ⊢; clear hc
      by_cases hc : (c == 10 || c == 13 || c == 32 || c == 9) = true
      · rw [if_pos hc] at h ⊢; cases h; rfl
      rw [if_neg hc] at h ⊢; clear hc
      by_cases hc : (c == 34) = true
      · rw [if_pos hc] at h ⊢
        refine key (fun r hr => ?_) h
        obtain ⟨a, ha, rfl⟩ := map_eq_ok.1 hr
        rw [string_more ha e]; cases a <;> rfl
      rw [if_neg hc] at h ⊢; clear hc
      by_cases hc : (c == 116) = true
      · rw [if_pos hc] at h ⊢
        refine key (fun r hr => ?_) h
        obtain ⟨a, ha, rfl⟩ := map_eq_ok.1 hr
        rw [check_more ha e]; cases a <;> rfl
      rw [if_neg hc] at h ⊢; clear hc
      by_cases hc : (c == 110) = true
      · rw [if_pos hc] at h ⊢
        refine key (fun r hr => ?_) h
        obtain ⟨a, ha, rfl⟩ := map_eq_ok.1 hr
        rw [check_more ha e]; cases a <;> rfl
      rw [if_neg hc] at h ⊢; clear hc
      by_cases hc : (c == 102) = true
      · rw [if_pos hc] at h ⊢
        refine key (fun r hr => ?_) h
        obtain ⟨a, ha, rfl⟩ := map_eq_ok.1 hr
        rw [check_more ha e]; cases a <;> rfl
      rw [if_neg hc] at h ⊢; clear hc
      by_cases hc : (c == 45 || isDigit c) = true
      · rw [if_pos hc] at h ⊢
        refine key (fun r hr => ?_) h
        obtain ⟨a, ha, rfl⟩ := map_eq_ok.1 hr
        rw [← List.cons_append, number_more ha e]; cases a <;> rfl
      rw [if_neg hc] at h ⊢; clear hc
      by_cases hc : (c == 47) = true
      · rw [if_pos hc] at h ⊢
        obtain ⟨a, ha, h⟩ := Res.bind_eq_ok.1 h
        rw [check_more ha e, Res.bind_ok]
        cases a with
        | none => cases h; rfl
        | some a =>
          obtain ⟨b, hb, rfl⟩ := map_eq_ok.1 h
          simp only [Option.map_some]
          rw [comment_more hb e]; rfl
      rw [if_neg hc] at h ⊢; clear hc
      cases h; rfl

theorem skip_more {t : Tz} (h : t.mem ≠ []) (e : List Byte) : (t.more e).skip = t.skip.more e := by
  obtain ⟨m, l, line⟩ := t
  cases m with
  | nil => exact absurd rfl h
  | cons c m => rfl

theorem nextN_more [Libc] : ∀ {n : Nat} {t : Tz} {r : Tok × Tz}, nextTokenN n t = .ok r → ∀ (e : List Byte) (k : Nat),
    nextTokenN (n + k) (t.more e) = .ok (r.1, r.2.more e) := by
  intro n
  induction n with
  | zero =>
    intro t r h e k
    rw [nextTokenN] at h
    obtain ⟨a, ha, h⟩ := Res.bind_eq_ok.1 h
    cases a with
    | none => cases h
    | some a =>
      cases h
      rw [Nat.zero_add]
      cases k <;> rw [nextTokenN, step_more ha e] <;> rfl
  | succ n ih =>
    intro t r h e k
    rw [nextTokenN] at h
    obtain ⟨a, ha, h⟩ := Res.bind_eq_ok.1 h
    rw [show n + 1 + k = (n + k) + 1 by omega, nextTokenN, step_more ha e, Res.bind_ok]
    cases a with
    | none =>
      simp only [Option.map_none] at h ⊢
      have hm : t.mem ≠ [] := by
        intro hm
        rw [tokenStep] at ha
        by_cases h0 : t.left = 0
        · rw [if_pos h0] at ha; cases ha
        · rw [if_neg h0, hm] at ha; cases ha
      rw [skip_more hm]; exact ih h e k
    | some a => cases h; rfl

theorem next_more [Libc] {t : Tz} {r : Tok × Tz} (h : nextToken t = .ok r) (e : List Byte) :
    nextToken (t.more e) = .ok (r.1, r.2.more e) := by
  have := nextN_more h e e.length
  rw [nextToken]
  simpa [Tz.more] using this

theorem prun_more [Libc] : ∀ {n : Nat} {s : PSt} {t : Tz} {r : Option (PSt × Tz)}, prun nextToken n s t = .ok r →
    ∀ e, prun nextToken n s (t.more e) = .ok (r.map fun r => (r.1, r.2.more e)) := by
  intro n
  induction n with
  | zero =>
    intro s t r h e
    cases hg : s.goes with
    | false => rw [prun_stop hg] at h ⊢; cases h; rfl
    | true => rw [prun] at h ⊢; simp only [hg, Bool.not_true, Bool.false_eq_true, ↓reduceIte] at h ⊢; cases h; rfl
  | succ n ih =>
    intro s t r h e
    cases hg : s.goes with
    | false => rw [prun_stop hg] at h ⊢; cases h; rfl
    | true =>
      rw [prun_go hg] at h ⊢
      obtain ⟨a, ha, h⟩ := Res.bind_eq_ok.1 h
      obtain ⟨s1, h1, h⟩ := Res.bind_eq_ok.1 h
      rw [next_more ha e, Res.bind_ok, h1, Res.bind_ok]
      exact ih h e

theorem parsex_more [Libc] {n len : Nat} {mem : List Byte} {f : Bool} {r : Option (PResult × Tz)}
    (h : parsex n mem len f = .ok r) (e : List Byte) :
    parsex n (mem ++ e) len f = .ok (r.map fun r => (r.1, r.2.more e)) := by
  obtain ⟨q, hq, h⟩ := Res.bind_eq_ok.1 h
  have := prun_more hq e
  rw [parsex, parseWith, show (⟨mem ++ e, len, 0⟩ : Tz) = Tz.more ⟨mem, len, 0⟩ e from rfl, this, Res.bind_ok]
  cases q with
  | none => cases h; rfl
  | some q =>
    obtain ⟨s, t⟩ := q
    obtain ⟨a, ha, rfl⟩ := map_eq_ok.1 h
    simp only [Option.map_some, pfinish] at ha ⊢
    split at ha
    · next h1 =>
      rw [if_pos h1]
      split at ha
      · next h2 =>
        rw [if_pos h2]
        obtain ⟨⟨c, t1⟩, hc, rfl⟩ := map_eq_ok.1 ha
        rw [next_more hc e]
        simp only [Res.map_ok']
        split <;> rfl
      · next h2 => rw [if_neg h2]; cases ha; rfl
    · next h1 => rw [if_neg h1]; cases ha; rfl

end Verif.Json
