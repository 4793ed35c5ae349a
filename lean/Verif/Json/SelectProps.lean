import Verif.Json.Select
import Verif.Json.RoundTrip

/-!
# Path selection: the properties (C41, C66-C69)
-/

namespace Verif.Json

/-- a step of a path -/
inductive PStep where
  /-- `.key` -/
  | key (k : List Byte)
  /-- `[i]` -/
  | idx (i : Nat)
  /-- `[*]`, the index being an argument -/
  | arg (i : Int)

/-- how a step is written -/
def PStep.text : PStep → List Byte
  | .key k => 46 :: k
  | .idx i => 91 :: (dec i ++ [93])
  | .arg _ => [91, 42, 93]

/-- the arguments it takes -/
def PStep.args : PStep → List Arg
  | .arg i => [.int i]
  | _ => []

/-- a character that may be in a key: not `NUL . [ ] : *` -/
def plainKey (c : Byte) : Prop := c ≠ 0 ∧ c ≠ 46 ∧ c ≠ 91 ∧ c ≠ 93 ∧ c ≠ 58 ∧ c ≠ 42

/-- well-formed steps -/
def PStep.Ok : PStep → Prop
  | .key k => k ≠ [] ∧ k.length ≤ 256 ∧ ∀ c ∈ k, plainKey c
  | .idx i => i < 2 ^ 31
  | .arg i => -2 ^ 31 ≤ i ∧ i < 2 ^ 31

/-- following steps in a value -/
def follow : Val → List PStep → Option Val
  | v, [] => some v
  | .obj kvs, .key k :: l => (kvs.lookup k).bind (follow · l)
  | .arr xs, .idx i :: l => (xs[i]?).bind (follow · l)
  | .arr xs, .arg i :: l => if i < 0 then none else (xs[i.toNat]?).bind (follow · l)
  | _, _ :: _ => none

/-- the text of a path -/
def pathText (l : List PStep) : List Byte := l.flatMap PStep.text
/-- its arguments -/
def pathArgs (l : List PStep) : List Arg := l.flatMap PStep.args

/-! ## the loop -/

/-- what happens after a token (value.c:827-836) -/
def after (o : Val) (args : List Arg) : List Byte → Res (Option Val)
  | 93 :: p => selLoop true o .invalid [] args p
  | p => selLoop true o .invalid [] args p

theorem selLoop_skip (o : Val) (next : Sel) (tok : List Byte) (args : List Arg) (p : List Byte) :
    selLoop true o next tok args p = selLoop true o .invalid [] args p := by
  cases p with
  | nil => rfl
  | cons c p => simp [selLoop]

theorem selLoop_cons (o : Val) (next : Sel) (tok : List Byte) (args : List Arg) (c : Byte) (p : List Byte) :
    selLoop true o next tok args (c :: p) =
      match selKind c with
      | none => .ok none
      | some none => .ok (some o)
      | some (some next) => selLoop false o next [] args p := by
  rw [selLoop]; simp only [if_true]; rfl

theorem after_cons (o : Val) (args : List Arg) (c : Byte) (p : List Byte) (h : c ≠ 93) :
    after o args (c :: p) = selLoop true o .invalid [] args (c :: p) := by
  rw [after]
  intro p' e; simp only [List.cons.injEq] at e; exact h e.1

theorem selLoop_end (o : Val) (next : Sel) (t : Byte) (tok : List Byte) (args : List Arg) (c : Byte) (p : List Byte)
    (hc : isEnd c = true) : selLoop false o next (t :: tok) args (c :: p) =
      (selToken o next (t :: tok)).bind fun r => match r with
        | none => .ok none
        | some o => after o args (c :: p) := by
  rw [selLoop]
  simp only [List.isEmpty_cons, Bool.not_false, hc, Bool.and_self, if_true, Bool.false_eq_true, if_false]
  congr 1
  funext r
  cases r with
  | none => rfl
  | some o =>
    simp only
    split
    · next h => rw [beq_iff_eq.1 h, after, selLoop_skip]
    · next h =>
      rw [after_cons _ _ _ _ (fun e => h (by simp [e])), selLoop_cons]
      rfl

theorem selLoop_acc (o : Val) (next : Sel) (hn : next ≠ .invalid) (args : List Arg) (p : List Byte) (k : List Byte) :
    ∀ tok, tok.length + k.length ≤ 256 → (∀ c ∈ k, plainKey c) →
    selLoop false o next tok args (k ++ p) = selLoop false o next (tok ++ k) args p := by
  induction k with
  | nil => intro tok _ _; simp
  | cons c k ih =>
    intro tok hl hk
    rw [List.forall_mem_cons] at hk
    obtain ⟨⟨h0, h1, h2, h3, h4, h5⟩, hk⟩ := hk
    have he : isEnd c = false := by simp [isEnd, h0, h1, h2, h3, h4]
    simp only [List.length_cons] at hl
    rw [List.cons_append, selLoop]
    simp only [he, Bool.and_false, Bool.false_eq_true, if_false, bne_iff_ne, ne_eq, hn, not_false_eq_true, if_true, h5]
    rw [if_neg (by omega), if_neg (by omega), ih _ (by simp; omega) hk]
    simp

/-- at the beginning and after a token the same is done -/
theorem after_start (o : Val) (args : List Arg) (p : List Byte) :
    selLoop false o .invalid [] args p = after o args p := by
  cases p with
  | nil => rfl
  | cons c p =>
    by_cases h : c = 93
    · subst h; rw [after]; simp [selLoop]
    · rw [after_cons _ _ _ _ h, selLoop_cons]
      simp [selLoop, h]
      rfl

theorem after_dot (o : Val) (args : List Arg) (p : List Byte) :
    after o args (46 :: p) = selLoop false o .obj [] args p := by
  simp [after, selLoop, selKind]

theorem after_bracket (o : Val) (args : List Arg) (p : List Byte) :
    after o args (91 :: p) = selLoop false o .arr [] args p := by
  simp [after, selLoop, selKind]

theorem after_colon (o : Val) (args : List Arg) (p : List Byte) :
    after o args (58 :: p) = selLoop false o .check [] args p := by
  simp [after, selLoop, selKind]

theorem after_stop (o : Val) (args : List Arg) (p : List Byte) : after o args (0 :: p) = .ok (some o) := by
  simp [after, selLoop, selKind]

/-- after an index the bracket is skipped -/
theorem after_close (o : Val) (args : List Arg) (p : List Byte) (hp : p.head? ≠ some 93) :
    after o args (93 :: p) = after o args p := by
  rw [after]
  cases p with
  | nil => rfl
  | cons c p =>
    rw [after]
    intro p' e
    simp only [List.cons.injEq] at e
    simp [e.1] at hp

theorem digit_plain (n : Nat) : ∀ c ∈ dec n, plainKey c := by
  intro c hc
  have := dec_digits n c hc
  refine ⟨?_, ?_, ?_, ?_, ?_, ?_⟩ <;> (intro e; subst e; revert this; decide)

theorem dec_length (n : Nat) (h : n < 10 ^ 10) : (dec n).length ≤ 10 := by
  have : ∀ k n, n < 10 ^ (k + 1) → (dec n).length ≤ k + 1 := by
    intro k
    induction k with
    | zero => intro n h; rw [dec, if_pos (by omega)]; simp
    | succ k ih =>
      intro n h
      rw [dec]
      split
      · simp
      · have := ih (n / 10) (by rw [Nat.pow_succ] at h; omega)
        simp; omega
  exact this 9 n h

theorem takeWhile_all {α : Type} {P : α → Bool} {l : List α} (h : ∀ a ∈ l, P a = true) : l.takeWhile P = l := by
  induction l with
  | nil => rfl
  | cons a l ih => rw [List.forall_mem_cons] at h; simp [h.1, ih h.2]

theorem atoi_intText {i : Int} (h : -2 ^ 31 ≤ i ∧ i < 2 ^ 31) : atoi (intText i) = .ok i := by
  have hd : ∀ n, (dec n).takeWhile isDigit = dec n := fun n => takeWhile_all (dec_isDigit n)
  have hc : ∀ n, ∃ d l, dec n = d :: l ∧ isSpace d = false ∧ d ≠ 45 ∧ d ≠ 43 := by
    intro n
    obtain ⟨d, l, e⟩ := List.exists_cons_of_ne_nil (dec_ne_nil n)
    have := dec_digits n d (by rw [e]; simp)
    refine ⟨d, l, e, ?_, ?_, ?_⟩
    · have hb : ∀ c : Byte, 48 ≤ c.toNat ∧ c.toNat ≤ 57 → isSpace c = false := by
        apply byte_forall; decide +kernel
      exact hb d this
    · intro e; subst e; revert this; decide
    · intro e; subst e; revert this; decide
  rw [intText]
  split
  · next hi =>
    obtain ⟨d, l, e, h1, h2, h3⟩ := hc (-i).toNat
    unfold atoi
    rw [List.dropWhile_cons_of_neg (by decide)]
    simp only [List.head?_cons, beq_self_eq_true, Bool.true_or, if_true, List.drop_succ_cons, List.drop_zero, hd, decVal_dec]
    rw [if_pos (by omega)]
    congr 1; omega
  · next hi =>
    obtain ⟨d, l, e, h1, h2, h3⟩ := hc i.toNat
    unfold atoi
    have : (dec i.toNat).dropWhile isSpace = dec i.toNat := by rw [e, List.dropWhile_cons_of_neg (by simp [h1])]
    simp only [this]
    have e1 : ((dec i.toNat).head? == some 45) = false := by rw [e]; simp [h2]
    have e2 : ((dec i.toNat).head? == some 43) = false := by rw [e]; simp [h3]
    simp only [e1, e2, Bool.or_self, Bool.false_eq_true, if_false, hd, decVal_dec]
    rw [if_pos (by omega)]
    congr 1; omega

/-! ## following a path -/

theorem selToken_key (o : Val) (k : List Byte) : selToken o .obj k = .ok (match o with
    | .obj kvs => kvs.lookup k
    | _ => none) := by
  cases o <;> rfl

theorem selToken_idx (o : Val) {i : Int} (h : -2 ^ 31 ≤ i ∧ i < 2 ^ 31) : selToken o .arr (intText i) = .ok (match o with
    | .arr xs => elemAt xs i
    | _ => none) := by
  cases o <;> simp [selToken, atoi_intText h, Res.map_ok']

theorem head_text (l : List PStep) (tail : List Byte) (ht : ∃ c t, tail = c :: t ∧ isEnd c = true ∧ c ≠ 93) :
    ∃ c t, pathText l ++ tail = c :: t ∧ isEnd c = true ∧ c ≠ 93 := by
  cases l with
  | nil => exact ht
  | cons s l =>
    cases s with
    | key k => exact ⟨46, _, rfl, by decide, by decide⟩
    | idx i => exact ⟨91, _, rfl, by decide, by decide⟩
    | arg i => exact ⟨91, _, rfl, by decide, by decide⟩

theorem intText_ok {i : Int} (h : -2 ^ 31 ≤ i ∧ i < 2 ^ 31) :
    ∃ d t, intText i = d :: t ∧ (d :: t).length ≤ 256 := by
  rw [intText]
  split
  · refine ⟨45, _, rfl, ?_⟩
    have := dec_length (-i).toNat (by omega)
    simp; omega
  · obtain ⟨d, t, e⟩ := List.exists_cons_of_ne_nil (dec_ne_nil i.toNat)
    have := dec_length i.toNat (by omega)
    rw [e] at this
    exact ⟨d, t, e, by omega⟩

/-- the loop on a well-formed path -/
theorem after_path (l : List PStep) (hl : ∀ s ∈ l, s.Ok) (tail : List Byte)
    (ht : ∃ c t, tail = c :: t ∧ isEnd c = true ∧ c ≠ 93) (args : List Arg) : ∀ o,
    after o (pathArgs l ++ args) (pathText l ++ tail) = match follow o l with
      | none => .ok none
      | some w => after w args tail := by
  induction l with
  | nil => intro o; simp [pathArgs, pathText, follow]
  | cons s l ih =>
    intro o
    rw [List.forall_mem_cons] at hl
    have ih := ih hl.2
    have hok := hl.1
    obtain ⟨c, t, e, hc, hc'⟩ := head_text l tail ht
    have arr : ∀ (i : Int) (w : Val) (d : Byte) (tk : List Byte), intText i = d :: tk → -2 ^ 31 ≤ i ∧ i < 2 ^ 31 →
        selLoop false o .arr (d :: tk) (pathArgs l ++ args) (93 :: (pathText l ++ tail)) =
        match (match o with
          | .arr xs => elemAt xs i
          | _ => none) with
        | none => .ok none
        | some w => after w (pathArgs l ++ args) (pathText l ++ tail) := by
      intro i w d tk hd hi
      rw [selLoop_end _ _ _ _ _ _ _ (by decide), ← hd, selToken_idx _ hi, Res.bind_ok]
      cases (match o with
          | .arr xs => elemAt xs i
          | _ => none) with
      | none => rfl
      | some w => simp only; rw [after_close _ _ _ (by rw [e]; simpa using hc')]
    cases s with
    | key k =>
      obtain ⟨h1, h2, h3⟩ := hok
      have : pathText (.key k :: l) ++ tail = 46 :: (k ++ (pathText l ++ tail)) := by simp [pathText, PStep.text]
      rw [this, after_dot, selLoop_acc _ _ (by decide) _ _ _ _ (by simpa using h2) h3]
      obtain ⟨d, k, rfl⟩ := List.exists_cons_of_ne_nil h1
      rw [List.nil_append, e, selLoop_end _ _ _ _ _ _ _ hc, selToken_key, Res.bind_ok, ← e]
      have ha : pathArgs (.key (d :: k) :: l) = pathArgs l := by simp [pathArgs, PStep.args]
      rw [ha]
      cases o with
      | atom a => simp [follow]
      | arr xs => simp [follow]
      | obj kvs =>
        simp only [follow]
        cases kvs.lookup (d :: k) with
        | none => rfl
        | some w => simp only [Option.bind_some]; exact ih w
    | idx i =>
      have hi : i < 2 ^ 31 := hok
      have hi' : -2 ^ 31 ≤ (i : Int) ∧ (i : Int) < 2 ^ 31 := by omega
      have : pathText (.idx i :: l) ++ tail = 91 :: (dec i ++ (93 :: (pathText l ++ tail))) := by
        simp [pathText, PStep.text]
      rw [this, after_bracket, selLoop_acc _ _ (by decide) _ _ _ _
        (by have := dec_length i (by omega); simp; omega) (digit_plain i), List.nil_append]
      have hd : dec i = intText i := by rw [intText, if_neg (by omega)]; rfl
      obtain ⟨d, tk, h1, h2⟩ := intText_ok hi'
      rw [hd, h1]
      have ha : pathArgs (.idx i :: l) = pathArgs l := by simp [pathArgs, PStep.args]
      rw [ha, arr i o d tk h1 hi']
      cases o with
      | atom a => simp [follow]
      | obj xs => simp [follow]
      | arr xs =>
        simp only [follow, elemAt]
        rw [if_pos (by omega), Int.toNat_natCast]
        cases xs[i]? with
        | none => rfl
        | some w => simp only [Option.bind_some]; exact ih w
    | arg i =>
      have hi : -2 ^ 31 ≤ i ∧ i < 2 ^ 31 := hok
      have : pathText (.arg i :: l) ++ tail = 91 :: 42 :: 93 :: (pathText l ++ tail) := by
        simp [pathText, PStep.text]
      obtain ⟨d, tk, h1, h2⟩ := intText_ok hi
      have ha : pathArgs (.arg i :: l) ++ args = .int i :: (pathArgs l ++ args) := by simp [pathArgs, PStep.args]
      rw [this, after_bracket, ha, selLoop]
      have hst : selStar .arr [] (.int i :: (pathArgs l ++ args)) = .ok (some (d :: tk, pathArgs l ++ args)) := by
        rw [selStar, h1, if_neg (by simp only [List.length_nil]; omega)]; rfl
      simp only [List.isEmpty_nil, Bool.not_true, Bool.false_and, Bool.false_eq_true, if_false, bne_iff_ne, ne_eq,
        reduceCtorEq, not_false_eq_true, if_true, not_true_eq_false, hst, Res.bind_ok]
      rw [arr i o d tk h1 hi]
      cases o with
      | atom a => simp [follow]
      | obj xs => simp [follow]
      | arr xs =>
        simp only [follow, elemAt]
        by_cases h0 : i < 0
        · rw [if_pos h0, if_neg (by omega)]
        · rw [if_neg h0, if_pos (by omega)]
          cases xs[i.toNat]? with
          | none => rfl
          | some w => simp only [Option.bind_some]; exact ih w

end Verif.Json

namespace Verif.Json.Props

/-- **C41**: a path of keys, indices and `[*]` selects the value found by following it, NULL if a step is
missing; the path is not read beyond its NUL (that would be `ub`).  Further arguments are not looked at. -/
theorem C41_select (o : Val) (l : List PStep) (hl : ∀ s ∈ l, s.Ok) (args : List Arg) :
    select o (pathText l) (pathArgs l ++ args) = .ok (follow o l) := by
  rw [select, after_start, after_path l hl [0] ⟨0, [], rfl, by decide, by decide⟩]
  cases follow o l with
  | none => rfl
  | some w => simp only; rw [after_stop]

/-- **C41**, with a type check at the end -/
theorem C41_check (o : Val) (l : List PStep) (hl : ∀ s ∈ l, s.Ok) (c : Byte) (hc : plainKey c) (args : List Arg) :
    select o (pathText l ++ [58, c]) (pathArgs l ++ args) =
      .ok ((follow o l).bind fun w => if typeOk c w then some w else none) := by
  rw [select, after_start, List.append_assoc,
    after_path l hl ([58, c] ++ [0]) ⟨58, [c, 0], rfl, by decide, by decide⟩]
  cases follow o l with
  | none => rfl
  | some w =>
    simp only
    rw [List.cons_append, after_colon, selLoop_acc _ _ (by decide) _ _ [c] [] (by simp) (by simpa using hc),
      List.nil_append, selLoop_end _ _ _ _ _ _ _ (by decide), selToken, Res.bind_ok]
    simp only [Option.bind_some]
    split
    · next h => split at h <;> simp_all
    · next h => split at h <;> simp_all [after_stop]

/-- an index as `atoi` reads it: white space, a sign, digits, and something that begins with no digit -/
structure IdxText where
  ws : List Byte
  sign : Option Bool
  digits : List Byte
  junk : List Byte

/-- its text; `some true` is a minus -/
def IdxText.text (x : IdxText) : List Byte :=
  x.ws ++ (match x.sign with | none => [] | some true => [45] | some false => [43]) ++ x.digits ++ x.junk

/-- well-formed: white space is one of blank, tab, line feed, vertical tab, form feed, carriage return -/
structure IdxText.Ok (x : IdxText) : Prop where
  ws : ∀ c ∈ x.ws, c ∈ [(32 : Byte), 9, 10, 11, 12, 13]
  digits : ∀ c ∈ x.digits, 48 ≤ c.toNat ∧ c.toNat ≤ 57
  some : x.digits ≠ []
  junk : ∀ c ∈ x.junk, plainKey c
  next : ∀ c ∈ x.junk.head?, ¬ (48 ≤ c.toNat ∧ c.toNat ≤ 57)
  short : x.text.length ≤ 256

/-- its value -/
def IdxText.val (x : IdxText) : Int :=
  (if x.sign = some true then -1 else 1) * ((x.digits.foldl (fun n c => 10 * n + (c.toNat - 48)) 0 : Nat) : Int)

theorem space_ok (c : Byte) : c ∈ [(32 : Byte), 9, 10, 11, 12, 13] → isSpace c = true ∧ plainKey c := by
  simp only [List.mem_cons, List.not_mem_nil, or_false]
  rintro (rfl | rfl | rfl | rfl | rfl | rfl) <;> simp [isSpace, plainKey]

theorem atoi_idx (x : IdxText) (h : x.Ok) : atoi x.text = if -2 ^ 31 ≤ x.val ∧ x.val < 2 ^ 31 then .ok x.val else .ub := by
  have hdig : ∀ c : Byte, isDigit c = true ↔ 48 ≤ c.toNat ∧ c.toNat ≤ 57 := by
    intro c; simp [isDigit, UInt8.le_iff_toNat_le]
  have hspace : ∀ c : Byte, 48 ≤ c.toNat ∧ c.toNat ≤ 57 → isSpace c = false ∧ c ≠ 45 ∧ c ≠ 43 := by apply byte_forall; decide +kernel
  obtain ⟨d, ds, hd⟩ := List.exists_cons_of_ne_nil h.some
  obtain ⟨h1, h2, h3⟩ := hspace d (h.digits d (by simp [hd]))
  have htake : (x.digits ++ x.junk).takeWhile isDigit = x.digits := by
    rw [List.takeWhile_append_of_pos (fun c hc => (hdig c).2 (h.digits c hc))]
    cases hj : x.junk with
    | nil => simp
    | cons c l =>
      have := h.next c (by simp [hj])
      rw [List.takeWhile_cons_of_neg (by rw [hdig]; exact this), List.append_nil]
  have hval : decVal x.digits = x.digits.foldl (fun n c => 10 * n + (c.toNat - 48)) 0 := by
    unfold decVal; congr 1; funext n c; omega
  have hdrop : ∀ r, (x.ws ++ r).dropWhile isSpace = r.dropWhile isSpace := by
    intro r
    rw [List.dropWhile_append_of_pos (fun c hc => (space_ok c (h.ws c hc)).1)]
  unfold atoi IdxText.text IdxText.val
  rw [List.append_assoc, List.append_assoc, hdrop]
  cases hs : x.sign with
  | none =>
    have e1 : (x.digits ++ x.junk).dropWhile isSpace = x.digits ++ x.junk := by rw [hd, List.cons_append, List.dropWhile_cons_of_neg (by simp [h1])]
    have e2 : ((x.digits ++ x.junk).head? == some 45) = false := by rw [hd]; simp [h2]
    have e3 : ((x.digits ++ x.junk).head? == some 43) = false := by rw [hd]; simp [h3]
    simp only [List.nil_append, e1, e2, e3, Bool.or_self, Bool.false_eq_true, if_false, htake, hval, reduceCtorEq, Int.one_mul]
  | some b =>
    cases b with
    | false => simp [isSpace, htake, hval]
    | true => simp [isSpace, htake, hval]

/-- **C41**, an index in any form: leading white space, a sign and leading zeros do not matter, what follows the digits is not looked at, a negative
index selects nothing; an index that is no `int` is undefined behaviour of `atoi` (if there is an array to select from). -/
theorem C41_index (o : Val) (l : List PStep) (hl : ∀ s ∈ l, s.Ok) (x : IdxText) (hx : x.Ok) (args : List Arg) :
    select o (pathText l ++ (91 :: (x.text ++ [93]))) (pathArgs l ++ args) =
      match follow o l with
      | some (.arr xs) =>
        if -2 ^ 31 ≤ x.val ∧ x.val < 2 ^ 31 then .ok (if x.val < 0 then none else xs[x.val.toNat]?) else .ub
      | _ => .ok none := by
  rw [select, after_start, List.append_assoc,
    after_path l hl (91 :: (x.text ++ [93]) ++ [0]) ⟨91, x.text ++ [93, 0], by simp, by decide, by decide⟩]
  cases follow o l with
  | none => rfl
  | some w =>
    have hp : ∀ c ∈ x.text, plainKey c := by
      intro c hc
      simp only [IdxText.text, List.mem_append] at hc
      rcases hc with ((hc | hc) | hc) | hc
      · exact (space_ok c (hx.ws c hc)).2
      · cases hs : x.sign with
        | none => simp [hs] at hc
        | some b => cases b <;> simp [hs] at hc <;> subst hc <;> simp [plainKey]
      · have := hx.digits c hc
        refine ⟨?_, ?_, ?_, ?_, ?_, ?_⟩ <;> (intro e; subst e; revert this; decide)
      · exact hx.junk c hc
    have hne : x.text ≠ [] := by simp [IdxText.text, hx.some]
    obtain ⟨d, tk, e⟩ := List.exists_cons_of_ne_nil hne
    simp only
    rw [List.cons_append, after_bracket, List.append_assoc, selLoop_acc _ _ (by decide) _ _ x.text [] (by simpa using hx.short) hp, List.nil_append, e,
      List.cons_append, selLoop_end _ _ _ _ _ _ _ (by decide), ← e]
    cases w with
    | atom a => rfl
    | obj kvs => rfl
    | arr xs =>
      simp only [selToken, atoi_idx x hx]
      split
      · simp only [Res.map_ok', Res.bind_ok, elemAt]
        by_cases h0 : x.val < 0
        · rw [if_pos h0, if_neg (by omega)]
        · rw [if_neg h0, if_pos (by omega)]
          cases xs[x.val.toNat]? with
          | none => rfl
          | some w => simp only [List.nil_append]; rw [after_close _ _ _ (by simp), after_stop]
      · rfl

/-- `[ +01x]` in `[null,true]`, and `[99999999999]` -/
example : select (.arr [.atom .null, .atom (.bool true)]) [91, 32, 43, 48, 49, 120, 93] [] = .ok (some (.atom (.bool true))) ∧
    select (.arr [.atom .null, .atom (.bool true)]) ([91] ++ List.replicate 11 57 ++ [93]) [] = .ub := by
  constructor
  · have := C41_index (.arr [.atom .null, .atom (.bool true)]) [] (by simp) ⟨[32], some false, [48, 49], [120]⟩
      ⟨by simp, by simp, by simp, by simp [plainKey], by simp, by simp [IdxText.text]⟩ []
    simpa [pathText, pathArgs, IdxText.text, IdxText.val, follow] using this
  · have := C41_index (.arr [.atom .null, .atom (.bool true)]) [] (by simp) ⟨[], none, List.replicate 11 57, []⟩
      ⟨by simp, by simp, by simp, by simp, by simp, by simp [IdxText.text]⟩ []
    simpa [pathText, pathArgs, IdxText.text, IdxText.val, follow, List.replicate] using this

/-- `.a[1].b` and `.a[*].b` in `{"a":[null,{"b":true}]}` -/
example :
    let v := Val.obj [([97], .arr [.atom .null, .obj [([98], .atom (.bool true))]])]
    select v [46, 97, 91, 49, 93, 46, 98] [] = .ok (some (.atom (.bool true))) ∧
    select v [46, 97, 91, 42, 93, 46, 98] [.int 1] = .ok (some (.atom (.bool true))) ∧
    select v [46, 97, 91, 42, 93, 46, 98] [.int (-1)] = .ok none := by
  have h98 : ∀ c ∈ [(98 : Byte)], plainKey c := by simp [plainKey]
  have h97 : ∀ c ∈ [(97 : Byte)], plainKey c := by simp [plainKey]
  have hk : ∀ i, PStep.Ok i → ∀ s ∈ [PStep.key [97], i, .key [98]], s.Ok := by
    intro i hi s hs
    simp only [List.mem_cons, List.not_mem_nil, or_false] at hs
    rcases hs with rfl | rfl | rfl
    · exact ⟨by simp, by simp, h97⟩
    · exact hi
    · exact ⟨by simp, by simp, h98⟩
  refine ⟨?_, ?_, ?_⟩
  · have := C41_select (.obj [([97], .arr [.atom .null, .obj [([98], .atom (.bool true))]])])
      [.key [97], .idx 1, .key [98]] (hk _ (by simp [PStep.Ok])) []
    simpa [pathText, pathArgs, PStep.text, PStep.args, dec, follow, List.lookup] using this
  · have := C41_select (.obj [([97], .arr [.atom .null, .obj [([98], .atom (.bool true))]])])
      [.key [97], .arg 1, .key [98]] (hk _ (by simp [PStep.Ok])) []
    simpa [pathText, pathArgs, PStep.text, PStep.args, follow, List.lookup] using this
  · have := C41_select (.obj [([97], .arr [.atom .null, .obj [([98], .atom (.bool true))]])])
      [.key [97], .arg (-1), .key [98]] (hk _ (by simp [PStep.Ok])) []
    simpa [pathText, pathArgs, PStep.text, PStep.args, follow, List.lookup] using this

/-- **C41**: what the checks accept: `s` strings, `o` objects, `a` arrays, `b` truth values, `!` null (`n`: see
C68) -/
theorem C41_types (v : Val) (args : List Arg) :
    (select v [58, 115] args = .ok (some v) ↔ ∃ s, v = .atom (.str s)) ∧
    (select v [58, 111] args = .ok (some v) ↔ ∃ kvs, v = .obj kvs) ∧
    (select v [58, 97] args = .ok (some v) ↔ ∃ xs, v = .arr xs) ∧
    (select v [58, 98] args = .ok (some v) ↔ ∃ b, v = .atom (.bool b)) ∧
    (select v [58, 33] args = .ok (some v) ↔ v = .atom .null) := by
  have h (c : Byte) (hc : plainKey c) : select v [58, c] args = .ok (if typeOk c v then some v else none) :=
    C41_check v [] (by simp) c hc args
  rw [h 115 (by simp [plainKey]), h 111 (by simp [plainKey]), h 97 (by simp [plainKey]), h 98 (by simp [plainKey]),
    h 33 (by simp [plainKey])]
  cases v with
  | atom a => cases a <;> simp [typeOk]
  | arr xs => simp [typeOk]
  | obj kvs => simp [typeOk]

/-! ## C66: `.*` -/

/-- **C66 is false**: with a name that is not empty and fits, `.*` never gives the value of the key (the token
is copied from an uninitialised buffer), whatever the path before and after it. -/
theorem C66_star_false (o w : Val) (l : List PStep) (hl : ∀ s ∈ l, s.Ok) (hw : follow o l = some w)
    (name : List Byte) (hn : name ≠ []) (hs : name.length ≤ 256) (p : List Byte) (args : List Arg) :
    select o (pathText l ++ 46 :: 42 :: p) (pathArgs l ++ .str name :: args) = .ub := by
  rw [select, after_start, List.append_assoc,
    after_path l hl (46 :: 42 :: p ++ [0]) ⟨46, _, rfl, by decide, by decide⟩, hw]
  simp only
  rw [List.cons_append, after_dot, List.cons_append, selLoop]
  have hst : selStar .obj [] (.str name :: args) = .ub := by
    rw [selStar, if_neg (by simp only [List.length_nil]; omega), if_neg (by simpa using hn)]
  simp [hst, Res.bind]

example : follow (.obj [([97], .atom .null)]) [] = some (.obj [([97], .atom .null)]) ∧
    ([97] : List Byte) ≠ [] ∧ ([97] : List Byte).length ≤ 256 := ⟨by rw [follow], by decide, by decide⟩

/-! ## C67: paths that end with a selector -/

/-- **C67 is false**: a path that ends with `.`, `[` or `:` is read beyond its NUL (when the part before is
found). -/
theorem C67_overread_false (o w : Val) (l : List PStep) (hl : ∀ s ∈ l, s.Ok) (hw : follow o l = some w)
    (c : Byte) (hc : c = 46 ∨ c = 91 ∨ c = 58) (args : List Arg) :
    select o (pathText l ++ [c]) (pathArgs l ++ args) = .ub := by
  rw [select, after_start, List.append_assoc,
    after_path l hl ([c] ++ [0]) ⟨c, [0], rfl, by rcases hc with rfl | rfl | rfl <;> decide,
      by rcases hc with rfl | rfl | rfl <;> decide⟩, hw]
  simp only
  have go : ∀ next, next ≠ Sel.invalid → selLoop false w next [] args [0] = .ub := by
    intro next hn
    rw [selLoop]
    simp [hn, selLoop]
  rcases hc with rfl | rfl | rfl
  · rw [List.cons_append, after_dot]; exact go _ (by decide)
  · rw [List.cons_append, after_bracket]; exact go _ (by decide)
  · rw [List.cons_append, after_colon]; exact go _ (by decide)

example : follow (.arr [.atom .null]) [.idx 0] = some (.atom .null) ∧ (PStep.idx 0).Ok := by
  refine ⟨?_, by simp [PStep.Ok]⟩
  rw [follow]; simp [follow]

/-! ## C68: the check for numbers -/

/-- **C68 is false**: `:n` refuses doubles and unsigned numbers. -/
theorem C68_number_false (bits : UInt64) (n : Nat) :
    select (.atom (.dbl bits)) [58, 110] [] = .ok none ∧ select (.atom (.u64 n)) [58, 110] [] = .ok none := by
  constructor
  · exact C41_check (.atom (.dbl bits)) [] (by simp) 110 (by simp [plainKey]) []
  · exact C41_check (.atom (.u64 n)) [] (by simp) 110 (by simp [plainKey]) []

/-- the part that holds: signed numbers pass, and what passes is a signed number -/
theorem C68_partial (v : Val) : select v [58, 110] [] = .ok (some v) ↔ ∃ n, v = .atom (.i64 n) := by
  have h : select v [58, 110] [] = .ok (if typeOk 110 v then some v else none) :=
    C41_check v [] (by simp) 110 (by simp [plainKey]) []
  rw [h]
  cases v with
  | atom a => cases a <;> simp [typeOk]
  | arr xs => simp [typeOk]
  | obj kvs => simp [typeOk]

/-! ## C69: numbers as `int` -/

/-- **C69 is false**: 2^32 + 5 is given as 5, without an error. -/
theorem C69_int_false : toIntx (.atom (.i64 (2 ^ 32 + 5))) = some 5 := by
  rw [toIntx]; unfold cInt toU64; decide

theorem cInt_u64 (n : Int) : (cInt (toU64 n) - n) % 4294967296 = 0 ∧ -2147483648 ≤ cInt (toU64 n) ∧
    cInt (toU64 n) < 2147483648 := by
  have h1 : (toU64 n : Int) = n % 18446744073709551616 := by
    unfold toU64; exact Int.toNat_of_nonneg (Int.emod_nonneg _ (by decide))
  have h2 : cInt (toU64 n) = Int.bmod (toU64 n) 4294967296 := by unfold cInt; rfl
  rw [h2, h1, Int.bmod_def]
  split <;> omega

/-- the part that holds: exact for every `int`; nothing but signed numbers is accepted -/
theorem C69_partial :
    (∀ n : Int, -2 ^ 31 ≤ n → n < 2 ^ 31 → toIntx (.atom (.i64 n)) = some n) ∧
    (∀ v i, toIntx v = some i → ∃ n, v = .atom (.i64 n) ∧ (i - n) % 2 ^ 32 = 0) := by
  constructor
  · intro n h1 h2
    rw [toIntx]
    have := cInt_u64 n
    congr 1
    omega
  · intro v i h
    cases v with
    | arr xs => simp [toIntx] at h
    | obj kvs => simp [toIntx] at h
    | atom a =>
      cases a <;> simp only [toIntx, Option.some.injEq, reduceCtorEq] at h
      next n =>
        refine ⟨n, rfl, ?_⟩
        subst h
        exact (cInt_u64 n).1

/-- **C69** for a path: `cee_json_select_as_int` reads the number at the end of the path -/
theorem C69_select_partial (o : Val) (l : List PStep) (hl : ∀ s ∈ l, s.Ok) (ha : pathArgs l = []) (n : Int)
    (h1 : -2 ^ 31 ≤ n) (h2 : n < 2 ^ 31) (hw : follow o l = some (.atom (.i64 n))) :
    selectAsInt o (pathText l) = .ok (some n) := by
  have := C41_select o l hl []
  rw [ha, List.append_nil] at this
  rw [selectAsInt, this, hw, Res.map_ok', Option.bind_some, C69_partial.1 n h1 h2]

example : follow (.arr [.atom (.i64 7)]) [.idx 0] = some (.atom (.i64 7)) ∧ (PStep.idx 0).Ok ∧
    pathArgs [.idx 0] = [] := by
  refine ⟨?_, by simp [PStep.Ok], rfl⟩
  rw [follow]; simp [follow]

end Verif.Json.Props
