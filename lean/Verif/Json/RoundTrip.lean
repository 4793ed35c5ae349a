import Verif.Json.TokenProps
import Verif.Json.PrintProps

/-! # Properties C35 and C38: printing and parsing -/

namespace Verif.Json

/-! ## reading a text token by token -/

/-- white space -/
def isWs (c : Byte) : Bool := c == 10 || c == 13 || c == 32 || c == 9

/-- a text followed by anything with `P` is read as these tokens, except for white space at its end -/
def Lexes [Libc] (P : List Byte → Prop) (w : List Byte) (ts : List Tok) : Prop :=
  ∀ (rest : List Byte) (left line : Nat), P rest → ∃ ws line', (∀ c ∈ ws, isWs c = true) ∧
    Yields nextToken ⟨w ++ rest, w.length + left, line⟩ ts ⟨ws ++ rest, ws.length + left, line'⟩

theorem nextToken_step [Libc] {t : Tz} {r : Tok × Tz} (h : tokenStep t = .ok (some r)) : nextToken t = .ok r := by
  rw [nextToken]
  cases t.mem.length <;> rw [nextTokenN, h, Res.bind_ok]

theorem skip_ws [Libc] (ws : List Byte) (hws : ∀ c ∈ ws, isWs c = true) (m : List Byte) (l : Nat) :
    ∀ line, ∃ line', nextToken ⟨ws ++ m, ws.length + l, line⟩ = nextToken ⟨m, l, line'⟩ := by
  induction ws with
  | nil => intro line; exact ⟨line, by simp⟩
  | cons c ws ih =>
    intro line
    rw [List.forall_mem_cons] at hws
    have hstep : tokenStep ⟨c :: ws ++ m, (c :: ws).length + l, line⟩ = .ok none := by
      have hc := hws.1
      rw [isWs] at hc
      rw [tokenStep, if_neg (by simp only [List.length_cons]; omega)]
      simp only [List.cons_append]
      have hne : c ≠ 91 ∧ c ≠ 123 ∧ c ≠ 58 ∧ c ≠ 44 ∧ c ≠ 125 ∧ c ≠ 93 := by
        refine ⟨?_, ?_, ?_, ?_, ?_, ?_⟩ <;> (rintro rfl; revert hc; decide)
      simp [hne, hc]
    obtain ⟨line', e⟩ := ih hws.2 (if c == 10 || c == 13 then line + 1 else line)
    refine ⟨line', ?_⟩
    rw [← e, nextToken]
    show nextTokenN ((ws ++ m).length + 1) _ = _
    rw [nextTokenN, hstep, Res.bind_ok]
    simp only [Tz.skip, List.cons_append, List.length_cons]
    rw [nextToken]
    congr 2
    omega

theorem lexes_ws_only [Libc] {P : List Byte → Prop} {ws : List Byte} (h : ∀ c ∈ ws, isWs c = true) : Lexes P ws [] :=
  fun _ _ line _ => ⟨ws, line, h, .nil _⟩

theorem Lexes.ws [Libc] {P : List Byte → Prop} {w ws : List Byte} {ts : List Tok} (h : Lexes P w ts)
    (hws : ∀ c ∈ ws, isWs c = true) : Lexes P (ws ++ w) ts := by
  intro rest left line hP
  cases ts with
  | nil =>
    obtain ⟨ws', line', h1, h2⟩ := h rest left line hP
    generalize ht : (⟨ws' ++ rest, ws'.length + left, line'⟩ : Tz) = t at h2
    cases h2
    simp only [Tz.mk.injEq, List.append_cancel_right_eq] at ht
    rw [← ht.1]
    refine ⟨ws ++ ws', line, ?_, .nil _⟩
    intro c hc
    rcases List.mem_append.1 hc with h | h
    · exact hws c h
    · exact h1 c h
  | cons c cs =>
    obtain ⟨line1, e⟩ := skip_ws ws hws (w ++ rest) (w.length + left) line
    obtain ⟨ws', line', h1, h2⟩ := h rest left line1 hP
    refine ⟨ws', line', h1, ?_⟩
    cases h2 with
    | cons hn hs =>
      refine .cons ?_ hs
      rw [← hn, ← e, List.append_assoc, List.length_append, Nat.add_assoc]

theorem Lexes.append [Libc] {P Q : List Byte → Prop} {w1 w2 : List Byte} {ts1 ts2 : List Tok} (h1 : Lexes P w1 ts1)
    (h2 : Lexes Q w2 ts2) (hPQ : ∀ rest, Q rest → P (w2 ++ rest)) : Lexes Q (w1 ++ w2) (ts1 ++ ts2) := by
  intro rest left line hQ
  obtain ⟨ws, line1, hws, hy1⟩ := h1 (w2 ++ rest) (w2.length + left) line (hPQ rest hQ)
  obtain ⟨ws2, line2, hws2, hy2⟩ := h2.ws hws rest left line1 hQ
  refine ⟨ws2, line2, hws2, ?_⟩
  rw [List.append_assoc, List.length_append, Nat.add_assoc] at *
  exact hy1.append hy2

theorem Lexes.mono [Libc] {P Q : List Byte → Prop} {w : List Byte} {ts : List Tok} (h : Lexes P w ts)
    (hPQ : ∀ rest, Q rest → P rest) : Lexes Q w ts :=
  fun rest left line hQ => h rest left line (hPQ rest hQ)

/-- nothing is asked of what follows -/
abbrev Any : List Byte → Prop := fun _ => True

/-- a single token -/
theorem lexes_one [Libc] {P : List Byte → Prop} {w : List Byte} {tok : Tok}
    (h : ∀ rest left line, P rest → tokenStep ⟨w ++ rest, w.length + left, line⟩ = .ok (some (tok, ⟨rest, left, line⟩))) :
    Lexes P w [tok] :=
  fun rest left line hP => ⟨[], line, by simp, .cons (nextToken_step (h rest left line hP)) (by simpa using Yields.nil _)⟩

theorem to_append (w rest : List Byte) (left line : Nat) :
    (⟨w ++ rest, w.length + left, line⟩ : Tz).to rest = ⟨rest, left, line⟩ := by
  simp [Tz.to]

theorem lexes_punct [Libc] {c : Byte} {tok : Tok}
    (h : ∀ left line m, tokenStep ⟨c :: m, 1 + left, line⟩ = .ok (some (tok, (⟨c :: m, 1 + left, line⟩ : Tz).to m))) :
    Lexes Any [c] [tok] := by
  refine lexes_one fun rest left line _ => ?_
  have := to_append [c] rest left line
  rw [← this]
  exact h left line rest

theorem lexes_lb [Libc] : Lexes Any [91] [.lb] := lexes_punct fun _ _ _ => by rw [tokenStep, if_neg (by simp)]; rfl
theorem lexes_rb [Libc] : Lexes Any [93] [.rb] := lexes_punct fun _ _ _ => by rw [tokenStep, if_neg (by simp)]; rfl
theorem lexes_lc [Libc] : Lexes Any [123] [.lc] := lexes_punct fun _ _ _ => by rw [tokenStep, if_neg (by simp)]; rfl
theorem lexes_rc [Libc] : Lexes Any [125] [.rc] := lexes_punct fun _ _ _ => by rw [tokenStep, if_neg (by simp)]; rfl
theorem lexes_colon [Libc] : Lexes Any [58] [.colon] := lexes_punct fun _ _ _ => by rw [tokenStep, if_neg (by simp)]; rfl
theorem lexes_comma [Libc] : Lexes Any [44] [.comma] := lexes_punct fun _ _ _ => by rw [tokenStep, if_neg (by simp)]; rfl

theorem lexes_null [Libc] : Lexes Any [110, 117, 108, 108] [.lit .null] := by
  refine lexes_one fun rest left line _ => ?_
  rw [← to_append [110, 117, 108, 108] rest left line, tokenStep, if_neg (by simp)]
  rfl

theorem lexes_true [Libc] : Lexes Any [116, 114, 117, 101] [.lit (.bool true)] := by
  refine lexes_one fun rest left line _ => ?_
  rw [← to_append [116, 114, 117, 101] rest left line, tokenStep, if_neg (by simp)]
  rfl

theorem lexes_false [Libc] : Lexes Any [102, 97, 108, 115, 101] [.lit (.bool false)] := by
  refine lexes_one fun rest left line _ => ?_
  rw [← to_append [102, 97, 108, 115, 101] rest left line, tokenStep, if_neg (by simp)]
  rfl

/-- text of valid UTF-8 without NUL, of a length that is an `int` -/
def rtText (s : List Byte) : Prop :=
  (∃ cs : List Char, (∀ c ∈ cs, c.toNat ≠ 0) ∧ s = cs.flatMap String.utf8EncodeChar) ∧ s.length < 2 ^ 31

theorem lexes_quote [Libc] {s : List Byte} (hs : rtText s) : Lexes Any (quote s) [.str s] := by
  obtain ⟨⟨cs, h0, rfl⟩, hl⟩ := hs
  refine lexes_one fun rest left line _ => ?_
  have e := Props.C31_roundtrip cs h0 rest hl
  have hto := to_append (quote (cs.flatMap String.utf8EncodeChar)) rest left line
  revert e hto
  generalize cs.flatMap String.utf8EncodeChar = s
  intro e hto
  rw [tokenStep, if_neg (by simp [quote])]
  have hq : quote s ++ rest = 34 :: (escape s ++ 34 :: rest) := by simp [quote]
  simp only [hq] at hto ⊢
  simp only [show ((34 : Byte) == 91) = false from rfl, show ((34 : Byte) == 123) = false from rfl,
    show ((34 : Byte) == 58) = false from rfl, show ((34 : Byte) == 44) = false from rfl,
    show ((34 : Byte) == 125) = false from rfl, show ((34 : Byte) == 93) = false from rfl,
    show ((34 : Byte) == 10) = false from rfl, show ((34 : Byte) == 13) = false from rfl,
    show ((34 : Byte) == 32) = false from rfl, show ((34 : Byte) == 9) = false from rfl,
    show ((34 : Byte) == 34) = true from rfl, Bool.false_eq_true, ↓reduceIte, Bool.or_self, e, Res.map, Option.map,
    Tz.take, hto]

/-! ## numbers -/

theorem decVal_append (ds : List Byte) (d : Byte) : decVal (ds ++ [d]) = decVal ds * 10 + (d.toNat - 48) := by
  simp [decVal]

theorem decVal_dec (n : Nat) : decVal (dec n) = n := by
  induction n using Nat.strongRecOn with
  | ind n ih =>
    rw [dec]
    split
    · rename_i h
      simp only [decVal, List.foldl_cons, List.foldl_nil]
      rw [toNat_ofNat_small (by omega)]; omega
    · rw [decVal_append, ih _ (by omega), toNat_ofNat_small (by omega)]; omega

theorem dec_ne_nil (n : Nat) : dec n ≠ [] := by
  rw [dec]; split <;> simp

/-- no leading zero -/
theorem dec_head (n : Nat) (h : (dec n).length ≠ 1) : (dec n).head? ≠ some 48 := by
  induction n using Nat.strongRecOn with
  | ind n ih =>
    rw [dec] at h ⊢
    split
    · rename_i h'; rw [if_pos h'] at h; simp at h
    · rename_i h'
      rw [List.head?_append, List.head?_eq_some_head (dec_ne_nil _), Option.some_or, ← List.head?_eq_some_head (dec_ne_nil _)]
      by_cases h1 : (dec (n / 10)).length = 1
      · have : n / 10 < 10 := by
          rcases Nat.lt_or_ge (n / 10) 10 with h2 | h2
          · exact h2
          · exfalso
            rw [dec, if_neg (by omega), List.length_append] at h1
            have := List.length_pos_iff.2 (dec_ne_nil (n / 10 / 10))
            simp only [List.length_singleton] at h1
            omega
        rw [dec, if_pos this]
        simp only [List.head?_cons, ne_eq, Option.some.injEq]
        intro hc
        have := congrArg UInt8.toNat hc
        rw [toNat_ofNat_small (by omega)] at this
        have h48 : (48 : UInt8).toNat = 48 := rfl
        rw [h48] at this
        omega
      · exact ih _ (by omega) h1

/-- what may follow a number -/
def NumEnd (rest : List Byte) : Prop :=
  ∃ d r, rest = d :: r ∧ isDigit d = false ∧ d ≠ 46 ∧ d ≠ 101 ∧ d ≠ 69

theorem digits_append (ds : List Byte) (hd : ∀ c ∈ ds, isDigit c = true) (d : Byte) (r : List Byte)
    (h : isDigit d = false) : digits (ds ++ d :: r) = .ok (ds, d :: r) := by
  induction ds with
  | nil => rw [List.nil_append, digits, h]; rfl
  | cons c ds ih =>
    rw [List.forall_mem_cons] at hd
    rw [List.cons_append, digits, hd.1, if_pos rfl, ih hd.2]; rfl

theorem dec_isDigit (n : Nat) : ∀ c ∈ dec n, isDigit c = true := by
  intro c hc
  obtain ⟨h1, h2⟩ := dec_digits n c hc
  simp only [isDigit, Bool.and_eq_true, decide_eq_true_eq, UInt8.le_iff_toNat_le]
  exact ⟨h1, h2⟩

theorem parseNumber_int [Libc] (neg : Bool) (k : Nat) (d : Byte) (r : List Byte) (h1 : isDigit d = false)
    (h2 : d ≠ 46) (h3 : d ≠ 101) (h4 : d ≠ 69) :
    parseNumber ((if neg then [45] else []) ++ dec k ++ d :: r) = .ok (some (.i64 (strtoll neg (dec k)), d :: r)) := by
  obtain ⟨c, cs, hc⟩ : ∃ c cs, dec k = c :: cs := by
    cases h : dec k with
    | nil => exact absurd h (dec_ne_nil k)
    | cons c cs => exact ⟨c, cs, rfl⟩
  have hcd : isDigit c = true := dec_isDigit k c (by rw [hc]; exact List.mem_cons_self ..)
  have hc45 : c ≠ 45 := by rintro rfl; revert hcd; decide
  have hdig := digits_append (dec k) (dec_isDigit k) d r h1
  have hz : ¬ ((dec k).length ≠ 1 && (dec k).head? == some 48) = true := by
    simp only [Bool.and_eq_true, decide_eq_true_eq, beq_iff_eq, not_and]
    exact dec_head k
  have hne : (dec k).isEmpty = false := by rw [hc]; rfl
  have hfrac : fraction (d :: r) = .ok (some ([], d :: r)) := by
    rw [fraction, peek, Res.bind_ok]; simp [h2]
  have hpk : ∃ c', peek ((if neg then [45] else []) ++ dec k ++ d :: r) = .ok c' ∧ (c' == 45) = neg := by
    cases neg with
    | true => exact ⟨45, rfl, rfl⟩
    | false => exact ⟨c, by rw [hc]; rfl, by simpa using hc45⟩
  obtain ⟨c', hp, hneg⟩ := hpk
  rw [parseNumber, hp, Res.bind_ok]
  simp only [hneg]
  have hdrop : (if neg = true then ((if neg = true then [45] else []) ++ dec k ++ d :: r).drop 1
      else (if neg = true then [45] else []) ++ dec k ++ d :: r) = dec k ++ d :: r := by
    cases neg <;> rfl
  rw [hdrop, hdig, Res.bind_ok]
  simp only [hne, Bool.false_eq_true, ↓reduceIte]
  rw [hfrac, Res.bind_ok]
  simp only [peek, Res.bind_ok, List.isEmpty_nil, ↓reduceIte]
  rw [if_neg (by simp [h3, h4]), if_neg hz]

theorem strtoll_dec {neg : Bool} {k : Nat} (h : if neg then k ≤ 2 ^ 63 else k < 2 ^ 63) :
    strtoll neg (dec k) = if neg then -(k : Int) else k := by
  rw [strtoll, decVal_dec]
  cases neg with
  | true => simp only [↓reduceIte] at h ⊢; omega
  | false => simp only [Bool.false_eq_true, ↓reduceIte] at h ⊢; omega

/-- the text of a number without fraction and exponent -/
def signed (neg : Bool) (k : Nat) : List Byte := (if neg then [45] else []) ++ dec k

theorem signed_cons (neg : Bool) (k : Nat) : ∃ c cs, signed neg k = c :: cs ∧ (c == 45 || isDigit c) = true := by
  unfold signed
  cases neg with
  | true => exact ⟨45, _, rfl, rfl⟩
  | false =>
    cases h : dec k with
    | nil => exact absurd h (dec_ne_nil k)
    | cons c cs =>
      have := dec_isDigit k c (by rw [h]; exact List.mem_cons_self ..)
      exact ⟨c, cs, rfl, by simp [this]⟩

/-- text that starts like a number is handled by `parse_number` -/
theorem tokenStep_num [Libc] {c : Byte} (hcs : (c == 45 || isDigit c) = true) (m : List Byte) (left line : Nat)
    (hl : left ≠ 0) : tokenStep ⟨c :: m, left, line⟩ =
      ((⟨c :: m, left, line⟩ : Tz).take ((parseNumber (c :: m)).map fun r => r.map fun (a, m) => (.lit a, m))).map some := by
  rw [tokenStep, if_neg hl]
  have hne : ∀ x : Byte, (x == 45 || isDigit x) = false → c ≠ x := by
    rintro x hx rfl; rw [hx] at hcs; cases hcs
  have n1 := hne 91 rfl
  have n2 := hne 123 rfl
  have n3 := hne 58 rfl
  have n4 := hne 44 rfl
  have n5 := hne 125 rfl
  have n6 := hne 93 rfl
  have n7 := hne 10 rfl
  have n8 := hne 13 rfl
  have n9 := hne 32 rfl
  have n10 := hne 9 rfl
  have n11 := hne 34 rfl
  have n12 := hne 116 rfl
  have n13 := hne 110 rfl
  have n14 := hne 102 rfl
  simp only [beq_iff_eq, n1, n2, n3, n4, n5, n6, n7, n8, n9, n10, n11, n12, n13, n14, ↓reduceIte, Bool.or_eq_true,
    or_self]
  rw [if_pos (by simpa using hcs)]

theorem lexes_signed [Libc] (neg : Bool) (k : Nat) :
    Lexes NumEnd (signed neg k) [.lit (.i64 (strtoll neg (dec k)))] := by
  obtain ⟨c, cs, hc, hcs⟩ := signed_cons neg k
  refine lexes_one ?_
  rintro _ left line ⟨d, r, rfl, h1, h2, h3, h4⟩
  have e := parseNumber_int neg k d r h1 h2 h3 h4
  rw [← signed] at e
  have hto := to_append (signed neg k) (d :: r) left line
  rw [hc] at e hto ⊢
  rw [List.cons_append, tokenStep_num hcs _ _ _ (by simp)]
  simp only [List.cons_append] at e hto
  simp only [e, Res.map, Option.map, Tz.take, hto]

theorem intText_signed (i : Int) : ∃ (neg : Bool) (k : Nat), intText i = signed neg k ∧
    (if neg then -(k : Int) else k) = i := by
  by_cases hi : i < 0
  · refine ⟨true, (-i).toNat, by rw [intText, if_pos hi]; rfl, ?_⟩
    simp only [↓reduceIte]; omega
  · refine ⟨false, i.toNat, by rw [intText, if_neg hi]; rfl, ?_⟩
    simp only [Bool.false_eq_true, ↓reduceIte]; omega

theorem lexes_int [Libc] {i : Int} (hlo : -2 ^ 63 ≤ i) (hhi : i < 2 ^ 63) :
    Lexes NumEnd (intText i) [.lit (.i64 i)] := by
  obtain ⟨neg, k, ht, hi⟩ := intText_signed i
  have hk : if neg then k ≤ 2 ^ 63 else k < 2 ^ 63 := by
    cases neg with
    | true => simp only [↓reduceIte] at hi ⊢; omega
    | false => simp only [Bool.false_eq_true, ↓reduceIte] at hi ⊢; omega
  have := lexes_signed neg k
  rw [strtoll_dec hk, hi, ← ht] at this
  exact this

/-! ## values -/

/-- atoms that come back as they are -/
def rtAtom : Atom → Prop
  | .null => True
  | .bool _ => True
  | .i64 i => -2 ^ 63 ≤ i ∧ i < 2 ^ 63
  | .str s => rtText s
  | _ => False

mutual
/-- keys of one object are different -/
def Val.Distinct : Val → Prop
  | .atom _ => True
  | .arr xs => DistinctL xs
  | .obj kvs => (kvs.map (·.1)).Nodup ∧ DistinctF kvs
/-- for all elements -/
def DistinctL : List Val → Prop
  | [] => True
  | x :: xs => x.Distinct ∧ DistinctL xs
/-- for all entries -/
def DistinctF : List (List Byte × Val) → Prop
  | [] => True
  | (_, x) :: xs => x.Distinct ∧ DistinctF xs
end

mutual
/-- the document of a value -/
def synOf : Val → Syn
  | .atom (.str s) => .str s
  | .atom a => .lit a
  | .arr xs => .arr (synL xs) false
  | .obj kvs => .obj (synF kvs) false
/-- the documents of elements -/
def synL : List Val → List Syn
  | [] => []
  | x :: xs => synOf x :: synL xs
/-- the documents of entries -/
def synF : List (List Byte × Val) → List (List Byte × Syn)
  | [] => []
  | (k, x) :: xs => (k, synOf x) :: synF xs
end

theorem insertKey_new {k : List Byte} {v : Val} {acc : List (List Byte × Val)} (h : k ∉ acc.map (·.1)) :
    insertKey k v acc = acc ++ [(k, v)] := by
  induction acc with
  | nil => rfl
  | cons kv acc ih =>
    obtain ⟨k', v'⟩ := kv
    simp only [List.map_cons, List.mem_cons, not_or] at h
    rw [insertKey, if_neg (fun e => h.1 e.symm), ih h.2]; rfl

theorem synOf_val (v : Val) : v.Distinct → (synOf v).val = v := by
  induction v using Val.ind with
  | h0 a => intro _; cases a <;> rfl
  | ha xs ih =>
    intro h
    rw [synOf, Syn.val]
    rw [Val.Distinct] at h
    congr 1
    induction xs with
    | nil => rfl
    | cons x xs ih2 =>
      rw [DistinctL] at h
      rw [synL, valL, ih x (List.mem_cons_self ..) h.1, ih2 (fun y hy => ih y (List.mem_cons_of_mem _ hy)) h.2]
  | ho kvs ih =>
    intro h
    rw [Val.Distinct] at h
    rw [synOf, Syn.val]
    congr 1
    have key : ∀ (kvs acc : List (List Byte × Val)), (∀ kv ∈ kvs, kv.2.Distinct → (synOf kv.2).val = kv.2) →
        DistinctF kvs → ((acc ++ kvs).map (·.1)).Nodup → valF (synF kvs) acc = acc ++ kvs := by
      intro kvs
      induction kvs with
      | nil => intro acc _ _ _; simp [synF, valF]
      | cons kv kvs ih2 =>
        intro acc ih hd hn
        obtain ⟨k, x⟩ := kv
        rw [DistinctF] at hd
        have hx := ih (k, x) (List.mem_cons_self ..) hd.1
        simp only at hx
        have hk : k ∉ acc.map (·.1) := by
          intro hk
          rw [List.map_append, List.nodup_append] at hn
          exact hn.2.2 k hk k (by simp) rfl
        rw [synF, valF, hx, insertKey_new hk, ih2 (acc ++ [(k, x)]) (fun y hy => ih y (List.mem_cons_of_mem _ hy)) hd.2
          (by simpa using hn)]
        simp
    exact key kvs [] ih h.2 h.1

theorem synOf_depth (v : Val) : (synOf v).depth = v.depth := by
  induction v using Val.ind with
  | h0 a => cases a <;> rfl
  | ha xs ih =>
    rw [synOf, Syn.depth, Val.depth]
    congr 1
    induction xs with
    | nil => rfl
    | cons x xs ih2 =>
      rw [synL, depthL, vdepthL, ih x (List.mem_cons_self ..), ih2 fun y hy => ih y (List.mem_cons_of_mem _ hy)]
  | ho xs ih =>
    rw [synOf, Syn.depth, Val.depth]
    congr 1
    induction xs with
    | nil => rfl
    | cons x xs ih2 =>
      obtain ⟨k, x⟩ := x
      have := ih (k, x) (List.mem_cons_self ..)
      simp only at this
      rw [synF, depthF, vdepthF, this, ih2 fun y hy => ih y (List.mem_cons_of_mem _ hy)]

theorem depth_le_height (v : Val) : v.depth ≤ v.height := by
  induction v using Val.ind with
  | h0 a => simp [Val.depth]
  | ha xs ih =>
    rw [Val.depth, Val.height]
    have : vdepthL xs ≤ heightL xs := by
      induction xs with
      | nil => simp [vdepthL]
      | cons x xs ih2 =>
        rw [vdepthL, heightL]
        have h1 := ih x (List.mem_cons_self ..)
        have h2 := ih2 fun y hy => ih y (List.mem_cons_of_mem _ hy)
        omega
    omega
  | ho xs ih =>
    rw [Val.depth, Val.height]
    have : vdepthF xs ≤ heightF xs := by
      induction xs with
      | nil => simp [vdepthF]
      | cons x xs ih2 =>
        obtain ⟨k, x⟩ := x
        rw [vdepthF, heightF]
        have h1 := ih (k, x) (List.mem_cons_self ..)
        have h2 := ih2 fun y hy => ih y (List.mem_cons_of_mem _ hy)
        simp only at h1
        omega
    omega

/-! ## the text of a value is read as the document of the value -/

theorem ws_tabs {f : Bool} {t : Nat} : ∀ c ∈ padding f t, isWs c = true := by
  intro c hc
  cases f with
  | false => simp [padding] at hc
  | true => rw [padding, if_pos rfl] at hc; rw [(List.mem_replicate.1 hc).2]; rfl

theorem lexes_opening [Libc] {f : Bool} {c : Byte} {tok : Tok} (h : Lexes Any [c] [tok]) :
    Lexes Any (opening f c) [tok] := by
  cases f with
  | false => exact h
  | true =>
    have := h.append (lexes_ws_only (P := Any) (ws := [10]) (by decide)) (fun _ _ => trivial)
    simpa [opening] using this

theorem lexes_closing [Libc] {f : Bool} {t : Nat} {c : Byte} {tok : Tok} (h : Lexes Any [c] [tok]) :
    Lexes Any (closing f t c) [tok] := by
  cases f with
  | false => exact h
  | true =>
    have h2 := (h.append (lexes_ws_only (P := Any) (ws := [10]) (by decide)) (fun _ _ => trivial)).ws
      (ws := 10 :: List.replicate t 9) (by
        rw [List.forall_mem_cons]
        exact ⟨rfl, fun c hc => by rw [(List.mem_replicate.1 hc).2]; rfl⟩)
    simpa [closing] using h2

theorem numEnd_closing {f : Bool} {t : Nat} {c : Byte} (hc : c = 93 ∨ c = 125) (rest : List Byte) :
    NumEnd (closing f t c ++ rest) := by
  cases f with
  | false => rcases hc with rfl | rfl <;> exact ⟨_, _, rfl, by decide, by decide, by decide, by decide⟩
  | true => exact ⟨10, _, rfl, by decide, by decide, by decide, by decide⟩

theorem numEnd_comma {f : Bool} (rest : List Byte) : NumEnd (comma f ++ rest) := by
  cases f <;> exact ⟨44, _, rfl, by decide, by decide, by decide, by decide⟩

theorem lexes_atom [Libc] {a : Atom} (h : rtAtom a) : Lexes NumEnd (atomBytes a) (synOf (.atom a)).toks := by
  cases a with
  | null => exact lexes_null.mono fun _ _ => trivial
  | bool b =>
    cases b with
    | true => exact lexes_true.mono fun _ _ => trivial
    | false => exact lexes_false.mono fun _ _ => trivial
  | i64 i => exact lexes_int h.1 h.2
  | str s =>
    rw [atomBytes, quoted_short (by have := h.2; omega)]
    exact (lexes_quote h).mono fun _ _ => trivial
  | undef => cases h
  | dbl d => cases h
  | u64 n => cases h
  | strn s => cases h
  | blob n => cases h

theorem lexes_elems [Libc] (f : Bool) (t : Nat) (xs : List Val)
    (h : ∀ x ∈ xs, Lexes NumEnd (render f (t + 1) x) (synOf x).toks) :
    Lexes Any (renderL f t xs ++ closing f t 93) (body (toksL (synL xs)) false .rb) := by
  induction xs with
  | nil => rw [renderL, synL, toksL, body_nil]; exact lexes_closing lexes_rb
  | cons x xs ih =>
    rw [List.forall_mem_cons] at h
    rw [renderL, synL, toksL, body_cons]
    cases xs with
    | nil =>
      have := h.1.append (lexes_closing (f := f) (t := t) lexes_rb) (fun rest _ => numEnd_closing (.inl rfl) rest)
      simpa [renderL, synL, toksL, bodyTail] using this
    | cons y ys =>
      have h2 := (lexes_opening (f := f) lexes_comma).append (ih h.2) (fun _ _ => trivial)
      have h3 := h.1.append h2 (fun rest _ => by rw [List.append_assoc]; exact numEnd_comma (f := f) _)
      have e : bodyTail (toksL (synL (y :: ys))) false .rb = .comma :: body (toksL (synL (y :: ys))) false .rb := rfl
      rw [e]
      simpa [opening, comma] using h3

theorem lexes_fields [Libc] (f : Bool) (t : Nat) (xs : List (List Byte × Val))
    (h : ∀ x ∈ xs, rtText x.1 ∧ Lexes NumEnd (render f (t + 1) x.2) (synOf x.2).toks) :
    Lexes Any (renderF f t xs ++ closing f t 125) (body (toksF (synF xs)) false .rc) := by
  induction xs with
  | nil => rw [renderF, synF, toksF, body_nil]; exact lexes_closing lexes_rc
  | cons x xs ih =>
    obtain ⟨k, x⟩ := x
    rw [List.forall_mem_cons] at h
    obtain ⟨⟨hk, hx⟩, h⟩ := h
    simp only at hk hx
    have hcol : Lexes Any (colon f) [.colon] := by
      cases f with
      | false => exact lexes_colon
      | true =>
        have := (lexes_colon.append (lexes_ws_only (P := Any) (ws := [9]) (by decide)) (fun _ _ => trivial)).ws
          (ws := [32]) (by decide)
        simpa [colon] using this
    have hkey : Lexes Any (padding f t ++ quoted k ++ colon f) [.str k, .colon] := by
      rw [quoted_short (by have := hk.2; omega)]
      have := ((lexes_quote hk).append hcol (fun _ _ => trivial)).ws (ws_tabs (f := f) (t := t))
      simpa using this
    rw [renderF, synF, toksF, body_cons]
    cases xs with
    | nil =>
      have h1 := hx.append (lexes_closing (f := f) (t := t) lexes_rc) (fun rest _ => numEnd_closing (.inr rfl) rest)
      have := hkey.append h1 (fun _ _ => trivial)
      simpa [renderF, synF, toksF, bodyTail] using this
    | cons y ys =>
      have h2 := (lexes_opening (f := f) lexes_comma).append (ih h) (fun _ _ => trivial)
      have h3 := hx.append h2 (fun rest _ => by rw [List.append_assoc]; exact numEnd_comma (f := f) _)
      have h4 := hkey.append h3 (fun _ _ => trivial)
      have e : bodyTail (toksF (synF (y :: ys))) false .rc = .comma :: body (toksF (synF (y :: ys))) false .rc := by
        obtain ⟨ky, y⟩ := y; rfl
      rw [e]
      simpa [opening, comma] using h4

theorem lexes_render [Libc] (f : Bool) (v : Val) : v.All rtAtom rtText → ∀ t, Lexes NumEnd (render f t v) (synOf v).toks := by
  induction v using Val.ind with
  | h0 a =>
    intro h t
    rw [render]
    exact (lexes_atom h).ws ws_tabs
  | ha xs ih =>
    intro h t
    rw [Val.All, allL_mem] at h
    rw [render, synOf, Syn.toks]
    have := (lexes_opening (f := f) lexes_lb).append
      (lexes_elems f t xs fun x hx => ih x hx (h x hx) (t + 1)) (fun _ _ => trivial)
    exact this.mono fun _ _ => trivial
  | ho kvs ih =>
    intro h t
    rw [Val.All, allF_mem] at h
    rw [render, synOf, Syn.toks]
    have := (lexes_opening (f := f) lexes_lc).append
      (lexes_fields f t kvs fun x hx => ⟨(h x hx).1, ih x hx (h x hx).2 (t + 1)⟩) (fun _ _ => trivial)
    exact this.mono fun _ _ => trivial

/-- the text of a container can be followed by anything, also by the end of the memory -/
theorem lexes_container [Libc] (f : Bool) (v : Val) (hv : ∀ a, v ≠ .atom a) (h : v.All rtAtom rtText) (t : Nat) :
    Lexes Any (render f t v) (synOf v).toks := by
  cases v with
  | atom a => exact absurd rfl (hv a)
  | arr xs =>
    rw [Val.All, allL_mem] at h
    rw [render, synOf, Syn.toks]
    exact (lexes_opening (f := f) lexes_lb).append
      (lexes_elems f t xs fun x hx => lexes_render f x (h x hx) (t + 1)) (fun _ _ => trivial)
  | obj kvs =>
    rw [Val.All, allF_mem] at h
    rw [render, synOf, Syn.toks]
    exact (lexes_opening (f := f) lexes_lc).append
      (lexes_fields f t kvs fun x hx => ⟨(h x hx).1, lexes_render f x.2 (h x hx).2 (t + 1)⟩) (fun _ _ => trivial)

/-- a text that is read as a document, followed by `rest`, is parsed completely -/
theorem parsex_lexes [Libc] {P : List Byte → Prop} {w : List Byte} {x : Syn} (h : Lexes P w x.toks)
    (hd : x.depth ≤ 511) (rest : List Byte) (hP : P rest) (n : Nat) (hn : x.toks.length ≤ n) :
    ∃ line, parsex n (w ++ rest) w.length true = .ok (some (.value (some x.val), ⟨rest, 0, line⟩)) := by
  obtain ⟨ws, line1, hws, hy⟩ := h rest 0 0 hP
  obtain ⟨line2, e⟩ := skip_ws ws hws rest 0 line1
  refine ⟨line2, (parsex_of_yields n hy hd hn).2 ⟨rest, 0, line2⟩ ?_⟩
  rw [e]; exact nextToken_step (by rw [tokenStep, if_pos rfl])

/-- `cee_json_load_from_fileno` (value.c:630-650) on a regular file with the given contents: a block of
exactly that many bytes is filled and parsed (`force_eof` is ignored, line 641 passes `true`).  `fstat`,
`malloc` and `read` are taken to succeed.  `none` is the null pointer. -/
def loadFileno [Libc] (n : Nat) (content : List Byte) : Res (Option (Option Val)) :=
  (parsex n content content.length true).map fun r => r.map fun r =>
    match r.1 with
    | .einval => none
    | .value v => v

/-- `cee_json_save_fileno` (value.c:688-699): the bytes written, taking `malloc` and `write` to succeed -/
def saveFileno [Libc] (n : Nat) (f : Bool) (v : Val) : Res (Option (List (Option Byte))) :=
  (snprint n f none v).bind fun r =>
  match r with
  | none => .ok none
  | some (_, s) =>
    (snprint n f (some (List.replicate (s + 1) none)) v).map fun r => r.map fun r => (r.1.getD []).take s

end Verif.Json

namespace Verif.Json.Props

open Verif.Json

/-! ## C35 -/

theorem numEnd_nul (rest : List Byte) : NumEnd (0 :: rest) :=
  ⟨0, rest, rfl, by decide, by decide, by decide, by decide⟩

/-- reading back the text of a value, in both formats -/
theorem C35_parse [Libc] (f : Bool) (v : Val) (ha : v.All rtAtom rtText) (hk : v.Distinct) (hd : v.depth ≤ 511)
    (extra : List Byte) : ∃ N, ∀ n, N ≤ n → ∃ line,
      parsex n (render f 0 v ++ 0 :: extra) (render f 0 v).length true =
        .ok (some (.value (some v), ⟨0 :: extra, 0, line⟩)) := by
  have hx := synOf_depth v
  refine ⟨(synOf v).toks.length, fun n hn => ?_⟩
  have := parsex_lexes (lexes_render f v ha 0) (by omega) (0 :: extra) (numEnd_nul extra) n hn
  rw [synOf_val v hk] at this
  exact this

theorem rt_short {v : Val} (h : v.All rtAtom rtText) : v.All shortAtom shortKey := by
  induction v using Val.ind with
  | h0 a =>
    rw [Val.All] at h ⊢
    cases a with
    | str s => have := h.2; show s.length < 2 ^ 32; omega
    | strn s => cases h
    | _ => trivial
  | ha xs ih =>
    rw [Val.All, allL_mem] at h ⊢
    exact fun x hx => ih x hx (h x hx)
  | ho kvs ih =>
    rw [Val.All, allF_mem] at h ⊢
    refine fun x hx => ⟨?_, ih x hx (h x hx).2⟩
    have := (h x hx).1.2
    show x.1.length < 2 ^ 32
    omega

/-- **C35**: for every value made of objects (with different keys), arrays, strings of valid UTF-8 without
NUL, booleans, null and 64-bit integers, and less than 500 values high, `cee_json_asprint` gives a text
followed by a NUL (`compact v`, by C33), and `cee_json_parsex` on that text, up to its NUL, whatever comes
after, gives back the same value and has reached the end of the input. -/
theorem C35_roundtrip [Libc] (v : Val) (ha : v.All rtAtom rtText) (hk : v.Distinct) (hh : v.height < 500)
    (n : Nat) (hn : nsteps v ≤ n) : ∃ b text,
      asprint n false v = .ok (some (b, text.length)) ∧ b.take (text.length + 1) = (text ++ [0]).map some ∧
      0 ∉ text ∧
      ∀ extra, ∃ N, ∀ m, N ≤ m → ∃ t, parsex m (text ++ 0 :: extra) text.length true =
        .ok (some (.value (some v), t)) := by
  obtain ⟨b, h1, h2⟩ := C33_compact v hh (rt_short ha) n hn
  refine ⟨b, compact v, h1, h2, (C33_no_nul v (rt_short ha)).1, fun extra => ?_⟩
  have hd := depth_le_height v
  obtain ⟨N, hN⟩ := C35_parse false v ha hk (by omega) extra
  rw [render_compact v (rt_short ha)] at hN
  exact ⟨N, fun m hm => ⟨_, (hN m hm).choose_spec⟩⟩

/-- **C35** for the pretty format, up to 127 levels of containers around an atom -/
theorem C35_roundtrip_pretty [Libc] (v : Val) (ha : v.All rtAtom rtText) (hk : v.Distinct) (hh : v.height ≤ 128)
    (n : Nat) (hn : nsteps v ≤ n) : ∃ b text,
      asprint n true v = .ok (some (b, text.length)) ∧ b.take (text.length + 1) = (text ++ [0]).map some ∧
      0 ∉ text ∧
      ∀ extra, ∃ N, ∀ m, N ≤ m → ∃ t, parsex m (text ++ 0 :: extra) text.length true =
        .ok (some (.value (some v), t)) := by
  obtain ⟨b, h1, h2⟩ := C33_pretty v hh n hn
  refine ⟨b, render true 0 v, h1, h2, (C33_no_nul v (rt_short ha)).2 0, fun extra => ?_⟩
  have hd := depth_le_height v
  obtain ⟨N, hN⟩ := C35_parse true v ha hk (by omega) extra
  exact ⟨N, fun m hm => ⟨_, (hN m hm).choose_spec⟩⟩

/-- `{"a":[-9223372036854775808,"\u00e9\n",null],"":{}}` is such a value -/
example : let v := Val.obj [([97], .arr [.atom (.i64 (-9223372036854775808)), .atom (.str [0xC3, 0xA9, 10]), .atom .null]),
      ([], .obj [])]
    v.All rtAtom rtText ∧ v.Distinct ∧ v.height < 128 := by
  intro v
  have ha : rtText [97] := ⟨⟨['a'], by decide, by decide⟩, by decide⟩
  have he : rtText [] := ⟨⟨[], by decide, by decide⟩, by decide⟩
  have hs : rtText [0xC3, 0xA9, 10] := ⟨⟨[Char.ofNat 0xE9, '\n'], by decide, by decide +kernel⟩, by decide⟩
  refine ⟨?_, ?_, by decide⟩
  · simp only [v, Val.All, AllL, AllF, rtAtom, ha, he, hs]
    decide
  · simp [v, Val.Distinct, DistinctL, DistinctF]

/-! ## C59: numbers that are no 64-bit integers -/

/-- **C59**, negative: integers too large for 64 bits are not refused: all of them are read as 2^63 - 1 -/
theorem C59_clamped_false [Libc] (k : Nat) (hk : 2 ^ 63 ≤ k) (extra : List Byte) (n : Nat) (hn : 1 ≤ n) :
    ∃ t, parsex n (dec k ++ 0 :: extra) (dec k).length true =
      .ok (some (.value (some (.atom (.i64 (2 ^ 63 - 1)))), t)) := by
  have h : Lexes NumEnd (dec k) (Syn.toks (.lit (.i64 (2 ^ 63 - 1)))) := by
    have := lexes_signed false k
    rw [strtoll, decVal_dec] at this
    simp only [Bool.false_eq_true, ↓reduceIte] at this
    rw [Int.min_eq_left (by omega)] at this
    exact this
  obtain ⟨line, e⟩ := parsex_lexes h (by simp [Syn.depth]) (0 :: extra) (numEnd_nul extra) n hn
  exact ⟨_, e⟩

/-- **C59**, negative: so an unsigned number of 2^63 or more does not come back -/
theorem C59_u64_false [Libc] (k : Nat) (hk : 2 ^ 63 ≤ k) (n m : Nat) (hn : 1 ≤ n) (hm : 1 ≤ m) (extra : List Byte) :
    ∃ b t, asprint n false (.atom (.u64 k)) = .ok (some (b, (dec k).length)) ∧
      b.take ((dec k).length + 1) = (dec k ++ [0]).map some ∧
      parsex m (dec k ++ 0 :: extra) (dec k).length true = .ok (some (.value (some (.atom (.i64 (2 ^ 63 - 1)))), t)) := by
  obtain ⟨b, h1, h2⟩ := C33_compact (.atom (.u64 k)) (by rw [Val.height]; omega) trivial n hn
  obtain ⟨t, ht⟩ := C59_clamped_false k hk extra m hm
  exact ⟨b, t, h1, h2, ht⟩

/-- **C59**, the part that holds: integers of 64 bits are read exactly -/
theorem C59_partial [Libc] (i : Int) (hlo : -2 ^ 63 ≤ i) (hhi : i < 2 ^ 63) (extra : List Byte) (n : Nat) (hn : 1 ≤ n) :
    ∃ t, parsex n (intText i ++ 0 :: extra) (intText i).length true = .ok (some (.value (some (.atom (.i64 i))), t)) := by
  have h : Lexes NumEnd (intText i) (Syn.toks (.lit (.i64 i))) := lexes_int hlo hhi
  obtain ⟨line, e⟩ := parsex_lexes h (by simp [Syn.depth]) (0 :: extra) (numEnd_nul extra) n hn
  exact ⟨_, e⟩

/-! ## C60: the length given to the parser -/

theorem digits_ub (ds : List Byte) (h : ∀ c ∈ ds, isDigit c = true) : digits ds = .ub := by
  induction ds with
  | nil => rfl
  | cons c ds ih =>
    rw [List.forall_mem_cons] at h
    rw [digits, h.1, if_pos rfl, ih h.2]; rfl

/-- **C60**, negative: a number at the end of a buffer is read past the end -/
theorem C60_overread_false [Libc] (k n : Nat) (forceEof : Bool) :
    parsex (n + 1) (dec k) (dec k).length forceEof = .ub := by
  obtain ⟨c, cs, hc⟩ : ∃ c cs, dec k = c :: cs := by
    cases h : dec k with
    | nil => exact absurd h (dec_ne_nil k)
    | cons c cs => exact ⟨c, cs, rfl⟩
  have hd := dec_isDigit k
  have hc0 : isDigit c = true := hd c (by rw [hc]; exact List.mem_cons_self ..)
  have hn : parseNumber (dec k) = .ub := by
    have hu := digits_ub _ hd
    have h45 : (c == 45) = false := by
      simp only [beq_eq_false_iff_ne, ne_eq]; rintro rfl; revert hc0; decide
    rw [hc] at hu ⊢
    rw [parseNumber, peek, Res.bind_ok]
    simp only [h45, Bool.false_eq_true, ↓reduceIte]
    rw [hu]; rfl
  have hstep : tokenStep ⟨dec k, (dec k).length, 0⟩ = .ub := by
    rw [hc] at hn ⊢
    rw [tokenStep_num (by simp [hc0]) _ _ _ (by simp), hn]; rfl
  have hnext : nextToken ⟨dec k, (dec k).length, 0⟩ = .ub := by
    have : ∀ m t, tokenStep t = .ub → nextTokenN m t = .ub := by
      intro m t ht
      cases m <;> rw [nextTokenN, ht] <;> rfl
    exact this _ _ hstep
  rw [parsex, parseWith, prun_go (by decide), hnext]; rfl

/-- **C60**, negative: `cee_json_load_from_fileno` on a file that ends with a number reads past its block -/
theorem C60_load_false [Libc] (k n : Nat) : loadFileno (n + 1) (dec k) = .ub := by
  rw [loadFileno, C60_overread_false]; rfl

/-- **C60**, negative: bytes after the given length are part of the value: of the text `12`, the first byte
only is given to the parser, and the result is 12 -/
theorem C60_beyond_false [Libc] : ∃ t, parsex 1 [49, 50, 0] 1 true = .ok (some (.value (some (.atom (.i64 12))), t)) :=
  ⟨⟨[0], 0, 0⟩, rfl⟩

/-- **C60**, the part that holds: text with a NUL right after the length is never read beyond the NUL -/
theorem C60_partial [Libc] (text : List Byte) (forceEof : Bool) (hlen : text.length + 1 < 2 ^ 31)
    (n : Nat) (hn : text.length + 1 ≤ n) :
    ∃ r t, parsex n (text ++ [0]) text.length forceEof = .ok (some (r, t)) := by
  obtain ⟨r, t, e, -, -⟩ := C36_ends (text ++ [0]) text.length forceEof (by simp) (by simpa using hlen) n (by simpa using hn)
  exact ⟨r, t, e⟩

/-! ## C61: saving and loading -/

theorem saveFileno_eq [Libc] {n : Nat} {f : Bool} {v : Val} {text : List Byte} (h : Prints n f v text) :
    saveFileno n f v = .ok (some (text.map some)) := by
  rw [saveFileno, h.snprint_null, Res.bind_ok]
  obtain ⟨b, e, h1, h2⟩ := h.snprint_buf (List.replicate (text.length + 1) none) (by simp)
  simp only [e, Res.map, Option.map, Option.getD_some, Res.ok.injEq, Option.some.injEq]
  have := congrArg (List.take text.length) h2
  rw [List.take_take, Nat.min_eq_left (by omega)] at this
  rw [this]
  simp

/-- **C61**: an array or object (of values as in C35; in the pretty format up to 128 high) that is saved to a
file and loaded from it comes back as it was; loading never reads outside the block. -/
theorem C61_save_load [Libc] (f : Bool) (v : Val) (hv : ∀ a, v ≠ .atom a) (ha : v.All rtAtom rtText) (hk : v.Distinct)
    (hh : v.height < 500) (hf : f = true → v.height ≤ 128) (n : Nat) (hn : nsteps v ≤ n) :
    ∃ content, saveFileno n f v = .ok (some (content.map some)) ∧
      ∃ N, ∀ m, N ≤ m → loadFileno m content = .ok (some (some v)) := by
  refine ⟨render f 0 v, saveFileno_eq (prints_render f v hf (by omega) n hn), (synOf v).toks.length, fun m hm => ?_⟩
  have hd := depth_le_height v
  obtain ⟨line, e⟩ := parsex_lexes (lexes_container f v hv ha 0) (by rw [synOf_depth]; omega) [] trivial m hm
  rw [List.append_nil, synOf_val v hk] at e
  rw [loadFileno, e]; rfl

/-- **C61**, negative: for a number it does not work; the load reads past the end of its block -/
theorem C61_number_false [Libc] (k n m : Nat) (hn : 1 ≤ n) :
    saveFileno n false (.atom (.i64 k)) = .ok (some ((dec k).map some)) ∧ loadFileno (m + 1) (dec k) = .ub := by
  have h := prints_render false (.atom (.i64 k)) (by simp) (by rw [Val.height]; omega) n hn
  have e : render false 0 (.atom (.i64 k)) = dec k := by
    simp only [render, padding, atomBytes, intText, Bool.false_eq_true, ↓reduceIte, List.nil_append]
    rw [if_neg (by omega)]; rfl
  rw [e] at h
  exact ⟨saveFileno_eq h, C60_load_false k m⟩

example : let v := Val.arr [.atom (.i64 7), .atom (.bool true)]
    (∀ a, v ≠ .atom a) ∧ v.All rtAtom rtText ∧ v.Distinct ∧ v.height ≤ 128 := by
  intro v
  refine ⟨by simp [v], ?_, by simp [v, Val.Distinct, DistinctL], by decide⟩
  simp only [v, Val.All, AllL, rtAtom]; decide

/-! ## C36: there are texts as in its statements -/

attribute [local instance] exampleLibc

/-- the text of arrays nested 512 deep, and its tokens -/
example : ∃ t', Yields nextToken ⟨compact (nest 511) ++ [0], (compact (nest 511)).length, 0⟩ (synOf (nest 511)).toks t' ∧
    511 < (synOf (nest 511)).depth ∧ (compact (nest 511) ++ [0]).length < 2 ^ 31 := by
  have hall : ∀ d, (nest d).All rtAtom rtText ∧ (nest d).All shortAtom shortKey ∧ (nest d).depth = d + 1 := by
    intro d
    induction d with
    | zero => exact ⟨trivial, trivial, rfl⟩
    | succ d ih =>
      refine ⟨⟨ih.1, trivial⟩, ⟨ih.2.1, trivial⟩, ?_⟩
      rw [nest, Val.depth, vdepthL, vdepthL, ih.2.2]; omega
  obtain ⟨h1, h2, h3⟩ := hall 511
  obtain ⟨ws, line, -, hy⟩ := lexes_render false (nest 511) h1 0 [0] 0 0 (numEnd_nul [])
  rw [render_compact _ h2] at hy
  refine ⟨_, hy, by rw [synOf_depth, h3]; decide, ?_⟩
  rw [compact_nest, List.length_append, List.length_append, List.length_replicate, List.length_replicate]; decide

/-- a state in the middle of `{"a":[` is reached -/
example : Reach ⟨.arrValueOrClose, [⟨.objCloseOrComma, some (.arr []), [97]⟩, ⟨.done, some (.obj []), []⟩], [97], none⟩ :=
  .step .lb (.step .colon (.step (.str [97]) (.step .lc .start rfl rfl) rfl rfl) rfl rfl) rfl rfl

/-! ## C34: what the parser accepts the printer may truncate -/

theorem parse_open [Libc] (k : Nat) : ∀ (s : PSt) (xs : List Val) (top : PFrame) (rest : List PFrame) (line n : Nat)
    (extra : List Byte), s.st = .arrValueOrClose → s.stk = top :: rest → top.j = some (.arr xs) →
    s.stk.length + k < 512 →
    ∃ s' t, prun nextToken (k + 1 + n) s ⟨List.replicate k 91 ++ 0 :: extra, k, line⟩ = .ok (some (s', t)) ∧ s'.st = .error := by
  induction k with
  | zero =>
    intro s xs top rest line n extra hst hstk htop hl
    have hg : s.goes = true := goes_iff.2 ⟨by rw [hstk]; simp, by omega, by rw [hst]; simp, by rw [hst]; simp⟩
    obtain ⟨st, stk, key, res⟩ := s
    simp only at hst hstk; subst hst hstk
    have hn : nextToken ⟨List.replicate 0 91 ++ 0 :: extra, 0, line⟩ = .ok (.eof, ⟨0 :: extra, 0, line⟩) :=
      nextToken_step (by rw [tokenStep, if_pos rfl]; rfl)
    have hs : pstep ⟨.arrValueOrClose, top :: rest, key, res⟩ .eof = .ok ⟨.error, top :: rest, key, res⟩ := by
      simp [pstep, htop, Tok.atom?]
    rw [Nat.zero_add, Nat.add_comm, prun_go hg, hn, Res.bind_ok]
    simp only
    rw [hs, Res.bind_ok]
    exact ⟨_, _, prun_stop (by simp [PSt.goes]) _ _, rfl⟩
  | succ k ih =>
    intro s xs top rest line n extra hst hstk htop hl
    have hg : s.goes = true := goes_iff.2 ⟨by rw [hstk]; simp, by omega, by rw [hst]; simp, by rw [hst]; simp⟩
    obtain ⟨st, stk, key, res⟩ := s
    simp only at hst hstk hl; subst hst hstk
    have hn : nextToken ⟨List.replicate (k + 1) 91 ++ 0 :: extra, k + 1, line⟩ =
        .ok (.lb, ⟨List.replicate k 91 ++ 0 :: extra, k, line⟩) := by
      refine nextToken_step ?_
      have := to_append [91] (List.replicate k 91 ++ 0 :: extra) k line
      rw [← this, tokenStep, if_neg (by simp), List.replicate_succ, List.length_singleton, Nat.add_comm 1 k]
      rfl
    have hs : pstep ⟨.arrValueOrClose, top :: rest, key, res⟩ .lb =
        .ok ⟨.arrValueOrClose, ⟨.arrCloseOrComma, some (.arr []), []⟩ :: top :: rest, key, res⟩ := by
      simp [pstep, htop]
    rw [show k + 1 + 1 + n = (k + 1 + n) + 1 by omega, prun_go hg, hn, Res.bind_ok]
    simp only
    rw [hs, Res.bind_ok]
    exact ih _ [] _ _ line n extra rfl rfl rfl (by simp only [List.length_cons] at hl ⊢; omega)

/-- **C34**, negative: for 500 to 511 nested arrays, the text is accepted by the parser, but what the printer
makes of the value is cut short, and the parser refuses it -/
theorem C34_not_stable [Libc] (d : Nat) (hlo : 500 ≤ (nest d).height) (hhi : (nest d).height ≤ 511) (n : Nat) (hn : 500 ≤ n)
    (extra : List Byte) :
    (∃ N, ∀ m, N ≤ m → ∃ t, parsex m (compact (nest d) ++ 0 :: extra) (compact (nest d)).length true =
      .ok (some (.value (some (nest d)), t))) ∧
    ∃ b text t, asprint n false (nest d) = .ok (some (b, text.length)) ∧
      b.take (text.length + 1) = (text ++ [0]).map some ∧
      parsex n (text ++ 0 :: extra) text.length true = .ok (some (.einval, t)) := by
  have hall : ∀ d, (nest d).All rtAtom rtText ∧ (nest d).All shortAtom shortKey ∧ (nest d).Distinct := by
    intro d
    induction d with
    | zero => exact ⟨trivial, trivial, trivial⟩
    | succ d ih => exact ⟨⟨ih.1, trivial⟩, ⟨ih.2.1, trivial⟩, ⟨ih.2.2, trivial⟩⟩
  obtain ⟨h1, h2, h3⟩ := hall d
  constructor
  · obtain ⟨N, h⟩ := C35_parse false (nest d) h1 h3 (Nat.le_trans (depth_le_height _) hhi) extra
    rw [render_compact _ h2] at h
    exact ⟨N, fun m hm => ⟨_, (h m hm).choose_spec⟩⟩
  · obtain ⟨b, e1, e2, -⟩ := C34_truncated d hlo n (by omega)
    obtain ⟨k, rfl⟩ : ∃ k, n = 498 + 1 + k + 1 := ⟨n - 500, by omega⟩
    obtain ⟨s', t, e, hs⟩ := parse_open 498 ⟨.arrValueOrClose, [⟨.done, some (.arr []), []⟩], [], none⟩ [] _ [] 0 k extra
      rfl rfl rfl (by decide)
    refine ⟨b, List.replicate 499 91, t, by rw [e1, List.length_replicate],
      by rw [List.length_replicate]; exact e2, ?_⟩
    have hnx : nextToken ⟨List.replicate 499 91 ++ 0 :: extra, (List.replicate 499 (91 : Byte)).length, 0⟩ =
        .ok (.lb, ⟨List.replicate 498 91 ++ 0 :: extra, 498, 0⟩) := by
      refine nextToken_step ?_
      have := to_append [91] (List.replicate 498 91 ++ 0 :: extra) 498 0
      rw [← this, List.length_replicate, List.length_singleton, tokenStep, if_neg (by simp), List.replicate_succ]
      rfl
    have hs0 : pstep pinit .lb = .ok ⟨.arrValueOrClose, [⟨.done, some (.arr []), []⟩], [], none⟩ := rfl
    rw [parsex, parseWith, prun_go (by decide), hnx, Res.bind_ok]
    simp only
    rw [hs0, Res.bind_ok, e, Res.bind_ok]
    simp [pfinish, hs, Res.map]

/-! ## C38: JSON that should be refused -/

theorem lexes_trailing [Libc] (x : Val) (xs : List Val)
    (h : ∀ y ∈ x :: xs, Lexes NumEnd (render false 1 y) (synOf y).toks) :
    Lexes Any (renderL false 0 (x :: xs) ++ [44, 93]) (body (toksL (synL (x :: xs))) true .rb) := by
  have hend : Lexes Any [44, 93] [.comma, .rb] := lexes_comma.append lexes_rb (fun _ _ => trivial)
  induction xs generalizing x with
  | nil =>
    rw [List.forall_mem_cons] at h
    have := h.1.append hend (fun rest _ => ⟨44, _, rfl, by decide, by decide, by decide, by decide⟩)
    simpa [renderL, synL, toksL, body_cons, bodyTail] using this
  | cons y ys ih =>
    rw [List.forall_mem_cons] at h
    have h2 := lexes_comma.append (ih y h.2) (fun _ _ => trivial)
    have h3 := h.1.append h2 (fun rest _ => ⟨44, _, rfl, by decide, by decide, by decide, by decide⟩)
    rw [synL, toksL, body_cons]
    have e : bodyTail (toksL (synL (y :: ys))) true .rb = .comma :: body (toksL (synL (y :: ys))) true .rb := rfl
    rw [e, renderL]
    simpa [comma] using h3

/-- **C38**, negative: a comma after the last element is accepted, in every array of values as in C35 -/
theorem C38_trailing_comma_false [Libc] (x : Val) (xs : List Val) (ha : (Val.arr (x :: xs)).All rtAtom rtText)
    (hk : (Val.arr (x :: xs)).Distinct) (hd : (Val.arr (x :: xs)).depth ≤ 511) (extra : List Byte) :
    ∃ N, ∀ n, N ≤ n → ∃ t,
      parsex n ([91] ++ List.intercalate [44] (compactL (x :: xs)) ++ [44, 93] ++ 0 :: extra)
        ([91] ++ List.intercalate [44] (compactL (x :: xs)) ++ [44, 93]).length true =
      .ok (some (.value (some (.arr (x :: xs))), t)) := by
  have hr : renderL false 0 (x :: xs) = List.intercalate [44] (compactL (x :: xs)) := by
    have := render_compact (.arr (x :: xs)) (rt_short ha) 0
    rw [render, compact] at this
    simpa [opening, closing] using this
  have hall := ha
  rw [Val.All, allL_mem] at hall
  have hl := lexes_lb.append (lexes_trailing x xs fun y hy => lexes_render false y (hall y hy) 1) (fun _ _ => trivial)
  rw [hr, ← List.append_assoc] at hl
  have hv := synOf_val _ hk
  have hdep := synOf_depth (.arr (x :: xs))
  rw [synOf] at hv hdep
  refine ⟨(Syn.arr (synL (x :: xs)) true).toks.length, fun n hn => ?_⟩
  obtain ⟨line, e⟩ := parsex_lexes (x := .arr (synL (x :: xs)) true) (by rw [Syn.toks]; exact hl)
    (by rw [Syn.depth] at hdep ⊢; omega) (0 :: extra) trivial n hn
  rw [Syn.val] at hv e
  rw [hv] at e
  exact ⟨_, e⟩

/-- **C38**, negative: a number with leading zeros is accepted if it has a fraction -/
theorem C38_leading_zero_false [Libc] (ds es : List Byte) (hds : ∀ c ∈ ds, isDigit c = true)
    (hes : ∀ c ∈ es, isDigit c = true) (hne : es ≠ []) (extra : List Byte) (n : Nat) (hn : 1 ≤ n) :
    ∃ t, parsex n (48 :: ds ++ 46 :: es ++ 0 :: extra) (48 :: ds ++ 46 :: es).length true =
      .ok (some (.value (some (.atom (.dbl (Libc.strtod (48 :: ds ++ 46 :: es))))), t)) := by
  have hnum : parseNumber (48 :: ds ++ 46 :: es ++ 0 :: extra) =
      .ok (some (.dbl (Libc.strtod (48 :: ds ++ 46 :: es)), 0 :: extra)) := by
    have h1 := digits_append (48 :: ds) (by rw [List.forall_mem_cons]; exact ⟨rfl, hds⟩) 46 (es ++ 0 :: extra) (by decide)
    have h2 := digits_append es hes 0 extra (by decide)
    simp only [List.cons_append, List.append_assoc] at h1 ⊢
    rw [parseNumber, peek, Res.bind_ok]
    simp only [show ((48 : Byte) == 45) = false from rfl, Bool.false_eq_true, ↓reduceIte]
    rw [h1, Res.bind_ok]
    simp only [List.isEmpty_cons, Bool.false_eq_true, ↓reduceIte, fraction, peek, Res.bind_ok,
      show ((46 : Byte) == 46) = true from rfl, List.drop_succ_cons, List.drop_zero, h2, Res.map]
    have hemp : es.isEmpty = false := by cases es with | nil => exact absurd rfl hne | cons _ _ => rfl
    simp only [hemp, Bool.false_eq_true, ↓reduceIte, Res.bind_ok, List.isEmpty_cons, List.nil_append,
      List.cons_append, show ((0 : Byte) == 101 || (0 : Byte) == 69) = false from rfl]
  have hl : Lexes (fun r => r = 0 :: extra) (48 :: ds ++ 46 :: es)
      (Syn.toks (.lit (.dbl (Libc.strtod (48 :: ds ++ 46 :: es))))) := by
    refine lexes_one ?_
    rintro _ left line rfl
    have hto := to_append (48 :: ds ++ 46 :: es) (0 :: extra) left line
    simp only [List.cons_append] at hnum hto ⊢
    rw [tokenStep_num (by decide) _ _ _ (by simp), hnum]
    simp only [Res.map, Option.map, Tz.take, hto]
  obtain ⟨line, e⟩ := parsex_lexes hl (by simp [Syn.depth]) (0 :: extra) rfl n hn
  exact ⟨_, e⟩

/-- **C38**, the part that holds: a number with leading zeros and neither fraction nor exponent is refused
(what follows it here is the NUL, or anything else that ends a number) -/
theorem C38_partial [Libc] (neg : Bool) (ds : List Byte) (hds : ∀ c ∈ ds, isDigit c = true) (hne : ds ≠ [])
    (rest : List Byte) (hr : NumEnd rest) (left : Nat) (forceEof : Bool) (n : Nat) (hn : 1 ≤ n) :
    ∃ t, parsex n ((if neg then [45] else []) ++ 48 :: ds ++ rest) (left + 1) forceEof = .ok (some (.einval, t)) := by
  obtain ⟨d, r, rfl, h1, h2, h3, h4⟩ := hr
  obtain ⟨c, cs, hc, hcs⟩ : ∃ c cs, (if neg then [45] else []) ++ 48 :: ds ++ d :: r = c :: cs ∧ (c == 45 || isDigit c) = true ∧
      (c == 45) = neg ∧ (if neg = true then cs else c :: cs) = 48 :: ds ++ d :: r := by
    cases neg with
    | true => exact ⟨45, _, rfl, rfl, rfl, rfl⟩
    | false => exact ⟨48, _, rfl, rfl, rfl, rfl⟩
  obtain ⟨hcs, hneg, hdrop⟩ := hcs
  have hnum : parseNumber (c :: cs) = .ok none := by
    have hd := digits_append (48 :: ds) (by rw [List.forall_mem_cons]; exact ⟨rfl, hds⟩) d r h1
    have hf : fraction (d :: r) = .ok (some ([], d :: r)) := by
      rw [fraction, peek, Res.bind_ok]; simp [h2]
    rw [parseNumber, peek, Res.bind_ok]
    simp only [hneg, List.drop_succ_cons, List.drop_zero]
    rw [hdrop, hd, Res.bind_ok]
    simp only [List.isEmpty_cons, Bool.false_eq_true, ↓reduceIte]
    rw [hf, Res.bind_ok]
    simp only [peek, Res.bind_ok, List.isEmpty_nil, ↓reduceIte]
    rw [if_neg (by simp [h3, h4]), if_pos]
    simpa using hne
  rw [hc]
  have hstep : tokenStep ⟨c :: cs, left + 1, 0⟩ = .ok (some (.err, ⟨c :: cs, left + 1, 0⟩)) := by
    rw [tokenStep_num hcs _ _ _ (by simp), hnum]; rfl
  obtain ⟨k, rfl⟩ : ∃ k, n = k + 1 := ⟨n - 1, by omega⟩
  refine ⟨⟨c :: cs, left + 1, 0⟩, ?_⟩
  rw [parsex, parseWith, prun_go (by decide), nextToken_step hstep, Res.bind_ok]
  have hs : pstep pinit .err = .ok { pinit with st := .error } := rfl
  simp only
  rw [hs, Res.bind_ok, prun_stop (by simp [PSt.goes]), Res.bind_ok]
  simp [pfinish, Res.map]

/-- `[1,true,]` -/
example : (Val.arr [.atom (.i64 1), .atom (.bool true)]).All rtAtom rtText ∧
    (Val.arr [.atom (.i64 1), .atom (.bool true)]).Distinct ∧ (Val.arr [.atom (.i64 1), .atom (.bool true)]).depth ≤ 511 := by
  refine ⟨?_, ?_, ?_⟩
  · simp [Val.All, AllL, rtAtom]
  · simp [Val.Distinct, DistinctL]
  · decide

/-- `007` -/
example : (∀ c ∈ ([48, 55] : List Byte), isDigit c = true) ∧ ([48, 55] : List Byte) ≠ [] := by decide

example : NumEnd [0] ∧ NumEnd [44, 49] ∧ NumEnd [93] := by
  refine ⟨numEnd_nul [], ⟨44, _, rfl, ?_⟩, ⟨93, _, rfl, ?_⟩⟩ <;> decide

end Verif.Json.Props
