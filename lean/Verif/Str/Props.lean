import Verif.Str.Lemmas
import Mathlib.Data.List.Induction
import Mathlib.Data.List.TakeWhile
import Mathlib.Tactic.ByContra

/-! # Properties C24 - C27, C54, C55: strings -/

namespace Verif.Str.Props
open Verif.Str

/-! ## C24 -/

inductive Op where
  | add (c : Byte)
  | catf (text : List Byte)
  | replace (text : List Byte)
  | use (m : Method)

def exec (b : Block) : Op → Res Block
  | .add c => add b c
  | .catf t => catf b t
  | .replace t => replace b t
  | .use m => .ok (use m b)

def execAll (b : Block) : List Op → Res Block
  | [] => .ok b
  | op :: ops => (exec b op).bind (fun b' => execAll b' ops)

/-- the specification: a string and the resize method in force -/
def specStep : List Byte × Method → Op → List Byte × Method
  | (s, m), .add c => (if c = 0 then s else s ++ [c], m)
  | (s, m), .catf t => (s ++ t, m)
  | (_, m), .replace t => (t, m)
  | (s, _), .use m => (s, m)

def specRun (s : List Byte × Method) (ops : List Op) : List Byte × Method := ops.foldl specStep s

/-- a formatted text: no NUL inside, representable length -/
def Text (t : List Byte) : Prop := 0 ∉ t ∧ t.length < 2 ^ 31

/-- `cee_str_add` needs the malloc method and less than 4 GiB -/
def OkOp : List Byte × Method → Op → Prop
  | (s, m), .add _ => m = .malloc ∧ s.length < 2 ^ 32
  | _, .catf t => Text t
  | _, .replace t => Text t
  | _, .use _ => True

def Legal (s : List Byte × Method) : List Op → Prop
  | [] => True
  | op :: ops => OkOp s op ∧ Legal (specStep s op) ops

structure Inv (b : Block) (s : List Byte) (m : Method) : Prop where
  holds : Holds b.cells s
  size : b.cells.length + 64 = b.mem
  cap : b.capacity + 72 = b.mem
  len : s.length ≤ b.capacity
  mem : 128 ≤ b.mem
  method : b.method = m

theorem fmtSize_text {t : List Byte} (h : Text t) : fmtSize t = t.length + 1 := by
  rw [fmtSize, if_pos h.2]

theorem vsnprintf_full (c : Cells) (i n : Nat) (t : List Byte) (hn : t.length < n) :
    vsnprintf c i n t = wrAll c i (t ++ [0]) := by
  rw [vsnprintf, if_neg (by omega), List.take_of_length_le (by omega)]

theorem mk_inv (t : List Byte) (h : Text t) : ∃ b, mk t = .ok b ∧ Inv b t .malloc := by
  rw [mk, fmtSize_text h]
  simp only [headerSize, roundUp]
  generalize hs : ((t.length + 1 + 72) / 64 + 1) * 64 = s
  have h1 : t.length + 73 < s := by omega
  have h2 : 128 ≤ s := by omega
  rw [vsnprintf_full _ _ _ _ (by omega)]
  obtain ⟨c, e, hh, hl⟩ := wrAll_holds0 (c := fresh s) h.1 (by simp [fresh, dataOffset]; omega)
  refine ⟨⟨s, s - 72, c, .malloc⟩, by rw [e]; rfl, hh, ?_, ?_, ?_, h2, rfl⟩
  · simp [hl, fresh, dataOffset]; omega
  · simp; omega
  · simp; omega

theorem exec_inv {b : Block} {s : List Byte} {m : Method} (h : Inv b s m) (op : Op)
    (hop : OkOp (s, m) op) :
    ∃ b', exec b op = .ok b' ∧ Inv b' (specStep (s, m) op).1 (specStep (s, m) op).2 := by
  have hsz := h.size
  have hcap := h.cap
  have hlen := h.len
  have hmem := h.mem
  cases op with
  | use m' => exact ⟨use m' b, rfl, h.holds, h.size, h.cap, h.len, h.mem, rfl⟩
  | add ch =>
    obtain ⟨hm, hl32⟩ := hop
    subst hm
    have key : ∀ c : Cells, Holds c s → s.length + 1 < c.length →
        ∃ c', (wr c s.length ch).bind (fun c => wr c (s.length + 1) 0) = .ok c' ∧
          Holds c' (if ch = 0 then s else s ++ [ch]) ∧ c'.length = c.length := by
      intro c hc hcl
      have e1 : (wr c s.length ch).bind (fun c => wr c (s.length + 1) 0) = wrAll c s.length [ch, 0] := by
        simp only [wrAll]
        cases wr c s.length ch with
        | ok c' =>
          simp only [Res.bind]
          cases wr c' (s.length + 1) 0 <;> rfl
        | ub => rfl
        | segv => rfl
      rw [e1]
      by_cases h0 : ch = 0
      · subst h0
        refine ⟨_, wrAll_ok _ _ _ (by simp; omega), ?_, by simp; omega⟩
        rw [if_pos rfl]
        obtain ⟨h0, r, rfl⟩ := hc
        refine ⟨h0, some 0 :: (s.map some ++ some 0 :: r).drop (s.length + 2), ?_⟩
        rw [List.take_left' (by simp)]
        simp only [List.map_cons, List.map_nil, List.append_assoc, List.cons_append, List.nil_append,
          List.length_cons, List.length_nil]
      · rw [if_neg h0]
        exact wrAll_holds (t := [ch]) (by simpa using fun h => h0 h.symm) hc (by simpa using hcl)
    have hmod : s.length % 2 ^ 32 = s.length := Nat.mod_eq_of_lt hl32
    simp only [exec, add, strlen_holds h.holds, specStep]
    simp only [Res.bind, hmod]
    by_cases hc : s.length < b.capacity
    · rw [if_pos hc]
      obtain ⟨c', e, hh, hl⟩ := key b.cells h.holds (by omega)
      simp only [Res.bind] at e
      cases e1 : wr b.cells s.length ch with
      | ok c1 =>
        rw [e1] at e
        simp only [e1]
        simp only at e
        rw [e]
        refine ⟨_, rfl, hh, by simp [hl]; omega, hcap, ?_, hmem, h.method⟩
        split
        · exact hlen
        · simp; omega
      | ub => rw [e1] at e; simp at e
      | segv => rw [e1] at e; simp at e
    · rw [if_neg hc, h.method]
      have hcs : b.capacity = s.length := by omega
      have hmax : max b.mem 64 = b.mem := by omega
      simp only [hcs, hmax, resize]
      obtain ⟨c', e, hh, hl⟩ := key (b.cells ++ List.replicate (2 * b.mem - b.mem) none)
        (holds_append h.holds _) (by simp; omega)
      simp only [Res.bind] at e
      cases e1 : wr (b.cells ++ List.replicate (2 * b.mem - b.mem) none) s.length ch with
      | ok c1 =>
        rw [e1] at e
        simp only [e1]
        simp only at e
        rw [e]
        refine ⟨_, rfl, hh, ?_, ?_, ?_, ?_, h.method⟩
        · simp [hl]; omega
        · simp [headerSize]; omega
        · simp only [headerSize]
          split
          · omega
          · simp; omega
        · simp; omega
      | ub => rw [e1] at e; simp at e
      | segv => rw [e1] at e; simp at e
  | catf t =>
    have hop : Text t := hop
    simp only [exec, catf, strlen_holds h.holds, specStep, fmtSize_text hop]
    simp only [Res.bind]
    by_cases hc : s.length + (t.length + 1) < b.capacity
    · rw [if_pos hc, vsnprintf_full _ _ _ _ (by omega)]
      obtain ⟨c', e, hh, hl⟩ := wrAll_holds hop.1 h.holds (by omega)
      rw [e]
      exact ⟨_, rfl, hh, by simp [hl]; omega, hcap, by simp; omega, hmem, h.method⟩
    · rw [if_neg hc, vsnprintf_full _ _ _ _ (by omega)]
      simp only [resize]
      generalize hn : 2 * max b.mem (t.length + 1) = n
      obtain ⟨c', e, hh, hl⟩ := wrAll_holds hop.1
        (holds_append h.holds (List.replicate (n - b.mem) none)) (by simp; omega)
      rw [e]
      refine ⟨_, rfl, hh, ?_, ?_, ?_, ?_, h.method⟩
      · simp [hl]; omega
      · simp [headerSize]; omega
      · simp [headerSize]; omega
      · simp; omega
  | replace t =>
    have hop : Text t := hop
    simp only [exec, replace, specStep, fmtSize_text hop]
    by_cases hc : t.length + 1 < b.capacity
    · rw [if_pos hc, vsnprintf_full _ _ _ _ (by omega)]
      obtain ⟨c', e, hh, hl⟩ := wrAll_holds0 (c := b.cells) hop.1 (by omega)
      rw [e]
      exact ⟨_, rfl, hh, by simp [hl]; omega, hcap, by simp; omega, hmem, h.method⟩
    · rw [if_neg hc, vsnprintf_full _ _ _ _ (by omega)]
      simp only [resize]
      generalize hn : 2 * max b.mem (t.length + 1) = n
      obtain ⟨c', e, hh, hl⟩ := wrAll_holds0
        (c := b.cells ++ List.replicate (n - b.mem) none) hop.1 (by simp; omega)
      rw [e]
      refine ⟨_, rfl, hh, ?_, ?_, ?_, ?_, h.method⟩
      · simp [hl]; omega
      · simp [headerSize]; omega
      · simp [headerSize]; omega
      · simp; omega

theorem execAll_inv (ops : List Op) : ∀ {b : Block} {s : List Byte} {m : Method}, Inv b s m →
    Legal (s, m) ops → ∃ b', execAll b ops = .ok b' ∧
      Inv b' (specRun (s, m) ops).1 (specRun (s, m) ops).2 := by
  induction ops with
  | nil => intro b s m h _; exact ⟨b, rfl, h⟩
  | cons op ops ih =>
    intro b s m h hl
    obtain ⟨b1, e1, h1⟩ := exec_inv h op hl.1
    obtain ⟨b2, e2, h2⟩ := ih h1 hl.2
    exact ⟨b2, by rw [execAll, e1]; exact e2, h2⟩

/-- **C24**: any history of appends and replacements on a new string stays inside the allocated block
(no outcome is undefined) and the block holds the NUL terminated string of the specification; its
length is at most the capacity, which is at least 8 bytes less than what is allocated. -/
theorem C24_append (text : List Byte) (ops : List Op) (h0 : Text text)
    (hl : Legal (text, .malloc) ops) :
    ∃ b, (mk text).bind (fun b => execAll b ops) = .ok b ∧
      (∃ rest, b.cells = (specRun (text, .malloc) ops).1.map some ++ some 0 :: rest) ∧
      strlen b.cells = .ok (specRun (text, .malloc) ops).1.length ∧
      (specRun (text, .malloc) ops).1.length ≤ b.capacity ∧
      b.capacity + 8 = b.cells.length ∧ b.cells.length + 64 = b.mem := by
  obtain ⟨b0, e0, i0⟩ := mk_inv text h0
  obtain ⟨b, e, i⟩ := execAll_inv ops i0 hl
  refine ⟨b, by rw [e0]; exact e, i.holds.2, strlen_holds i.holds, i.len, ?_, i.size⟩
  have := i.size; have := i.cap; omega

/-- the hypotheses are met: "abc", a character, a text longer than the block, switching the method -/
example : Text [97, 98, 99] ∧ Legal ([97, 98, 99], .malloc)
    [.add 100, .catf (List.replicate 100 101), .add 0, .use .realloc, .catf [102], .use .malloc,
     .add 103, .replace [104]] := by
  refine ⟨⟨by decide, by decide⟩, ?_⟩
  simp [Legal, OkOp, Text, specStep]

/-- length and capacity may be equal: 56 characters added to an empty string -/
example : ∃ b, (mk []).bind (fun b => execAll b (List.replicate 56 (.add 97))) = .ok b ∧
    strlen b.cells = .ok 56 ∧ b.capacity = 56 := ⟨_, rfl, by decide, by decide⟩

/-- **C24** is false under `cee_use_realloc`: when `cee_str_add` has to grow the block it reads the freed
one.  Any string whose length has reached its capacity is a witness. -/
theorem C24_add_realloc_false : ∃ b : Block,
    (mk []).bind (fun b => execAll b (List.replicate 56 (.add 97) ++ [.use .realloc])) = .ok b ∧
    (∀ ch, add b ch = .ub) := by
  refine ⟨_, rfl, fun ch => rfl⟩

/-- **C24** is false from 4 GiB on: the length is kept in 32 bits, so the character is written over the
start of the string. -/
theorem C24_add_4gib_false (b : Block) (s : List Byte) (h : Inv b s .malloc)
    (hs : s.length = 2 ^ 32) (ch : Byte) (h0 : ch ≠ 0) :
    ∃ b', add b ch = .ok b' ∧ Holds b'.cells [ch] := by
  have hlt := h.holds.length_lt
  have hcap := h.cap
  have hlen := h.len
  simp only [add, strlen_holds h.holds, Res.bind, hs]
  have e0 : (2 ^ 32 : Nat) % 2 ^ 32 = 0 := by decide
  rw [e0, if_pos (by omega)]
  have h1 : 0 < b.cells.length := by omega
  have h2 : 1 < (b.cells.set 0 (some ch)).length := by simp; omega
  simp only [wr, h1, if_true, h2, Nat.zero_add, Res.map]
  refine ⟨_, rfl, by simpa using fun h => h0 h.symm, ?_⟩
  match hc : b.cells, h1, h2 with
  | x :: y :: r, _, _ => exact ⟨r, by simp⟩
  | [x], _, h2 => simp at h2

/-- such strings exist -/
example : ∃ b s, Inv b s .malloc ∧ s.length = 2 ^ 32 := by
  obtain ⟨t, h0, hl⟩ : ∃ t : List Byte, 0 ∉ t ∧ t.length = 2 ^ 30 :=
    ⟨List.replicate (2 ^ 30) 97, fun h => absurd (List.eq_of_mem_replicate h) (by decide),
      List.length_replicate⟩
  have ht : Text t := ⟨h0, by omega⟩
  obtain ⟨b0, -, i0⟩ := mk_inv [] ⟨by simp, by decide⟩
  obtain ⟨b, -, i⟩ := execAll_inv [.catf t, .catf t, .catf t, .catf t] i0 ⟨ht, ht, ht, ht, trivial⟩
  refine ⟨b, _, i, ?_⟩
  simp only [specRun, List.foldl_cons, List.foldl_nil, specStep, List.length_append, List.length_nil, hl]

/-- a string made with `cee_str_strn` has no terminator: appending to it (or taking its length) reads
uninitialised memory -/
theorem C24_strn_false (data : List Byte) (h0 : 0 ∉ data) :
    ∃ b, strn data = .ok b ∧ strlen b.cells = .ub ∧ (∀ t, catf b t = .ub) ∧ ∀ ch, add b ch = .ub := by
  generalize hs : roundUp (data.length + 1 + headerSize) = s
  have h1 : data.length + 65 ≤ s := by simp only [roundUp, headerSize] at hs; omega
  have e := wrAll_ok data (fresh s) 0 (by simp [fresh, dataOffset]; omega)
  have hn : strlen (data.map some ++ none :: List.replicate (s - dataOffset - data.length - 1) none)
      = .ub := by
    clear e
    induction data with
    | nil => rfl
    | cons d data ih =>
      simp only [List.mem_cons, not_or] at h0
      simp only [List.map_cons, List.cons_append, strlen, if_neg (fun h => h0.1 (Eq.symm h))]
      have key : ∀ (l : List Byte) (n : Nat), 0 ∉ l →
          strlen (l.map some ++ none :: List.replicate n none) = .ub := by
        intro l n
        induction l with
        | nil => intro _; rfl
        | cons d l ih =>
          intro h0
          simp only [List.mem_cons, not_or] at h0
          simp only [List.map_cons, List.cons_append, strlen, if_neg (fun h => h0.1 (Eq.symm h)),
            ih h0.2]
          rfl
      rw [key _ _ h0.2]; rfl
  have ec : (fresh s).take 0 ++ data.map some ++ (fresh s).drop (0 + data.length) =
      data.map some ++ none :: List.replicate (s - dataOffset - data.length - 1) none := by
    simp only [List.take_zero, List.nil_append, Nat.zero_add, fresh, List.drop_replicate]
    congr 1
    rw [← List.replicate_succ]
    congr 1
    simp only [dataOffset]; omega
  rw [ec] at e
  refine ⟨⟨s, s - headerSize, _, .malloc⟩, by rw [strn, hs, e]; rfl, hn, ?_, ?_⟩
  · intro t; simp only [catf, hn]; rfl
  · intro ch; simp only [add, hn]; rfl

/-! ## C54: `cee_str_mk_e` -/

/-- without a format the buffer has the requested size (and is empty) -/
theorem C54_mk_e_no_format (n : Nat) : ∃ b, mkE n none = .ok b ∧ n < b.capacity ∧ Holds b.cells [] := by
  simp only [mkE, headerSize, roundUp]
  generalize hs : ((n + 72) / 64 + 1) * 64 = s
  have hf : fresh s = none :: List.replicate (s - dataOffset - 1) none := by
    rw [fresh, ← List.replicate_succ]
    congr 1
    simp only [dataOffset]; omega
  refine ⟨⟨s, s - 72, some 0 :: List.replicate (s - dataOffset - 1) none, .malloc⟩, ?_, ?_, ?_⟩
  · rw [wr, hf]; simp [Res.map]
  · show n < s - 72; omega
  · exact ⟨by simp, _, rfl⟩

/-- **C54** is false: with a format the requested size is ignored; the buffer depends on the text
only.  In particular `cee_str_mk_e(state, 100, "")`, the documented way to get a buffer of 100 bytes
(cee.h:183-185), allocates 64 bytes. -/
theorem C54_mk_e_size_false (text : List Byte) (h : Text text) :
    ∃ b, (∀ n, mkE n (some text) = .ok b) ∧ Holds b.cells text ∧ b.cells.length ≤ text.length + 129 := by
  simp only [mkE, headerSize, roundUp, fmtSize_text h]
  generalize hs : ((text.length + 1 + 72) / 64 + 1) * 64 = s
  obtain ⟨c, e, hh, hl⟩ := wrAll_holds0 (c := fresh s) h.1 (by simp [fresh, dataOffset]; omega)
  refine ⟨⟨s, s - 72, c, .malloc⟩, fun _ => ?_, hh, ?_⟩
  · rw [vsnprintf_full _ _ _ _ (by omega), e]; rfl
  · show c.length ≤ _
    rw [hl]; simp [fresh, dataOffset]; omega

example : Text [] ∧ Text [49, 48] ∧ ∃ b, mkE 100 (some []) = .ok b ∧ b.cells.length = 64 :=
  ⟨⟨by simp, by decide⟩, ⟨by simp, by decide⟩, _, rfl, by decide⟩

/-! ## C25 -/

/-- white space -/
def White (c : Byte) : Prop := c = 32 ∨ c = 10 ∨ c = 13 ∨ c = 9

instance (c : Byte) : Decidable (White c) := by unfold White; infer_instance

/-- the string without its trailing white space -/
def trimR (s : List Byte) : List Byte := (s.reverse.dropWhile (fun c => decide (White c))).reverse

/-- the string without its leading white space -/
def trimL (s : List Byte) : List Byte := s.dropWhile (fun c => decide (White c))

theorem isBlank_iff (c : Byte) : isBlank c = true ↔ White c := by
  simp [isBlank, White, or_assoc]

theorem rtrimLoop_spec (x : Byte) (u : List Byte) : ∀ (rest : Cells), 0 ∉ x :: u →
    ∃ c, rtrimLoop ((x :: u).map some ++ some 0 :: rest) u.length = .ok c ∧
      Holds c (x :: trimR u) ∧ c.length = u.length + rest.length + 2 := by
  induction u using List.reverseRecOn with
  | nil => intro rest h; exact ⟨_, rfl, ⟨h, rest, rfl⟩, by simp⟩
  | append_singleton u y ih =>
    intro rest h0
    have hrd : rd ((x :: (u ++ [y])).map some ++ some 0 :: rest) (u.length + 1) = .ok y := by
      simp [rd, List.getElem?_append]
    rw [List.length_append, List.length_singleton, rtrimLoop, hrd]
    simp only [Res.bind]
    by_cases hy : White y
    · rw [if_pos ((isBlank_iff y).2 hy), wr, if_pos (by simp)]
      have e1 : ((x :: (u ++ [y])).map some ++ some 0 :: rest).set (u.length + 1) (some 0) =
          (x :: u).map some ++ some 0 :: (some 0 :: rest) := by
        rw [List.set_append_left _ _ (by simp)]
        simp [List.set_append]
      rw [e1]
      obtain ⟨c, e, hh, hl⟩ := ih (some 0 :: rest) (by simp at h0 ⊢; exact ⟨h0.1, h0.2.1⟩)
      refine ⟨c, e, ?_, by rw [hl]; simp; omega⟩
      have : trimR (u ++ [y]) = trimR u := by simp [trimR, hy]
      rw [this]; exact hh
    · rw [if_neg (fun h => hy ((isBlank_iff y).1 h))]
      refine ⟨_, rfl, ⟨?_, rest, ?_⟩, by simp; omega⟩
      · have : trimR (u ++ [y]) = u ++ [y] := by simp [trimR, hy]
        rw [this]; exact h0
      · have : trimR (u ++ [y]) = u ++ [y] := by simp [trimR, hy]
        rw [this]

theorem rtrim_eq {b : Block} {n : Nat} (h : strlen b.cells = .ok n) (hn : n < 2 ^ 31) :
    rtrim b = (rtrimLoop b.cells (n - 1)).map fun c => { b with cells := c } := by
  rw [rtrim, h, Res.bind_ok]
  have : (cInt n - 1).toNat = n - 1 := by rw [cInt_small hn]; omega
  rw [this]

/-- what `cee_str_rtrim` does, for every string shorter than 2^31: the first character is never
removed -/
theorem C25_rtrim_exact (b : Block) (s : List Byte) (h : Holds b.cells s) (hs : s.length < 2 ^ 31) :
    ∃ b', rtrim b = .ok b' ∧ b'.cells.length = b.cells.length ∧
      Holds b'.cells (match s with
        | [] => []
        | x :: u => x :: trimR u) := by
  rw [rtrim_eq (strlen_holds h) hs]
  cases s with
  | nil => exact ⟨b, rfl, rfl, h⟩
  | cons x u =>
    obtain ⟨h0, rest, hr⟩ := h
    obtain ⟨c, e, hh, hl⟩ := rtrimLoop_spec x u rest h0
    rw [List.length_cons, Nat.add_sub_cancel, hr, e]
    exact ⟨_, rfl, by simp [hl]; omega, hh⟩

theorem trimR_cons (x : Byte) (u : List Byte) (h : ∃ c ∈ x :: u, ¬ White c) :
    trimR (x :: u) = x :: trimR u := by
  simp only [trimR, List.reverse_cons]
  rw [List.dropWhile_append]
  by_cases hu : ∃ c ∈ u, ¬ White c
  · rw [if_neg]
    · simp
    · obtain ⟨c, hc, hw⟩ := hu
      rw [List.isEmpty_iff, List.dropWhile_eq_nil_iff]
      intro h
      exact hw (by simpa using h c (by simpa using hc))
  · have hx : ¬ White x := by
      obtain ⟨c, hc, hw⟩ := h
      rcases List.mem_cons.1 hc with rfl | hc
      · exact hw
      · exact absurd ⟨c, hc, hw⟩ hu
    have hn : u.reverse.dropWhile (fun c => decide (White c)) = [] := by
      rw [List.dropWhile_eq_nil_iff]
      intro c hc
      by_contra hw
      exact hu ⟨c, by simpa using hc, by simpa using hw⟩
    rw [hn]
    simp [hx]

/-- **C25**, what holds: `cee_str_rtrim` removes exactly the trailing white space of every string that
has some other character.  Missing: strings of white space only (`C25_rtrim_false`), and
`cee_str_ltrim` (`C25_ltrim_false`). -/
theorem C25_rtrim_partial (b : Block) (s : List Byte) (h : Holds b.cells s) (hs : s.length < 2 ^ 31)
    (hw : ∃ c ∈ s, ¬ White c) : ∃ b', rtrim b = .ok b' ∧ Holds b'.cells (trimR s) := by
  obtain ⟨b', e, -, hh⟩ := C25_rtrim_exact b s h hs
  cases s with
  | nil => obtain ⟨c, hc, -⟩ := hw; simp at hc
  | cons x u =>
    refine ⟨b', e, ?_⟩
    rw [trimR_cons x u hw]
    exact hh

/-- **C25** is false of `cee_str_rtrim`: a string of white space only keeps its first character -/
theorem C25_rtrim_false (b : Block) (x : Byte) (u : List Byte) (h : Holds b.cells (x :: u))
    (hs : (x :: u).length < 2 ^ 31) (hw : ∀ c ∈ x :: u, White c) :
    ∃ b', rtrim b = .ok b' ∧ Holds b'.cells [x] ∧ trimR (x :: u) = [] := by
  obtain ⟨b', e, -, hh⟩ := C25_rtrim_exact b _ h hs
  have h1 : ∀ v : List Byte, (∀ c ∈ v, White c) → trimR v = [] := by
    intro v hv
    rw [trimR, List.dropWhile_eq_nil_iff.2]
    · rfl
    · intro c hc; simpa using hv c (by simpa using hc)
  refine ⟨b', e, ?_, h1 _ hw⟩
  have : trimR u = [] := h1 u (fun c hc => hw c (by simp [hc]))
  simpa [this] using hh

/-- the number of leading white space characters -/
def leading (s : List Byte) : Nat := (s.takeWhile (fun c => decide (White c))).length

theorem ltrimLoop_spec (s : List Byte) (rest : Cells) (h0 : 0 ∉ s) (hs : s.length < 2 ^ 31) (n : Nat) :
    ∀ (i start : Nat), i ≤ s.length → s.length - i < n →
    ltrimLoop (s.map some ++ some 0 :: rest) n i start =
      .ok (if leading (s.drop i) = 0 then start else i + leading (s.drop i) - 1) := by
  induction n with
  | zero => intro i start _ h; omega
  | succ n ih =>
    intro i start hi hn
    rw [ltrimLoop]
    by_cases hl : i < s.length
    · have hrd : rd (s.map some ++ some 0 :: rest) i = .ok s[i] := by
        simp [rd, List.getElem?_append, hl]
      have hd : s.drop i = s[i] :: s.drop (i + 1) := List.drop_eq_getElem_cons hl
      have h1 : s[i] ≠ 0 := fun h => h0 (h ▸ List.getElem_mem hl)
      simp only [hrd, Res.bind, if_neg h1]
      by_cases hw : White s[i]
      · rw [if_pos ((isBlank_iff _).2 hw), if_pos (by omega), ih (i + 1) i hl (by omega)]
        have : leading (s.drop i) = leading (s.drop (i + 1)) + 1 := by
          rw [hd, leading, List.takeWhile_cons]; simp [hw, leading]
        rw [this]
        congr 1
        split
        · rename_i h; simp [h]
        · rw [if_neg (by omega)]; omega
      · rw [if_neg (fun h => hw ((isBlank_iff _).1 h))]
        have : leading (s.drop i) = 0 := by
          rw [hd, leading, List.takeWhile_cons]; simp [hw]
        simp [this]
    · have hi : i = s.length := by omega
      subst hi
      have hrd : rd (s.map some ++ some 0 :: rest) s.length = .ok 0 := by
        simp [rd, List.getElem?_append]
      simp [hrd, Res.bind, leading]

theorem rdAll_eq (s : List Byte) (rest : Cells) (n : Nat) : ∀ i, i + n ≤ s.length →
    rdAll (s.map some ++ rest) i n = .ok ((s.drop i).take n) := by
  induction n with
  | zero => intro i _; simp [rdAll]
  | succ n ih =>
    intro i h
    have hl : i < s.length := by omega
    have hrd : rd (s.map some ++ rest) i = .ok s[i] := by
      simp [rd, List.getElem?_append, hl]
    rw [rdAll, hrd]
    simp only [Res.bind]
    rw [ih (i + 1) (by omega), List.drop_eq_getElem_cons hl]
    rfl

/-- what `cee_str_ltrim` does, for every string shorter than 2^31: all but one of the leading white
space characters are removed -/
theorem C25_ltrim_exact (b : Block) (s : List Byte) (h : Holds b.cells s) (hs : s.length < 2 ^ 31) :
    ∃ b', ltrim b = .ok b' ∧ b'.cells.length = b.cells.length ∧
      Holds b'.cells (s.drop (leading s - 1)) := by
  have hlt := h.length_lt
  have hlead : leading s ≤ s.length := (List.takeWhile_prefix _).length_le
  have e2 := strlen_holds h
  obtain ⟨h0, rest, hr⟩ := h
  have e1 : ltrimLoop b.cells (b.cells.length + 1) 0 0 = .ok (leading s - 1) := by
    rw [hr, ltrimLoop_spec s rest h0 hs _ 0 0 (by omega) (by simp; omega), List.drop_zero]
    split
    · rename_i h; rw [h]
    · rw [Nat.zero_add]
  have e3 : cInt (sub64 s.length (leading s - 1)) = ((s.length - (leading s - 1) : Nat) : Int) := by
    rw [sub64_le (by omega), cInt_small (by omega)]
  have e0 : ltrim b = (rdAll b.cells (leading s - 1) (s.length - (leading s - 1))).bind fun bs =>
      (wrAll b.cells 0 bs).bind fun c =>
      (wr c (s.length - (leading s - 1)) 0).map fun c => { b with cells := c } := by
    rw [ltrim, e1, Res.bind_ok, e2, Res.bind_ok]
    simp only []
    rw [e3, if_neg (by omega), Int.toNat_natCast]
  rw [e0]
  have e4 : rdAll b.cells (leading s - 1) (s.length - (leading s - 1)) =
      .ok (s.drop (leading s - 1)) := by
    rw [hr, rdAll_eq s _ _ _ (by omega), List.take_of_length_le (by simp)]
  rw [e4]
  show ∃ b', (wrAll b.cells 0 (s.drop (leading s - 1))).bind _ = .ok b' ∧ _
  obtain ⟨c, e5, hh, hl⟩ := wrAll_holds0 (c := b.cells) (t := s.drop (leading s - 1))
    (fun h => h0 (List.mem_of_mem_drop h)) (by simp; omega)
  rw [wrAll_append] at e5
  cases e6 : wrAll b.cells 0 (s.drop (leading s - 1)) with
  | ok c1 =>
    rw [e6] at e5
    simp only [Res.bind, Nat.zero_add, List.length_drop] at e5
    rw [← wr_eq] at e5
    show ∃ b', (wr c1 (s.length - (leading s - 1)) 0).map _ = .ok b' ∧ _
    rw [e5]
    exact ⟨_, rfl, hl, hh⟩
  | ub => rw [e6] at e5; simp [Res.bind] at e5
  | segv => rw [e6] at e5; simp [Res.bind] at e5

/-- **C25**, what holds of `cee_str_ltrim`: a string without leading white space is left alone -/
theorem C25_ltrim_partial (b : Block) (s : List Byte) (h : Holds b.cells s) (hs : s.length < 2 ^ 31)
    (hw : ∀ c ∈ s.head?, ¬ White c) : ∃ b', ltrim b = .ok b' ∧ Holds b'.cells s ∧ trimL s = s := by
  obtain ⟨b', e, -, hh⟩ := C25_ltrim_exact b s h hs
  cases s with
  | nil => exact ⟨b', e, by simpa using hh, rfl⟩
  | cons x u =>
    have hx : ¬ White x := hw x (by simp)
    have : leading (x :: u) = 0 := by simp [leading, hx]
    rw [this] at hh
    exact ⟨b', e, by simpa using hh, by simp [trimL, hx]⟩

/-- **C25** is false of `cee_str_ltrim`: whenever there is leading white space, one such character is
left -/
theorem C25_ltrim_false (b : Block) (x : Byte) (u : List Byte) (h : Holds b.cells (x :: u))
    (hs : (x :: u).length < 2 ^ 31) (hx : White x) :
    ∃ b' w, ltrim b = .ok b' ∧ White w ∧ Holds b'.cells (w :: trimL (x :: u)) := by
  obtain ⟨b', e, -, hh⟩ := C25_ltrim_exact b _ h hs
  have key : ∀ (u : List Byte) (x : Byte), White x →
      ∃ w, White w ∧ (x :: u).drop (leading (x :: u) - 1) = w :: trimL (x :: u) := by
    intro u
    induction u with
    | nil => intro x hx; exact ⟨x, hx, by simp [leading, trimL, hx]⟩
    | cons y u ih =>
      intro x hx
      by_cases hy : White y
      · obtain ⟨w, hw, e⟩ := ih y hy
        refine ⟨w, hw, ?_⟩
        have h1 : leading (x :: y :: u) = leading (y :: u) + 1 := by simp [leading, hx]
        have h2 : leading (y :: u) = leading u + 1 := by simp [leading, hy]
        have h3 : trimL (x :: y :: u) = trimL (y :: u) := by simp [trimL, hx]
        rw [h1, h3, ← e, h2]
        simp
      · exact ⟨x, hx, by simp [leading, trimL, hx, hy]⟩
  obtain ⟨w, hw, e2⟩ := key u x hx
  exact ⟨b', w, e, hw, by rw [← e2]; exact hh⟩

/-- concrete blocks: " a " and "  " -/
example : ∃ b, mk [32, 97, 32] = .ok b ∧ Holds b.cells [32, 97, 32] ∧ (∃ c ∈ [32, 97, 32], ¬ White c) ∧
    White 32 := by
  obtain ⟨b, e, i⟩ := mk_inv [32, 97, 32] ⟨by simp, by decide⟩
  exact ⟨b, e, i.holds, ⟨97, by simp, by decide⟩, by decide⟩

example : ∃ b, mk [32, 32] = .ok b ∧ Holds b.cells [32, 32] ∧ (∀ c ∈ [32, 32], White c) := by
  obtain ⟨b, e, i⟩ := mk_inv [32, 32] ⟨by simp, by decide⟩
  exact ⟨b, e, i.holds, by decide⟩

end Verif.Str.Props
