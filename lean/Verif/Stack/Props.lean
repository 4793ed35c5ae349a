import Verif.Stack.Model

/-! # Properties of `cee_stack` (C13) -/

namespace Verif.Stack.Props
open Verif.CList (Cell touch)

variable {E : Type} [DecidableEq E]

/-! ## Specification: a LIFO of at most `n` pointers, top first -/

inductive Op (E : Type) where
  | push (e : Option E)
  | pop
  | top (nth : Nat)
  | size
  | empty
  | full

inductive Out (E : Type) where
  | flag (b : Bool)
  | ptr (e : Option E)
  | num (n : Nat)
  deriving DecidableEq

/-- one operation on an abstract stack of at most `n` elements -/
def specStep (n : Nat) (A : List (Option E)) : Op E → Out E × List (Option E)
  | .push e => if A.length < n then (.flag true, e :: A) else (.flag false, A)
  | .pop => (.ptr (A.head?.getD none), A.tail)
  | .top k => (.ptr (A[k]?.getD none), A)
  | .size => (.num A.length, A)
  | .empty => (.flag A.isEmpty, A)
  | .full => (.flag (decide (A.length = n)), A)

def specRun (n : Nat) (A : List (Option E)) : List (Op E) → List (Out E) × List (Option E)
  | [] => ([], A)
  | op :: ops =>
    let r := specStep n A op
    let r' := specRun n r.2 ops
    (r.1 :: r'.1, r'.2)

/-- NULL may be pushed only with policy NOOP -/
def Legal (pol : Policy) (ops : List (Op E)) : Prop :=
  pol = .noop ∨ ∀ op ∈ ops, ∀ e, op = .push e → e ≠ none

def exec (m : Stack E) : Op E → Res (Out E × Stack E)
  | .push e => (push m e).map (fun r => (.flag r.1, r.2))
  | .pop => (pop m).map (fun r => (.ptr r.1, r.2))
  | .top k => (topN m k).map (fun r => (.ptr r, m))
  | .size => .ok (.num (size m), m)
  | .empty => .ok (.flag (empty m), m)
  | .full => .ok (.flag (full m), m)

def execAll (m : Stack E) : List (Op E) → Res (List (Out E) × Stack E)
  | [] => .ok ([], m)
  | op :: ops =>
    (exec m op).bind (fun r => (execAll r.2 ops).map (fun r' => (r.1 :: r'.1, r'.2)))

/-- the elements held, top first, read with `cee_stack_top` -/
def contents (m : Stack E) : List (Res (Option E)) := (List.range (size m)).map (topN m)

structure Rel (n : Nat) (m : Stack E) (A : List (Option E)) : Prop where
  cap : m.capacity = n
  len : m.cells.length = n
  n60 : n < 2 ^ 60
  used : m.used = A.length
  le : A.length ≤ n
  top : m.top = decr64 A.length
  cont : m.cells.take A.length = A.reverse.map some
  nn : m.pol ≠ .noop → none ∉ A

omit [DecidableEq E] in
theorem Rel_mk (pol : Policy) (n : Nat) (h : n < 2 ^ 60) : Rel n (mkE pol n : Stack E) [] := by
  refine ⟨rfl, ?_, h, rfl, by simp, ?_, by simp, by simp⟩
  · simp only [mkE, List.length_replicate, allocCells]
    rw [Nat.mod_eq_of_lt (by omega)]; omega
  · simp only [mkE, List.length_nil]
    unfold decr64 toU64
    decide

omit [DecidableEq E] in
theorem topN_spec {n : Nat} {m : Stack E} {A : List (Option E)} (r : Rel n m A) (k : Nat) :
    topN m k = .ok (A[k]?.getD none) := by
  unfold topN
  rw [r.used]
  by_cases h : A.length = 0 ∨ A.length ≤ k
  · rw [if_pos h]
    have : A.length ≤ k := by omega
    simp [List.getElem?_eq_none this]
  · rw [if_neg h]
    have hlt : k < A.length := by omega
    obtain ⟨a, ha⟩ : ∃ a, A.length = a + 1 := ⟨A.length - 1, by omega⟩
    rw [r.top, ha, decr64_succ, sub64_le (by omega)]
    have : m.cells[a - k]? = some (some A[k]) := by
      have h1 : (m.cells.take A.length)[a - k]? = m.cells[a - k]? := by
        rw [List.getElem?_take]; simp; intro h; omega
      rw [← h1, r.cont]
      rw [List.getElem?_map, List.getElem?_reverse (by omega)]
      have : A.length - 1 - (a - k) = k := by omega
      rw [this, List.getElem?_eq_getElem hlt]
      rfl
    rw [this]
    simp [List.getElem?_eq_getElem hlt]

theorem exec_spec {n : Nat} {m : Stack E} {A : List (Option E)} (r : Rel n m A) (op : Op E)
    (hl : m.pol = .noop ∨ ∀ e, op = .push e → e ≠ none) :
    ∃ m', exec m op = .ok ((specStep n A op).1, m') ∧ Rel n m' (specStep n A op).2 ∧
      m'.pol = m.pol := by
  cases op with
  | push e =>
    simp only [exec, specStep]
    unfold push
    rw [r.used, r.cap]
    by_cases h : A.length = n
    · rw [if_pos h, if_neg (by omega)]
      exact ⟨m, rfl, r, rfl⟩
    · have hlt : A.length < n := by have := r.le; omega
      rw [if_neg h, if_pos hlt]
      have h60 := r.n60
      have ht : incr64 m.top = A.length := by rw [r.top]; exact incr64_decr64 (by omega)
      have hu : incr64 A.length = A.length + 1 := by unfold incr64; rw [if_neg (by omega)]
      have htouch : touch m.pol e = .ok () := by
        unfold touch; rw [if_neg]; intro hh; rcases hl with h | h
        · exact hh.2 h
        · exact h e rfl hh.1
      simp only [ht, hu, r.len, hlt, if_true, htouch, Res.ok_bind, Res.pure_eq, Res.map]
      refine ⟨_, rfl, ⟨rfl, by simp [r.len], r.n60, by simp, by simp only [List.length_cons]; omega, ?_, ?_, ?_⟩, rfl⟩
      · simp [decr64_succ]
      · simp only [List.length_cons, List.reverse_cons, List.map_append, List.map_cons, List.map_nil]
        rw [List.take_add_one, ← r.cont]
        congr 1
        · rw [List.take_set_of_le (Nat.le_refl _)]
        · rw [List.getElem?_set_self (by rw [r.len]; exact hlt)]; rfl
      · intro hp
        simp only [List.mem_cons, not_or]
        refine ⟨?_, r.nn hp⟩
        rcases hl with h | h
        · exact absurd h hp
        · exact fun h' => h e rfl h'.symm
  | pop =>
    simp only [exec, specStep]
    unfold pop
    rw [r.used]
    cases A with
    | nil => exact ⟨m, by simp [Res.map], r, rfl⟩
    | cons a A =>
      rw [if_neg (by simp)]
      have hc := r.cont
      simp only [List.length_cons, List.reverse_cons, List.map_append, List.map_cons,
        List.map_nil] at hc
      have hcell : m.cells[m.top]? = some (some a) := by
        rw [r.top, List.length_cons, decr64_succ]
        have h1 : (m.cells.take (A.length + 1))[A.length]? = m.cells[A.length]? := by
          rw [List.getElem?_take]; simp
        rw [← h1, hc, List.getElem?_append_right (by simp)]
        simp
      have htouch : touch m.pol a = .ok () := by
        unfold touch; rw [if_neg]; intro hh
        have := r.nn hh.2
        rw [hh.1] at this
        simp at this
      rw [hcell]
      simp only [htouch, Res.ok_bind, Res.pure_eq, Res.map, List.head?_cons, List.tail_cons,
        Option.getD_some]
      have hle := r.le
      simp only [List.length_cons] at hle
      refine ⟨_, rfl, ⟨r.cap, r.len, r.n60, ?_, by omega, ?_, ?_, ?_⟩, rfl⟩
      · simp [decr64_succ]
      · simp only [r.top, List.length_cons, decr64_succ]
      · have := congrArg (List.take A.length) hc
        rw [List.take_take, List.take_append_of_le_length (by simp)] at this
        rw [Nat.min_eq_left (by omega)] at this
        rw [this, List.take_of_length_le (by simp)]
      · intro hp h; exact r.nn hp (List.mem_cons_of_mem _ h)
  | top k =>
    simp only [exec, topN_spec r, Res.map, specStep]
    exact ⟨m, rfl, r, rfl⟩
  | size => exact ⟨m, by simp [exec, size, specStep, r.used], r, rfl⟩
  | empty =>
    refine ⟨m, ?_, r, rfl⟩
    cases A <;> simp [exec, empty, specStep, r.used]
  | full =>
    refine ⟨m, ?_, r, rfl⟩
    have := r.le
    simp only [exec, full, specStep, r.used, r.cap]
    congr 4
    simp; omega

theorem execAll_spec {n : Nat} (ops : List (Op E)) {m : Stack E} {A : List (Option E)}
    (r : Rel n m A) (hl : Legal m.pol ops) :
    ∃ m', execAll m ops = .ok ((specRun n A ops).1, m') ∧ Rel n m' (specRun n A ops).2 := by
  induction ops generalizing m A with
  | nil => exact ⟨m, rfl, r⟩
  | cons op ops ih =>
    obtain ⟨m1, h1, r1, p1⟩ := exec_spec r op (by
      rcases hl with h | h
      · exact .inl h
      · exact .inr (fun e he => h op (List.mem_cons_self ..) e he))
    obtain ⟨m2, h2, r2⟩ := ih r1 (by
      rw [p1]
      rcases hl with h | h
      · exact .inl h
      · exact .inr (fun o ho => h o (List.mem_cons_of_mem _ ho)))
    refine ⟨m2, ?_, r2⟩
    simp only [execAll, h1, Res.bind, h2, Res.map, specRun]

/-- **C13.**  Every history of operations on a fresh stack of capacity `n` (any `n < 2^60`, so that
the block size does not wrap) runs without undefined behaviour and returns exactly what an abstract
LIFO of at most `n` elements returns; the final contents (read from the top) are those of the LIFO,
and there are at most `n` of them. -/
theorem C13_stack_refines (pol : Policy) (n : Nat) (hn : n < 2 ^ 60) (ops : List (Op E))
    (hl : Legal pol ops) :
    ∃ m, execAll (mkE pol n) ops = .ok ((specRun n [] ops).1, m) ∧
      contents m = (specRun n [] ops).2.map .ok ∧ (specRun n [] ops).2.length ≤ n := by
  obtain ⟨m, h, r⟩ := execAll_spec ops (Rel_mk pol n hn) hl
  refine ⟨m, h, ?_, r.le⟩
  apply List.ext_getElem
  · simp [contents, size, r.used]
  · intro i h1 h2
    simp only [contents, List.getElem_map, List.getElem_range, topN_spec r]
    simp only [List.length_map] at h2
    simp [List.getElem?_eq_getElem h2]

def demoOps : List (Op Nat) :=
  [.pop, .push (some 1), .push (some 2), .push (some 3), .full, .top 1, .top 2, .pop, .pop, .pop,
   .empty, .push (some 7), .size]

/-- a history that hits both ends of a stack of capacity 2 -/
example : Legal .rc demoOps ∧ (specRun 2 [] demoOps) =
    ([.ptr none, .flag true, .flag true, .flag false, .flag true, .ptr (some 1), .ptr none,
      .ptr (some 2), .ptr (some 1), .ptr none, .flag true, .flag true, .num 1], [some 7]) := by
  refine ⟨.inr ?_, by decide⟩
  intro op h e he
  subst he
  simp [demoOps] at h
  rcases h with h | h | h | h <;> simp [h]

end Verif.Stack.Props
