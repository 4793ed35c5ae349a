import Verif.List.Props
import Verif.Str.Props
import Verif.Hash.Props

/-!
# Growth of lists, strings and tables (C116)

The sizes of the memory of a list, string or table after every operation are taken from the models of
`list.c`, `str.c` and `musl-hsearch.c`; nothing new is modelled here.
-/

namespace Verif.Cost.Growth

/-! ## Sequences of sizes

`c` is the size at the start, the list holds the size after every operation. -/

/-- sizes given up: the old size, whenever the size changes.  That many cells are copied by `realloc`
(list.c:77-80, 91-94) or by `memcpy` (cee-resize.h:50-55), where they also stay allocated. -/
def moved : Nat → List Nat → Nat
  | _, [] => 0
  | c, d :: ds => (if d = c then 0 else c) + moved d ds

/-- how often the size changes -/
def changes : Nat → List Nat → Nat
  | _, [] => 0
  | c, d :: ds => (if d = c then 0 else 1) + changes d ds

/-- the last size -/
def last : Nat → List Nat → Nat
  | c, [] => c
  | _, d :: ds => last d ds

/-- sizes that at least double whenever they change -/
def Doubling : Nat → List Nat → Prop
  | _, [] => True
  | c, d :: ds => (d = c ∨ 2 * c ≤ d) ∧ Doubling d ds

theorem Doubling.moved_le : ∀ (ds : List Nat) {c : Nat}, Doubling c ds → c + moved c ds ≤ last c ds
  | [], c, _ => by simp [moved, last]
  | d :: ds, c, h => by
    have := Doubling.moved_le ds h.2
    simp only [moved, last]
    rcases h.1 with rfl | h1
    · simpa using this
    · split <;> omega

theorem Doubling.changes_le : ∀ (ds : List Nat) {c : Nat}, Doubling c ds → c * 2 ^ changes c ds ≤ last c ds
  | [], c, _ => by simp [changes, last]
  | d :: ds, c, h => by
    have := Doubling.changes_le ds h.2
    simp only [changes, last]
    by_cases hd : d = c
    · subst hd; simpa using this
    · rw [if_neg hd, Nat.pow_add, Nat.pow_one, ← Nat.mul_assoc]
      have h1 : c * 2 ≤ d := by have := h.1.resolve_left hd; omega
      exact Nat.le_trans (Nat.mul_le_mul_right _ h1) this

theorem last_mem (ds : List Nat) (c : Nat) : last c ds ∈ c :: ds := by
  induction ds generalizing c with
  | nil => simp [last]
  | cons d ds ih => simp only [last]; exact List.mem_cons_of_mem _ (ih d)

/-! ## Lists -/

section List
open Verif.CList Verif.CList.Props

variable {E : Type} [DecidableEq E]

/-- number of appends and insertions -/
def adds : List (CList.Props.Op E) → Nat
  | [] => 0
  | .append _ :: ops => 1 + adds ops
  | .insert _ _ :: ops => 1 + adds ops
  | _ :: ops => adds ops

/-- the largest size reached by the abstract sequence -/
def peak (A : List (Option E)) : List (CList.Props.Op E) → Nat
  | [] => A.length
  | op :: ops => max A.length (peak (CList.Props.specStep A op).2 ops)

theorem append_capacity {l l' : CList E} {e : Option E} (h : append l e = .ok l') :
    l'.capacity = (grow l).capacity := by
  simp only [append, Res.bind_eq_ok, Res.pure_eq, Res.ok.injEq] at h
  obtain ⟨_, -, _, -, rfl⟩ := h
  rfl

theorem insert_capacity {l l' : CList E} {i : Int} {e : Option E} (h : CList.insert l i e = .ok l') :
    l'.capacity = (grow l).capacity := by
  simp only [CList.insert, Res.bind_eq_ok, Res.pure_eq, Res.ok.injEq] at h
  obtain ⟨_, -, _, -, _, -, rfl⟩ := h
  rfl

/-- the new capacity: the old one, or when the array is full its double (1 from 0) -/
theorem grow_capacity {l : CList E} {A : List (Option E)} (r : Rel l A) (hA : A.length < 2 ^ 31) :
    (grow l).capacity = l.capacity ∧ l.size < l.capacity ∨
    l.size = l.capacity ∧ (grow l).capacity = max 1 (2 * l.capacity) := by
  have hs := r.size
  have hle := r.le
  unfold grow
  split
  · next h =>
    right
    refine ⟨h, ?_⟩
    simp only
    rw [Nat.mod_eq_of_lt (by split <;> omega)]
    split <;> omega
  · left; exact ⟨rfl, by omega⟩

/-- one operation: cost, potential `2 * size - capacity`, capacity -/
theorem exec_growth {l : CList E} {A : List (Option E)} (r : Rel l A) (hA : A.length < 2 ^ 31)
    (op : CList.Props.Op E) (ops : List (CList.Props.Op E)) (hl : CList.Props.Legal l.pol A (op :: ops)) :
    ∃ l', CList.Props.exec l op = .ok ((CList.Props.specStep A op).1, l') ∧ Rel l' (CList.Props.specStep A op).2 ∧
      l'.pol = l.pol ∧ (CList.Props.specStep A op).2.length ≤ A.length + 1 ∧
      (l'.capacity = l.capacity ∨ l'.capacity = max 1 (2 * l.capacity) ∧
        l'.capacity ≤ 2 * (CList.Props.specStep A op).2.length) ∧
      (if l'.capacity = l.capacity then 0 else l.capacity) +
        (2 * (CList.Props.specStep A op).2.length - l'.capacity) ≤
        2 * adds [op] + (2 * A.length - l.capacity) := by
  obtain ⟨l', h, r', hc, hp, hn⟩ := CList.Props.exec_spec r hA op ops hl
  refine ⟨l', h, r', hp, hn, ?_⟩
  have hs := r.size
  have key : l'.capacity = (grow l).capacity → (CList.Props.specStep A op).2.length = A.length + 1 →
      adds [op] = 1 → (l'.capacity = l.capacity ∨ l'.capacity = max 1 (2 * l.capacity) ∧
        l'.capacity ≤ 2 * (CList.Props.specStep A op).2.length) ∧
      (if l'.capacity = l.capacity then 0 else l.capacity) +
        (2 * (CList.Props.specStep A op).2.length - l'.capacity) ≤
        2 * adds [op] + (2 * A.length - l.capacity) := by
    intro h1 h2 h3
    rw [h2, h3, h1]
    rcases grow_capacity r hA with ⟨h4, h5⟩ | ⟨h4, h5⟩
    · rw [h4]; exact ⟨.inl rfl, by simp; omega⟩
    · rw [h5]
      refine ⟨.inr ⟨rfl, by omega⟩, ?_⟩
      split <;> omega
  have key2 : l' = l ∨ l'.capacity = l.capacity → (CList.Props.specStep A op).2.length ≤ A.length →
      (l'.capacity = l.capacity ∨ l'.capacity = max 1 (2 * l.capacity) ∧
        l'.capacity ≤ 2 * (CList.Props.specStep A op).2.length) ∧
      (if l'.capacity = l.capacity then 0 else l.capacity) +
        (2 * (CList.Props.specStep A op).2.length - l'.capacity) ≤
        2 * adds [op] + (2 * A.length - l.capacity) := by
    intro h1 h2
    have h1 : l'.capacity = l.capacity := by rcases h1 with h1 | h1; rw [h1]; exact h1
    rw [h1]
    exact ⟨.inl rfl, by rw [if_pos rfl]; omega⟩
  cases op with
  | append e =>
    simp only [CList.Props.exec] at h
    cases h1 : append l e with
    | ok l1 =>
      rw [h1] at h
      simp only [Res.map, Res.ok.injEq, Prod.mk.injEq] at h
      exact key (by rw [← h.2]; exact append_capacity h1) (by simp [CList.Props.specStep]) rfl
    | ub => rw [h1] at h; simp [Res.map] at h
    | segv => rw [h1] at h; simp [Res.map] at h
  | insert i e =>
    rw [CList.Props.exec_insert] at h
    have h0 : 0 ≤ i ∧ i ≤ A.length := by have := hl.1; exact this.2
    have hlen : (CList.Props.specStep A (.insert i e)).2.length = A.length + 1 := by
      simp only [CList.Props.specStep, List.length_append, List.length_cons, List.length_take, List.length_drop]
      omega
    cases h1 : CList.insert l i e with
    | ok l1 =>
      rw [h1] at h
      simp only [Res.map, Res.ok.injEq, Prod.mk.injEq] at h
      exact key (by rw [← h.2]; exact insert_capacity h1) hlen rfl
    | ub => rw [h1] at h; simp [Res.map] at h
    | segv => rw [h1] at h; simp [Res.map] at h
  | remove i =>
    have hi : IsInt i := hl.1
    by_cases hin : 0 ≤ i ∧ i < A.length
    · obtain ⟨k, rfl⟩ := Int.eq_ofNat_of_zero_le hin.1
      obtain ⟨l1, h1, -, hc1, -⟩ := CList.Props.remove_spec r hA k (by omega)
      simp only [CList.Props.exec, h1, Res.map, Res.ok.injEq, Prod.mk.injEq, Option.getD_some] at h
      refine key2 (.inr (by rw [← h.2, ← hc1])) ?_
      simp only [CList.Props.specStep]
      rw [if_pos hin]
      simp only [List.length_eraseIdx]
      split <;> omega
    · have h1 := CList.Props.remove_out r hA i hi hin
      simp only [CList.Props.exec, h1, Res.map, Res.ok.injEq, Prod.mk.injEq, Option.getD_some] at h
      refine key2 (.inl h.2.symm) ?_
      simp only [CList.Props.specStep]
      rw [if_neg hin]
  | size =>
    simp only [CList.Props.exec, Res.ok.injEq, Prod.mk.injEq] at h
    exact key2 (.inl h.2.symm) (Nat.le_refl _)

theorem adds_cons (op : CList.Props.Op E) (ops : List (CList.Props.Op E)) :
    adds (op :: ops) = adds [op] + adds ops := by
  cases op <;> simp [adds]

theorem peak_ge (A : List (Option E)) (ops : List (CList.Props.Op E)) : A.length ≤ peak A ops := by
  cases ops <;> simp [peak]

theorem execAll_growth (ops : List (CList.Props.Op E)) {l : CList E} {A : List (Option E)} (r : Rel l A)
    (hA : A.length + ops.length < 2 ^ 31) (hl : CList.Props.Legal l.pol A ops) :
    ∃ outs caps l', CList.Props.execAll l ops = .ok (outs, caps, l') ∧ l'.capacity = last l.capacity caps ∧
      Rel l' (CList.Props.specRun A ops).2 ∧
      moved l.capacity caps ≤ 2 * adds ops + (2 * A.length - l.capacity) ∧
      Doubling l.capacity caps ∧ (∀ c ∈ caps, c ≤ max l.capacity (2 * peak A ops)) ∧
      peak A ops ≤ l'.capacity := by
  induction ops generalizing l A with
  | nil =>
    exact ⟨_, _, _, rfl, rfl, r, by simp [moved], trivial, by simp, by
      have := r.le; have := r.size; simp only [peak]; omega⟩
  | cons op ops ih =>
    simp only [List.length_cons] at hA
    obtain ⟨l1, h1, r1, p1, n1, c1, b1⟩ := exec_growth r (by omega) op ops hl
    obtain ⟨outs, caps, l2, h2, e2, r2, b2, d2, c2, g2⟩ := ih r1 (by omega) (by rw [p1]; exact hl.2)
    have hpk := peak_ge (CList.Props.specStep A op).2 ops
    have hle := r.le
    have hsz := r.size
    refine ⟨(CList.Props.specStep A op).1 :: outs, l1.capacity :: caps, l2, ?_, ?_, ?_, ?_, ?_, ?_, ?_⟩
    rotate_left
    · simp only [last]; exact e2
    · exact r2
    · rw [adds_cons, moved]; omega
    · refine ⟨?_, d2⟩
      rcases c1 with c1 | c1
      · exact .inl c1
      · right; omega
    · intro c hc
      simp only [peak]
      rcases List.mem_cons.1 hc with rfl | hc
      · rcases c1 with c1 | ⟨-, c1⟩ <;> omega
      · have := c2 c hc
        rcases c1 with c1 | ⟨-, c1⟩ <;> omega
    · simp only [peak]
      have : l.capacity ≤ l2.capacity := by
        have h3 : l.capacity ≤ l1.capacity := by rcases c1 with c1 | ⟨c1, -⟩ <;> omega
        have h4 := d2.moved_le
        rw [← e2] at h4
        omega
      omega
    · simp only [CList.Props.execAll, h1, Res.bind, Res.map, h2, capacityOf]

/-- **C116** (lists).  From a list of any initial capacity, any history of fewer than 2^31 operations: the
cells copied by all enlargements together are at most twice the appends and insertions made; every
enlargement at least doubles the capacity, so `k` of them multiply it by at least `2 ^ k`; and the capacity
is at most the initial one or twice the largest size reached, which fits in it.  *Partial*: in proportion to
the present size it is not (`C116_list_false`). -/
theorem C116_list_partial (pol : Policy) (cap : Nat) (hc : cap < 2 ^ 60) (ops : List (CList.Props.Op E))
    (hn : ops.length < 2 ^ 31) (hl : CList.Props.Legal pol [] ops) :
    ∃ outs caps l, CList.Props.execAll (mkE pol cap) ops = .ok (outs, caps, l) ∧
      moved cap caps ≤ 2 * adds ops ∧ cap * 2 ^ changes cap caps ≤ capacityOf (some l) ∧
      capacityOf (some l) ≤ max cap (2 * peak [] ops) ∧ peak [] ops ≤ capacityOf (some l) := by
  obtain ⟨outs, caps, l, h, e, -, b, d, c, g⟩ := execAll_growth ops (CList.Props.Rel_mk pol cap hc)
    (by simpa using hn) hl
  refine ⟨outs, caps, l, h, by simpa [mkE] using b, ?_, ?_, g⟩
  · have := d.changes_le
    rw [← e] at this
    exact this
  · show l.capacity ≤ _
    rw [e]
    rcases List.mem_cons.1 (last_mem caps (mkE pol cap : CList E).capacity) with h | h
    · rw [h]; exact Nat.le_max_left _ _
    · exact c _ h

/-- starting from capacity 0 the first enlargement makes one cell: from a positive capacity on, the number of
enlargements is at most the logarithm of the final capacity -/
theorem changes_log {c k f : Nat} (hc : 0 < c) (h : c * 2 ^ k ≤ f) : k ≤ Nat.log2 f := by
  have h1 : 2 ^ k ≤ f := Nat.le_trans (Nat.le_mul_of_pos_left _ hc) h
  exact (Nat.le_log2 (by have := Nat.two_pow_pos k; omega)).2 h1

/-- filling and emptying a list -/
def fillDrain (e : E) (n : Nat) : List (CList.Props.Op E) :=
  List.replicate n (.append (some e)) ++ List.replicate n (.remove 0)

theorem fill_spec (e : E) (rest : List (CList.Props.Op E)) : ∀ (n : Nat) (A : List (Option E)),
    (CList.Props.Legal .rc A (List.replicate n (.append (some e)) ++ rest) ↔
      CList.Props.Legal .rc (A ++ List.replicate n (some e)) rest) ∧
    (CList.Props.specRun A (List.replicate n (.append (some e)) ++ rest)).2 =
      (CList.Props.specRun (A ++ List.replicate n (some e)) rest).2 ∧
    peak (A ++ List.replicate n (some e)) rest ≤ peak A (List.replicate n (.append (some e)) ++ rest)
  | 0, A => by simp
  | n + 1, A => by
    obtain ⟨h1, h2, h3⟩ := fill_spec e rest n (A ++ [some e])
    have e1 : A ++ [some e] ++ List.replicate n (some e) = A ++ List.replicate (n + 1) (some e) := by
      rw [List.replicate_succ, List.append_assoc]; rfl
    rw [e1] at h1 h2 h3
    refine ⟨?_, ?_, ?_⟩
    · rw [List.replicate_succ, List.cons_append, CList.Props.Legal]
      simp only [CList.Props.specStep, h1, List.replicate_succ]
      simp
    · rw [List.replicate_succ (a := CList.Props.Op.append (some e)), List.cons_append, CList.Props.specRun]
      simp only [CList.Props.specStep]
      exact h2
    · rw [List.replicate_succ (a := CList.Props.Op.append (some e)), List.cons_append, peak]
      simp only [CList.Props.specStep]
      omega

theorem drain_spec : ∀ (n : Nat) (A : List (Option E)),
    CList.Props.Legal .rc A (List.replicate n (.remove 0)) ∧
    (A.length ≤ n → (CList.Props.specRun A (List.replicate n (.remove 0))).2 = [])
  | 0, A => ⟨trivial, fun h => by
      have : A = [] := List.eq_nil_of_length_eq_zero (by omega)
      subst this; rfl⟩
  | n + 1, A => by
    refine ⟨⟨by simp [IsInt], (drain_spec n _).1⟩, fun h => ?_⟩
    rw [List.replicate_succ, CList.Props.specRun]
    refine (drain_spec n _).2 ?_
    cases A with
    | nil => simp [CList.Props.specStep]
    | cons a A => simp [CList.Props.specStep] at h ⊢; omega

/-- **C116** is false for the present size: a list that is empty again keeps the array of its largest size,
for any `n` below 2^30 one of at least `n` cells. -/
theorem C116_list_false (e : E) (n : Nat) (hn : n < 2 ^ 30) :
    CList.Props.Legal .rc [] (fillDrain e n) ∧
    ∃ outs caps l, CList.Props.execAll (mkE .rc 0) (fillDrain e n) = .ok (outs, caps, l) ∧
      CList.sizeOf (some l) = 0 ∧ n ≤ capacityOf (some l) := by
  obtain ⟨h1, h2, h3⟩ := fill_spec e (List.replicate n (.remove 0)) n []
  obtain ⟨d1, d2⟩ := drain_spec n ([] ++ List.replicate n (some e))
  have hl : CList.Props.Legal .rc [] (fillDrain e n) := h1.2 d1
  obtain ⟨outs, caps, l, h, -, r, -, -, -, g⟩ := execAll_growth (fillDrain e n)
    (CList.Props.Rel_mk (E := E) .rc 0 (by decide)) (by simp [fillDrain]; omega) hl
  refine ⟨hl, outs, caps, l, h, ?_, ?_⟩
  · show l.size = 0
    rw [r.size, fillDrain, h2, d2 (by simp)]
    rfl
  · have h4 := peak_ge ([] ++ List.replicate n (some e)) (List.replicate n (.remove 0))
    simp only [List.nil_append, List.length_replicate] at h4 h3
    show n ≤ l.capacity
    exact Nat.le_trans (Nat.le_trans h4 h3) g

/-- six appends grow from 0 over 1, 2 and 4 to 8 cells: 7 are copied, at most twice the appends -/
example : (CList.Props.execAll (mkE .rc 0) (List.replicate 6 (.append (some 'a')))).map (fun r => r.2.1) =
      .ok [1, 2, 4, 4, 8, 8] ∧
    moved 0 [1, 2, 4, 4, 8, 8] = 7 ∧ changes 0 [1, 2, 4, 4, 8, 8] = 4 ∧
    adds (List.replicate 6 (.append (some 'a'))) = 6 ∧ peak [] (List.replicate 6 (.append (some 'a'))) = 6 ∧
    CList.Props.Legal .rc [] (List.replicate 6 (.append (some 'a'))) :=
  ⟨rfl, rfl, rfl, rfl, rfl, by simp [CList.Props.Legal, List.replicate]⟩

/-- the history of C10, with insertions, removals and bad indices -/
example : CList.Props.Legal .rc [] demoOps ∧ demoOps.length < 2 ^ 31 ∧ adds demoOps = 5 ∧ peak [] demoOps = 4 :=
  ⟨demo_legal, by decide, rfl, by decide⟩

end List

/-! ## Strings -/

section Str
open Verif.Str Verif.Str.Props

/-- sizes of the memory block of a string after every operation -/
def mems (b : Block) : List Str.Props.Op → List Nat
  | [] => []
  | op :: ops => match Str.Props.exec b op with
    | .ok b' => b'.mem :: mems b' ops
    | _ => []

/-- the longest text the string held -/
def longest (s : List Byte × Method) : List Str.Props.Op → Nat
  | [] => s.1.length
  | op :: ops => max s.1.length (longest (Str.Props.specStep s op) ops)

theorem longest_ge (s : List Byte × Method) (ops : List Str.Props.Op) : s.1.length ≤ longest s ops := by
  cases ops <;> simp [longest]

/-- one operation: the block stays or at least doubles, and then is at most twice the new text with header
and terminator -/
theorem exec_mem {b b' : Block} {s : List Byte} {m : Method} (h : Inv b s m) {op : Str.Props.Op}
    (hop : OkOp (s, m) op) (he : Str.Props.exec b op = .ok b') :
    b'.mem = b.mem ∨ 2 * b.mem ≤ b'.mem ∧
      b'.mem ≤ 2 * (max s.length (Str.Props.specStep (s, m) op).1.length + 73) := by
  have hcap := h.cap
  have hlen := h.len
  have hmem := h.mem
  cases op with
  | use m' => simp only [Str.Props.exec, Str.use, Res.ok.injEq] at he; rw [← he]; exact .inl rfl
  | add ch =>
    simp only [Str.Props.exec, Str.add, strlen_holds h.holds, Res.bind] at he
    rw [Nat.mod_eq_of_lt hop.2] at he
    split at he
    · left
      cases h1 : wr b.cells s.length ch with
      | ok c =>
        rw [h1] at he
        simp only at he
        cases h2 : wr c (s.length + 1) 0 with
        | ok c' => rw [h2] at he; simp only [Res.map, Res.ok.injEq] at he; rw [← he]
        | ub => rw [h2] at he; simp [Res.map] at he
        | segv => rw [h2] at he; simp [Res.map] at he
      | ub => rw [h1] at he; simp at he
      | segv => rw [h1] at he; simp at he
    · next hc =>
      right
      have e1 : b'.mem = 2 * max b.mem 64 := by
        rw [h.method, hop.1] at he
        simp only at he
        cases h1 : wr (resize b (2 * max b.mem 64)).cells b.capacity ch with
        | ok c =>
          rw [h1] at he
          simp only at he
          cases h2 : wr c (b.capacity + 1) 0 with
          | ok c' => rw [h2] at he; simp only [Res.map, Res.ok.injEq] at he; rw [← he]; rfl
          | ub => rw [h2] at he; simp [Res.map] at he
          | segv => rw [h2] at he; simp [Res.map] at he
        | ub => rw [h1] at he; simp at he
        | segv => rw [h1] at he; simp at he
      rw [e1]
      omega
  | catf t =>
    have hop : Text t := hop
    simp only [Str.Props.exec, Str.catf, strlen_holds h.holds, Res.bind, fmtSize_text hop] at he
    split at he
    · left
      cases h1 : vsnprintf b.cells s.length (t.length + 1) t with
      | ok c => rw [h1] at he; simp only [Res.map, Res.ok.injEq] at he; rw [← he]
      | ub => rw [h1] at he; simp [Res.map] at he
      | segv => rw [h1] at he; simp [Res.map] at he
    · next hc =>
      right
      have e1 : b'.mem = 2 * max b.mem (t.length + 1) := by
        cases h1 : vsnprintf (resize b (2 * max b.mem (t.length + 1))).cells s.length (t.length + 1) t with
        | ok c => rw [h1] at he; simp only [Res.map, Res.ok.injEq] at he; rw [← he]; rfl
        | ub => rw [h1] at he; simp [Res.map] at he
        | segv => rw [h1] at he; simp [Res.map] at he
      rw [e1]
      simp only [Str.Props.specStep, List.length_append]
      omega
  | replace t =>
    have hop : Text t := hop
    simp only [Str.Props.exec, Str.replace, fmtSize_text hop] at he
    split at he
    · left
      cases h1 : vsnprintf b.cells 0 (t.length + 1) t with
      | ok c => rw [h1] at he; simp only [Res.map, Res.ok.injEq] at he; rw [← he]
      | ub => rw [h1] at he; simp [Res.map] at he
      | segv => rw [h1] at he; simp [Res.map] at he
    · next hc =>
      right
      have e1 : b'.mem = 2 * max b.mem (t.length + 1) := by
        cases h1 : vsnprintf (resize b (2 * max b.mem (t.length + 1))).cells 0 (t.length + 1) t with
        | ok c => rw [h1] at he; simp only [Res.map, Res.ok.injEq] at he; rw [← he]; rfl
        | ub => rw [h1] at he; simp [Res.map] at he
        | segv => rw [h1] at he; simp [Res.map] at he
      rw [e1]
      simp only [Str.Props.specStep]
      omega

theorem execAll_mem (ops : List Str.Props.Op) : ∀ {b : Block} {s : List Byte} {m : Method}, Inv b s m →
    Str.Props.Legal (s, m) ops → ∃ b', Str.Props.execAll b ops = .ok b' ∧
      Inv b' (Str.Props.specRun (s, m) ops).1 (Str.Props.specRun (s, m) ops).2 ∧
      b'.mem = last b.mem (mems b ops) ∧ (mems b ops).length = ops.length ∧
      Doubling b.mem (mems b ops) ∧ b'.mem ≤ max b.mem (2 * (longest (s, m) ops + 73)) := by
  induction ops with
  | nil => intro b s m h _; exact ⟨b, rfl, h, rfl, rfl, trivial, Nat.le_max_left _ _⟩
  | cons op ops ih =>
    intro b s m h hl
    obtain ⟨b1, e1, h1⟩ := exec_inv h op hl.1
    obtain ⟨b2, e2, h2, l2, n2, d2, c2⟩ := ih h1 hl.2
    have hm := exec_mem h hl.1 e1
    change b2.mem ≤ max b1.mem (2 * (longest (Str.Props.specStep (s, m) op) ops + 73)) at c2
    have hlg := longest_ge (Str.Props.specStep (s, m) op) ops
    refine ⟨b2, by rw [Str.Props.execAll, e1]; exact e2, h2, ?_, ?_, ?_, ?_⟩
    · simp only [mems, e1, last]; exact l2
    · simp only [mems, e1, List.length_cons, n2]
    · simp only [mems, e1]
      exact ⟨by rcases hm with h | h; exact .inl h; exact .inr h.1, d2⟩
    · simp only [longest]
      rcases hm with h | ⟨-, h⟩ <;> omega

/-- **C116** (strings).  Any history of appends and replacements on a new string: the block is as large as the
first one or at most twice the longest text held with header (72 bytes) and terminator; the blocks given up
on the way, which with the malloc method stay allocated until the state is deleted, are together less than
the present one; and `k` enlargements multiply the size by at least `2 ^ k`.  *Partial*: in proportion to the
present text it is not (`C116_str_false`). -/
theorem C116_str_partial (text : List Byte) (ops : List Str.Props.Op) (h0 : Text text)
    (hl : Str.Props.Legal (text, .malloc) ops) :
    ∃ b0 b, mk text = .ok b0 ∧ Str.Props.execAll b0 ops = .ok b ∧ (mems b0 ops).length = ops.length ∧
      b0.mem ≤ text.length + 137 ∧
      b.mem ≤ max b0.mem (2 * (longest (text, .malloc) ops + 73)) ∧
      (ops = [] ∨ (mems b0 ops).getLast? = some b.mem) ∧
      moved b0.mem (mems b0 ops) + b0.mem ≤ b.mem ∧
      b0.mem * 2 ^ changes b0.mem (mems b0 ops) ≤ b.mem := by
  obtain ⟨b0, e0, i0⟩ := mk_inv text h0
  obtain ⟨b, e, -, l, n, d, c⟩ := execAll_mem ops i0 hl
  refine ⟨b0, b, e0, e, n, ?_, c, ?_, ?_, ?_⟩
  · rw [mk, fmtSize_text h0] at e0
    simp only [headerSize, roundUp] at e0
    cases h1 : vsnprintf (fresh (((text.length + 1 + 72) / 64 + 1) * 64)) 0
        (((text.length + 1 + 72) / 64 + 1) * 64) text with
    | ok c => rw [h1] at e0; simp only [Res.map, Res.ok.injEq] at e0; rw [← e0]; show _ * 64 ≤ _; omega
    | ub => rw [h1] at e0; simp [Res.map] at e0
    | segv => rw [h1] at e0; simp [Res.map] at e0
  · cases hm : mems b0 ops with
    | nil => left; rw [hm] at n; exact List.eq_nil_of_length_eq_zero n.symm
    | cons x xs =>
      right
      rw [l, hm]
      have : ∀ (xs : List Nat) (x : Nat), (x :: xs).getLast? = some (last x xs) := by
        intro xs
        induction xs with
        | nil => intro x; rfl
        | cons y ys ih => intro x; rw [List.getLast?_cons_cons, last, ih]
      exact this xs x
  · have := d.moved_le; omega
  · rw [l]; exact d.changes_le

/-- **C116** is false for the present text: emptied by `cee_str_replace`, a string keeps the block of its
longest text. -/
theorem C116_str_false (text : List Byte) (h0 : Text text) :
    ∃ b0 b, mk text = .ok b0 ∧ Str.Props.execAll b0 [.replace []] = .ok b ∧ strlen b.cells = .ok 0 ∧
      text.length < b.mem := by
  obtain ⟨b0, e0, i0⟩ := mk_inv text h0
  obtain ⟨b, e, i, l, -, d, -⟩ := execAll_mem [.replace []] i0 ⟨⟨by simp, by simp⟩, trivial⟩
  refine ⟨b0, b, e0, e, strlen_holds i.holds, ?_⟩
  have h1 := d.moved_le
  have h2 := i0.len
  have h3 := i0.cap
  omega

/-- a short text, a longer one that needs a new block, a character, and a shorter text: 128 bytes are given up
for 256, which stay -/
example : Text [97] ∧ Str.Props.Legal ([97], .malloc) [.catf (List.replicate 60 98), .add 99, .replace [100]] ∧
    (mk [97]).map (fun b => (b.mem, mems b [.catf (List.replicate 60 98), .add 99, .replace [100]])) =
      .ok (128, [256, 256, 256]) ∧
    moved 128 [256, 256, 256] = 128 ∧ changes 128 [256, 256, 256] = 1 ∧
    longest ([97], .malloc) [.catf (List.replicate 60 98), .add 99, .replace [100]] = 62 := by
  refine ⟨⟨by decide, by decide⟩, ?_, by decide +kernel, rfl, rfl, by decide +kernel⟩
  simp [Str.Props.Legal, OkOp, Text, Str.Props.specStep]

end Str

/-! ## Tables and dictionaries -/

section Hash
open Verif.Hash Verif.Hash.Props

variable {V : Type}

/-- number of slots of the table after every insertion -/
def slots (t : Tab V) : List (Bool × Key × V) → List Nat
  | [] => []
  | (mem, k, v) :: ops => match henter mem t k v with
    | .ok (_, t') => t'.entries.length :: slots t' ops
    | _ => []

/-- number of entries in a table -/
def entryCount (t : Tab V) : Nat := (t.entries.filter Option.isSome).length

theorem entryCount_eq (t : Tab V) : entryCount t = (t.entries.filterMap id).length := by
  unfold entryCount
  induction t.entries with
  | nil => rfl
  | cons e es ih => cases e <;> simp [ih]

theorem TabInv_count {t : Tab V} {A : List (Key × V)} (I : TabInv t A) :
    entryCount t = A.length ∧ t.entries.length = t.mask + 1 ∧ 4 * A.length ≤ 3 * t.entries.length ∧
      8 ≤ t.entries.length ∧ ∃ k, t.entries.length = 2 ^ k := by
  obtain ⟨k, h3, -, hm, Ik⟩ := I.ex
  have hl := I.load
  have h8 := pow3 h3
  have hlen := Ik.len
  refine ⟨by rw [entryCount_eq, Ik.perm.length_eq], by omega, ?_, by omega, k, hlen⟩
  obtain ⟨j, rfl⟩ : ∃ j, k = j + 2 := ⟨k - 2, by omega⟩
  have : 2 ^ (j + 2) = 4 * 2 ^ j := by rw [Nat.pow_add]; omega
  omega

theorem henter_mask {t t' : Tab V} {mem : Bool} {key : Key} {v : V} {r : Option Nat}
    (h : henter mem t key v = .ok (r, t')) :
    t'.mask = t.mask ∨
      (t.mask - t.mask / 4 < add64 t.used 1 ∧ t'.mask = tabSize (mul64 2 (add64 t.used 1)) - 1 ∧
        t'.used = add64 t.used 1) := by
  unfold henter at h
  cases h1 : lookup t key (keyhash key) with
  | ub => rw [h1] at h; simp at h
  | segv => rw [h1] at h; simp at h
  | ok p =>
    rw [h1] at h
    simp only at h
    split at h
    · simp only [Res.ok.injEq, Prod.mk.injEq] at h; left; rw [← h.2]
    · split at h
      · next hf =>
        simp only [resize] at h
        split at h
        · next t2 hr =>
          split at hr
          · cases h2 : rehash (tabSize (mul64 2 (add64 t.used 1)) - 1) (t.entries.set p (some (key, v)))
              (List.replicate (tabSize (mul64 2 (add64 t.used 1))) none) with
            | ok es =>
              rw [h2] at hr
              simp only [Res.ok.injEq, Option.some.injEq] at hr
              right
              have : t' = t2 := by
                split at h
                · simp only [Res.ok.injEq, Prod.mk.injEq] at h; exact h.2.symm
                · simp at h
                · simp at h
              rw [this, ← hr]
              exact ⟨hf, rfl, rfl⟩
            | ub => rw [h2] at hr; simp at hr
            | segv => rw [h2] at hr; simp at hr
          · simp at hr
        · simp only [Res.ok.injEq, Prod.mk.injEq] at h; left; rw [← h.2]
        · simp at h
        · simp at h
      · simp only [Res.ok.injEq, Prod.mk.injEq] at h; left; rw [← h.2]
    · simp at h

/-- one insertion: the table stays as large or at least doubles, and then has at most four slots for each
entry -/
theorem henter_growth {t t' : Tab V} {A A' : List (Key × V)} (I : TabInv t A) (I' : TabInv t' A') {mem : Bool}
    {key : Key} {v : V} {r : Option Nat} (h : henter mem t key v = .ok (r, t')) :
    t'.entries.length = t.entries.length ∨
      2 * t.entries.length ≤ t'.entries.length ∧ t'.entries.length ≤ 4 * A'.length := by
  obtain ⟨-, hs, hl, h8, k, hk⟩ := TabInv_count I
  obtain ⟨-, hs', hl', h8', k', hk'⟩ := TabInv_count I'
  have hk60 : t.entries.length < 2 ^ 60 := by
    obtain ⟨k, -, h, -, Ik⟩ := I.ex
    rw [Ik.len]
    exact Nat.pow_lt_pow_right (by omega) h
  have hu := I.used
  have hu' := I'.used
  rcases henter_mask h with h1 | ⟨hf, h1, h2⟩
  · left; omega
  · right
    rw [add64_small (by omega)] at hf h1 h2
    rw [mul64_small (by omega)] at h1
    have hle := tabSize_le (2 * (t.used + 1))
    have hge := tabSize_ge (2 * (t.used + 1)) (by omega)
    have hlt : t.entries.length < t'.entries.length := by omega
    refine ⟨?_, by omega⟩
    rw [hk, hk'] at hlt ⊢
    have : k < k' := (Nat.pow_lt_pow_iff_right (by omega)).1 hlt
    have : 2 ^ (k + 1) ≤ 2 ^ k' := Nat.pow_le_pow_right (by omega) this
    rw [Nat.pow_succ] at this
    omega

theorem enterAll_growth (ops : List (Bool × Key × V)) : ∀ {t : Tab V} {A : List (Key × V)}, TabInv t A →
    ∃ bs t' A', enterAll t ops = .ok (bs, t') ∧ TabInv t' A' ∧ A.length ≤ A'.length ∧
      t'.entries.length = last t.entries.length (slots t ops) ∧ (slots t ops).length = ops.length ∧
      Doubling t.entries.length (slots t ops) ∧ t'.entries.length ≤ max t.entries.length (4 * A'.length) := by
  induction ops with
  | nil => intro t A I; exact ⟨[], t, A, rfl, I, Nat.le_refl _, rfl, rfl, trivial, Nat.le_max_left _ _⟩
  | cons op ops ih =>
    obtain ⟨mem, key, v⟩ := op
    intro t A I
    obtain ⟨r, t1, A1, h1, I1, hA⟩ : ∃ r t1 A1, henter mem t key v = .ok (r, t1) ∧ TabInv t1 A1 ∧
        A.length ≤ A1.length := by
      rcases henter_spec I mem key v with ⟨v0, p, -, h2, -⟩ | ⟨-, p, t', h2, -, A', h4, h5⟩ | ⟨_, h2, _⟩
      · exact ⟨_, t, A, h2, I, Nat.le_refl _⟩
      · exact ⟨_, t', A', h2, h5, by rw [h4.length_eq]; simp⟩
      · exact ⟨_, t, A, h2, I, Nat.le_refl _⟩
    have hg := henter_growth I I1 h1
    obtain ⟨bs, t2, A2, h2, I2, hA2, l2, n2, d2, c2⟩ := ih I1
    refine ⟨r.isSome :: bs, t2, A2, by simp only [enterAll, h1, Res.bind, h2, Res.map], I2, by omega, ?_, ?_, ?_, ?_⟩
    · simp only [slots, h1, last]; exact l2
    · simp only [slots, h1, List.length_cons, n2]
    · simp only [slots, h1]
      exact ⟨by rcases hg with h | h; exact .inl h; exact .inr h.1, d2⟩
    · rcases hg with h | ⟨-, h⟩ <;> omega

/-- **C116** (tables).  In a table after any history of insertions, with any pattern of allocation failures:
the slots are at most the initial ones or four for each entry, at least a quarter of them is empty, the tables
given up on the way were together smaller than the present one, and `k` enlargements multiplied the size by at
least `2 ^ k`. -/
theorem C116_table (mem : Bool) (nel : Nat) (t0 : Tab V) (h0 : hcreate mem nel = some t0)
    (ops : List (Bool × Key × V)) :
    ∃ bs t, enterAll t0 ops = .ok (bs, t) ∧ (slots t0 ops).length = ops.length ∧
      t0.entries.length ≤ max 8 (2 * nel) ∧
      t.entries.length ≤ max t0.entries.length (4 * entryCount t) ∧
      4 * entryCount t ≤ 3 * t.entries.length ∧
      moved t0.entries.length (slots t0 ops) + t0.entries.length ≤ t.entries.length ∧
      t0.entries.length * 2 ^ changes t0.entries.length (slots t0 ops) ≤ t.entries.length := by
  obtain ⟨bs, t, A, h, I, -, l, n, d, c⟩ := enterAll_growth ops (TabInv_create h0)
  obtain ⟨e1, e2, e3, -, -⟩ := TabInv_count I
  refine ⟨bs, t, h, n, ?_, by rw [e1]; exact c, by rw [e1]; exact e3, ?_, ?_⟩
  · unfold hcreate at h0
    split at h0
    · simp only [Option.some.injEq] at h0
      rw [← h0]
      simp only [List.length_replicate]
      exact tabSize_le nel
    · simp at h0
  · have := d.moved_le; omega
  · rw [l]; exact d.changes_le

/-- **C116** is false for dictionaries: an addition under a key that is present changes nothing in the table
but makes the lists of keys and values longer.  After `n` additions under one key the table has one entry and
the lists have `n` elements. -/
theorem C116_dict_false [DecidableEq V] (mem : Bool) (size hsize : Nat) (hs : size < 2 ^ 60) (d0 : Dict V)
    (hd : Hash.mkE mem size hsize = some d0) (key : Key) (v : V) (n : Nat) (hn : n < 2 ^ 31) :
    ∃ d, addAll d0 (List.replicate n (key, some v)) = .ok d ∧ entryCount d.tab ≤ 1 ∧
      CList.sizeOf (some d.keys) = n ∧ CList.sizeOf (some d.vals) = n ∧
      n ≤ CList.capacityOf (some d.keys) ∧ n ≤ CList.capacityOf (some d.vals) := by
  have D0 : DInv d0 [] := by
    unfold Hash.mkE at hd
    split at hd
    · next t ht =>
      simp only [Option.some.injEq] at hd
      subst hd
      exact ⟨CList.Props.Rel_mk .rc size hs, CList.Props.Rel_mk .rc size hs, rfl, rfl, [],
        TabInv_create ht, by intro k v; simp [firstWrite]⟩
    · simp at hd
  obtain ⟨d, h, D⟩ := addAll_spec (List.replicate n (key, some v)) D0 (by simpa using hn)
    (fun x hx => by rw [List.eq_of_mem_replicate hx]; simp)
  rw [List.nil_append] at D
  have hk := D.keys.size
  have hv := D.vals.size
  simp only [List.length_map, List.length_replicate] at hk hv
  refine ⟨d, h, ?_, hk, hv, by rw [← hk]; exact D.keys.le, by rw [← hv]; exact D.vals.le⟩
  obtain ⟨A, I, hA⟩ := D.tab
  rw [(TabInv_count I).1]
  obtain ⟨k, -, -, -, Ik⟩ := I.ex
  have hsub : A.map (·.1) ⊆ [key] := by
    intro x hx
    obtain ⟨⟨k0, v0⟩, h1, h2⟩ := List.mem_map.1 hx
    simp only at h2
    subst h2
    have h3 := (hA _ _).1 h1
    have : ∀ m, firstWrite (List.replicate m (key, some v)) k0 = some v0 → k0 ∈ [key] := by
      intro m
      induction m with
      | zero => intro h; simp [firstWrite] at h
      | succ m ih =>
        intro h
        simp only [List.replicate_succ, firstWrite] at h
        split at h
        · next e => simp [e]
        · exact ih h
    exact this n h3
  have := (List.subperm_of_subset Ik.nodup hsub).length_le
  simpa using this

/-- a table for three entries has 8 slots; with the seventh entry it has 16; a failing allocation leaves it -/
example : hcreate true 3 = some (⟨List.replicate 8 none, 7, 0⟩ : Tab Nat) ∧
    slots (⟨List.replicate 8 none, 7, 0⟩ : Tab Nat)
      [(true, [97], 1), (true, [98], 2), (true, [99], 3), (true, [97], 4), (true, [105], 5), (true, [106], 6),
       (true, [107], 7), (false, [108], 8), (true, [108], 9)] = [8, 8, 8, 8, 8, 8, 8, 8, 16] ∧
    moved 8 [8, 8, 8, 8, 8, 8, 8, 8, 16] = 8 ∧ changes 8 [8, 8, 8, 8, 8, 8, 8, 8, 16] = 1 :=
  ⟨hcreate_three, by decide +kernel, rfl, rfl⟩

/-- a dictionary for three entries can be made -/
example : (Hash.mkE true 3 3 : Option (Dict Nat)).isSome := by
  have h : tabSize 3 = 8 := by decide
  simp [Hash.mkE, hcreate, h, callocOk]

end Hash
end Verif.Cost.Growth
