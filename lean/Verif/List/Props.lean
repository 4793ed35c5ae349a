import Verif.List.Model

/-! # Properties of `cee_list` (C10, C11, C12, C52) -/

namespace Verif.CList.Props

variable {E : Type} [DecidableEq E]

/-! ## Specification: a list of pointers -/

inductive Op (E : Type) where
  | append (e : Option E)
  | insert (index : Int) (e : Option E)
  | remove (index : Int)
  | size

inductive Out where
  | unit
  | bool (b : Bool)
  | num (n : Nat)
  deriving DecidableEq, Repr

def specStep (A : List (Option E)) : Op E → Out × List (Option E)
  | .append e => (.unit, A ++ [e])
  | .insert i e => (.unit, A.take i.toNat ++ e :: A.drop i.toNat)
  | .remove i => if 0 ≤ i ∧ i < A.length then (.bool true, A.eraseIdx i.toNat) else (.bool false, A)
  | .size => (.num A.length, A)

def specRun (A : List (Option E)) : List (Op E) → List Out × List (Option E)
  | [] => ([], A)
  | op :: ops =>
    let r := specStep A op
    let r' := specRun r.2 ops
    (r.1 :: r'.1, r'.2)

/-- a C `int` -/
def IsInt (i : Int) : Prop := -2 ^ 31 ≤ i ∧ i < 2 ^ 31

/-- client obligations: NULL elements only with policy NOOP; insertion index within the list;
`remove` takes any `int` -/
def Legal (pol : Policy) (A : List (Option E)) : List (Op E) → Prop
  | [] => True
  | op :: ops =>
    (match op with
     | .append e => e ≠ none ∨ pol = .noop
     | .insert i e => (e ≠ none ∨ pol = .noop) ∧ 0 ≤ i ∧ i ≤ A.length
     | .remove i => IsInt i
     | .size => True) ∧ Legal pol (specStep A op).2 ops

def exec (l : CList E) : Op E → Res (Out × CList E)
  | .append e => (append l e).map (fun l' => (.unit, l'))
  | .insert i e => (insert l i e).map (fun l' => (.unit, l'))
  | .remove i => (remove (some l) i).map (fun r => (.bool r.1, r.2.getD l))
  | .size => .ok (.num (sizeOf (some l)), l)

/-- also records the capacities passed through -/
def execAll (l : CList E) : List (Op E) → Res (List Out × List Nat × CList E)
  | [] => .ok ([], [], l)
  | op :: ops =>
    (exec l op).bind (fun r => (execAll r.2 ops).map
      (fun r' => (r.1 :: r'.1, capacityOf (some r.2) :: r'.2.1, r'.2.2)))

/-- what `v->a[0..size)` shows to the client -/
def contents (l : CList E) : List (Cell E) := l.cells.take l.size

/-! ## Invariant -/

structure Rel (l : CList E) (A : List (Option E)) : Prop where
  len : l.cells.length = l.capacity
  cap : l.capacity < 2 ^ 60
  size : l.size = A.length
  le : l.size ≤ l.capacity
  cont : l.cells.take l.size = A.map some
  nn : l.pol ≠ .noop → none ∉ A

theorem allocCells_small {n : Nat} (h : n < 2 ^ 61) : allocCells n = n := by
  unfold allocCells
  rw [Nat.mod_eq_of_lt (by omega)]
  omega

omit [DecidableEq E] in
theorem rd_ok {cells : List (Cell E)} {i : Nat} {e : Option E} (h : cells[i]? = some (some e)) :
    rd cells (i : Int) = .ok e := by
  unfold rd
  rw [if_neg (by omega)]
  simp [h]

omit [DecidableEq E] in
theorem wr_ok {cells : List (Cell E)} {i : Nat} (e : Option E) (h : i < cells.length) :
    wr cells (i : Int) e = .ok (cells.set i (some e)) := by
  unfold wr
  rw [if_neg (by omega)]
  simp [h]

omit [DecidableEq E] in
theorem grow_spec {l : CList E} {A : List (Option E)} (r : Rel l A) (hA : A.length < 2 ^ 31) :
    Rel (grow l) A ∧ (grow l).size < (grow l).capacity ∧ l.capacity ≤ (grow l).capacity ∧
      (grow l).pol = l.pol ∧ (grow l).size = l.size := by
  unfold grow
  split
  · next h =>
    have hsz := r.size
    have hcap : (l.capacity + (if l.capacity ≠ 0 then l.capacity else 1)) % 2 ^ 64
        = l.capacity + (if l.capacity ≠ 0 then l.capacity else 1) := by
      apply Nat.mod_eq_of_lt; split <;> omega
    have hlt : l.capacity + (if l.capacity ≠ 0 then l.capacity else 1) < 2 ^ 60 := by
      split <;> omega
    have hgt : l.capacity < l.capacity + (if l.capacity ≠ 0 then l.capacity else 1) := by
      split <;> omega
    simp only [hcap]
    generalize l.capacity + (if l.capacity ≠ 0 then l.capacity else 1) = c at *
    rw [allocCells_small (by omega)]
    have hlen := r.len
    refine ⟨⟨?_, hlt, r.size, ?_, ?_, r.nn⟩, ?_, ?_, trivial, trivial⟩
    · simp [reallocCells]; omega
    · simp only; have := r.le; omega
    · simp only [reallocCells]
      rw [List.take_of_length_le (l := l.cells) (by omega),
        List.take_append_of_le_length (by have := r.le; omega)]
      exact r.cont
    · omega
    · omega
  · next h => exact ⟨r, by have := r.le; omega, by omega, rfl, rfl⟩

omit [DecidableEq E] in
theorem cells_split {l : CList E} {A : List (Option E)} (r : Rel l A) (h : l.size < l.capacity) :
    ∃ x R, l.cells = A.map some ++ x :: R := by
  have hl : A.length < l.cells.length := by rw [r.len, ← r.size]; exact h
  refine ⟨l.cells[A.length], l.cells.drop (A.length + 1), ?_⟩
  have hc := r.cont
  rw [r.size] at hc
  rw [← hc]
  rw [List.getElem_cons_drop, List.take_append_drop]

theorem append_spec {l : CList E} {A : List (Option E)} (r : Rel l A) (hA : A.length < 2 ^ 31)
    (e : Option E) (he : e ≠ none ∨ l.pol = .noop) :
    ∃ l', append l e = .ok l' ∧ Rel l' (A ++ [e]) ∧ l.capacity ≤ l'.capacity ∧ l'.pol = l.pol := by
  obtain ⟨rg, hlt, hle, hp, hs⟩ := grow_spec r hA
  obtain ⟨x, R, hsp⟩ := cells_split rg hlt
  unfold append
  simp only
  rw [wr_ok e (by rw [rg.len]; exact hlt)]
  have htouch : touch (grow l).pol e = .ok () := by
    unfold touch; rw [if_neg (by rw [hp]; rcases he with h | h <;> simp [h])]
  simp only [Res.ok_bind, htouch, Res.pure_eq]
  have hset : (grow l).cells.set (grow l).size (some e) = (A ++ [e]).map some ++ R := by
    rw [hsp, rg.size]
    rw [List.set_append_right (h := by simp)]
    simp
  refine ⟨_, rfl, ⟨?_, rg.cap, ?_, ?_, ?_, ?_⟩, hle, hp⟩
  · simp [rg.len]
  · simp [rg.size]
  · simp only; omega
  · simp only [hset]
    rw [rg.size]
    rw [List.take_append_of_le_length (by simp), List.take_of_length_le (by simp)]
  · intro hne
    simp only [List.mem_append, List.mem_singleton, not_or]
    exact ⟨rg.nn hne, by rcases he with h | h; exact fun h' => h h'.symm; exact absurd h (by rw [← hp]; exact hne)⟩

omit [DecidableEq E] in
theorem shiftUp_spec (Q : List (Option E)) (P : List (Cell E)) (x : Cell E) (R : List (Cell E)) :
    ∃ y, shiftUp Q.length (P ++ Q.map some ++ x :: R) ((P.length + Q.length : Nat) : Int) =
      .ok (P ++ y :: (Q.map some ++ R)) := by
  induction hn : Q.length generalizing Q x R with
  | zero =>
    have : Q = [] := List.eq_nil_of_length_eq_zero hn
    subst this
    exact ⟨x, by simp [shiftUp]⟩
  | succ n ih =>
    obtain ⟨Q', q, rfl⟩ : ∃ Q' q, Q = Q' ++ [q] := by
      have : Q ≠ [] := by intro h; rw [h] at hn; simp at hn
      exact ⟨Q.dropLast, Q.getLast this, (List.dropLast_concat_getLast this).symm⟩
    simp only [List.length_append, List.length_cons, List.length_nil, Nat.zero_add] at hn
    have hn' : Q'.length = n := by omega
    unfold shiftUp
    have hi : ((P.length + (n + 1) : Nat) : Int) - 1 = ((P.length + n : Nat) : Int) := by omega
    rw [hi, rd_ok (e := q) (by
      rw [List.getElem?_append_left (by simp; omega), List.getElem?_append_right (by omega)]
      simp [hn'])]
    simp only [Res.ok_bind]
    rw [wr_ok q (by simp; omega)]
    simp only [Res.ok_bind]
    obtain ⟨y, hy⟩ := ih Q' (some q) (some q :: R) hn'
    refine ⟨y, ?_⟩
    have : (P ++ List.map some (Q' ++ [q]) ++ x :: R).set (P.length + (n + 1)) (some q) =
        P ++ Q'.map some ++ some q :: some q :: R := by
      rw [List.set_append_right (h := by simp; omega)]
      simp [hn']
    rw [this, hy]
    simp

omit [DecidableEq E] in
theorem shiftDown_spec (Q : List (Option E)) (P : List (Cell E)) (x : Cell E) (R : List (Cell E)) :
    ∃ y, shiftDown Q.length (P ++ x :: (Q.map some ++ R)) (P.length : Int) =
      .ok (P ++ Q.map some ++ y :: R) := by
  induction Q generalizing P x with
  | nil => exact ⟨x, by simp [shiftDown]⟩
  | cons q Q ih =>
    simp only [List.length_cons]
    unfold shiftDown
    have hi : ((P.length : Nat) : Int) + 1 = ((P.length + 1 : Nat) : Int) := by omega
    rw [hi, rd_ok (e := q) (by
      rw [List.getElem?_append_right (by omega)]
      simp)]
    simp only [Res.ok_bind]
    rw [wr_ok q (by simp)]
    simp only [Res.ok_bind]
    obtain ⟨y, hy⟩ := ih (P ++ [some q]) (some q)
    refine ⟨y, ?_⟩
    have : (P ++ x :: (List.map some (q :: Q) ++ R)).set P.length (some q) =
        P ++ [some q] ++ some q :: (Q.map some ++ R) := by
      rw [List.set_append_right (h := by simp)]
      simp
    rw [this]
    simp only [List.length_append, List.length_cons, List.length_nil] at hy
    rw [hy]
    simp

theorem insert_spec {l : CList E} {A : List (Option E)} (r : Rel l A) (hA : A.length < 2 ^ 31)
    (k : Nat) (hk : k ≤ A.length) (e : Option E) (he : e ≠ none ∨ l.pol = .noop) :
    ∃ l', insert l (k : Int) e = .ok l' ∧ Rel l' (A.take k ++ e :: A.drop k) ∧
      l.capacity ≤ l'.capacity ∧ l'.pol = l.pol := by
  obtain ⟨rg, hlt, hle, hp, hs⟩ := grow_spec r hA
  obtain ⟨x, R, hsp⟩ := cells_split rg hlt
  unfold insert
  simp only
  have hcs : cInt (grow l).size = ((grow l).size : Int) := cInt_small (by rw [rg.size]; exact hA)
  rw [hcs]
  have hcells : (grow l).cells = (A.take k).map some ++ (A.drop k).map some ++ x :: R := by
    rw [hsp, ← List.map_append, List.take_append_drop]
  have hcount : ((((grow l).size : Nat) : Int) - (k : Int)).toNat = (A.drop k).length := by
    rw [rg.size, List.length_drop]; omega
  obtain ⟨y, hy⟩ := shiftUp_spec (A.drop k) ((A.take k).map some) x R
  have hidx : (((A.take k).map some).length + (A.drop k).length : Nat) = (grow l).size := by
    rw [rg.size, List.length_map, List.length_take, List.length_drop]; omega
  rw [hidx] at hy
  rw [hcount, hcells, hy]
  simp only [Res.ok_bind]
  rw [wr_ok e (by simp; omega)]
  have htouch : touch (grow l).pol e = .ok () := by
    unfold touch; rw [if_neg (by rw [hp]; rcases he with h | h <;> simp [h])]
  simp only [Res.ok_bind, htouch, Res.pure_eq]
  have hset : ((A.take k).map some ++ y :: ((A.drop k).map some ++ R)).set k (some e) =
      (A.take k ++ e :: A.drop k).map some ++ R := by
    rw [List.set_append_right (h := by simp; omega)]
    have : k - (List.map some (A.take k)).length = 0 := by simp; omega
    rw [this]
    simp only [List.set_cons_zero, List.map_append, List.map_cons, List.append_assoc,
      List.cons_append]
  have hlenR : (A.take k ++ e :: A.drop k).length = A.length + 1 := by
    simp [List.length_take, List.length_drop]; omega
  refine ⟨_, rfl, ⟨?_, rg.cap, ?_, ?_, ?_, ?_⟩, hle, hp⟩
  · simp only [hset]
    have h1 := rg.len
    rw [hsp] at h1
    simp only [List.length_append, List.length_map, List.length_cons] at h1 ⊢
    rw [← h1]
    simp [List.length_take, List.length_drop]; omega
  · simp only; rw [hlenR, rg.size]
  · simp only; omega
  · simp only [hset]
    rw [rg.size]
    rw [List.take_append_of_le_length (by rw [List.length_map, hlenR]; exact Nat.le_refl _),
      List.take_of_length_le (by rw [List.length_map, hlenR]; exact Nat.le_refl _)]
  · intro hne
    simp only [List.mem_append, List.mem_cons, not_or]
    refine ⟨fun h => rg.nn hne (List.mem_of_mem_take h), ?_, fun h => rg.nn hne (List.mem_of_mem_drop h)⟩
    rcases he with h | h
    · exact fun h' => h h'.symm
    · exact absurd h (by rw [← hp]; exact hne)

theorem remove_spec {l : CList E} {A : List (Option E)} (r : Rel l A) (hA : A.length < 2 ^ 31)
    (k : Nat) (hk : k < A.length) :
    ∃ l', remove (some l) (k : Int) = .ok (true, some l') ∧ Rel l' (A.eraseIdx k) ∧
      l.capacity = l'.capacity ∧ l'.pol = l.pol := by
  have hsz := r.size
  -- split the array at k
  have hA' : A = A.take k ++ A[k] :: A.drop (k + 1) := by
    rw [List.getElem_cons_drop, List.take_append_drop]
  have hcells : l.cells = (A.take k).map some ++ some A[k] ::
      ((A.drop (k + 1)).map some ++ l.cells.drop l.size) := by
    have h1 : l.cells = l.cells.take l.size ++ l.cells.drop l.size := by
      rw [List.take_append_drop]
    rw [r.cont] at h1
    conv at h1 => rhs; lhs; rw [hA']
    rw [List.map_append, List.map_cons, List.append_assoc, List.cons_append] at h1
    exact h1
  unfold remove
  simp only
  have hmod : toU64 (k : Int) = k := by
    rw [toU64_nonneg (by omega) (by omega)]; rfl
  rw [hmod, if_neg (by omega)]
  have hklen : ((A.take k).map (some : Option E → Cell E)).length = k := by simp; omega
  rw [rd_ok (e := A[k]) (by
    rw [hcells, List.getElem?_append_right (by omega), hklen, Nat.sub_self,
      List.getElem?_cons_zero])]
  simp only [Res.ok_bind]
  rw [wr_ok none (by rw [r.len]; have := r.le; omega)]
  simp only [Res.ok_bind]
  rw [if_neg (by omega)]
  have hset : l.cells.set k (some none) = (A.take k).map some ++ some none ::
      ((A.drop (k + 1)).map some ++ l.cells.drop l.size) := by
    conv => lhs; rw [hcells]
    rw [List.set_append_right (h := by omega)]
    simp only [hklen, Nat.sub_self, List.set_cons_zero]
  obtain ⟨y, hy⟩ := shiftDown_spec (A.drop (k + 1)) ((A.take k).map some) (some none)
    (l.cells.drop l.size)
  rw [hklen] at hy
  have hcnt : l.size - 1 - (k : Int).toNat = (A.drop (k + 1)).length := by
    rw [List.length_drop]; simp only [Int.toNat_natCast]; omega
  rw [hcnt, hset, hy]
  have htouch : touch l.pol A[k] = .ok () := by
    unfold touch
    rw [if_neg]
    rintro ⟨h1, h2⟩
    exact r.nn h2 (by rw [← h1]; exact List.getElem_mem hk)
  simp only [Res.ok_bind, htouch, Res.pure_eq]
  have herase : A.eraseIdx k = A.take k ++ A.drop (k + 1) := by
    rw [List.eraseIdx_eq_take_drop_succ]
  have hlen : (A.eraseIdx k).length = A.length - 1 := by
    rw [List.length_eraseIdx]; simp [hk]
  refine ⟨_, rfl, ⟨?_, r.cap, ?_, ?_, ?_, ?_⟩, rfl, rfl⟩
  · simp only
    have h1 := r.len
    rw [hcells] at h1
    simp only [List.length_append, List.length_cons] at h1 ⊢
    omega
  · simp only; rw [hlen, hsz]
  · simp only; have := r.le; omega
  · simp only
    rw [herase, List.map_append]
    have : l.size - 1 = (List.map some (A.take k) ++ List.map some (A.drop (k + 1))).length := by
      rw [← List.map_append, ← herase, List.length_map, hlen, hsz]
    rw [this, List.take_append_of_le_length (Nat.le_refl _), List.take_of_length_le (Nat.le_refl _)]
  · intro hne h
    exact r.nn hne (List.mem_of_mem_eraseIdx h)

theorem remove_out {l : CList E} {A : List (Option E)} (r : Rel l A) (hA : A.length < 2 ^ 31)
    (i : Int) (hi : IsInt i) (hin : ¬ (0 ≤ i ∧ i < A.length)) :
    remove (some l) i = .ok (false, some l) := by
  obtain ⟨h1, h2⟩ := hi
  have : l.size ≤ toU64 i := by
    rw [r.size]
    by_cases hneg : i < 0
    · have := toU64_neg hneg h1
      omega
    · rw [toU64_nonneg (by omega) (by omega)]; omega
  unfold remove
  simp only
  rw [if_pos this]

theorem exec_insert (l : CList E) (i : Int) (e : Option E) :
    exec l (.insert i e) = (insert l i e).map (fun l' => (.unit, l')) := rfl

theorem exec_spec {l : CList E} {A : List (Option E)} (r : Rel l A) (hA : A.length < 2 ^ 31)
    (op : Op E) (ops : List (Op E)) (hl : Legal l.pol A (op :: ops)) :
    ∃ l', exec l op = .ok ((specStep A op).1, l') ∧ Rel l' (specStep A op).2 ∧
      l.capacity ≤ l'.capacity ∧ l'.pol = l.pol ∧ (specStep A op).2.length ≤ A.length + 1 := by
  cases op with
  | append e =>
    obtain ⟨l', h, r', hc, hp⟩ := append_spec r hA e hl.1
    exact ⟨l', by simp [exec, h, Res.map, specStep], r', hc, hp, by simp [specStep]⟩
  | insert i e =>
    have hl1 : (e ≠ none ∨ l.pol = .noop) ∧ 0 ≤ i ∧ i ≤ A.length := hl.1
    clear hl
    obtain ⟨he, h0, h1⟩ := hl1
    obtain ⟨k, hki⟩ := Int.eq_ofNat_of_zero_le h0
    subst hki
    obtain ⟨l', h, r', hc, hp⟩ := insert_spec r hA k (by omega) e he
    have hs : specStep A (.insert (k : Int) e) = (.unit, A.take k ++ e :: A.drop k) := by
      simp only [specStep, Int.toNat_natCast]
    have hk : k ≤ A.length := by omega
    refine ⟨l', by rw [exec_insert, h, hs]; rfl, by rw [hs]; exact r', hc, hp, ?_⟩
    rw [hs]
    simp only [List.length_append, List.length_cons, List.length_take, List.length_drop]
    omega
  | remove i =>
    obtain ⟨hi, _⟩ := hl
    simp only at hi
    by_cases hin : 0 ≤ i ∧ i < A.length
    · obtain ⟨k, rfl⟩ := Int.eq_ofNat_of_zero_le hin.1
      obtain ⟨l', h, r', hc, hp⟩ := remove_spec r hA k (by omega)
      have hs : specStep A (.remove (k : Int)) = (.bool true, A.eraseIdx k) := by
        simp only [specStep]; rw [if_pos (by omega)]; simp
      refine ⟨l', by simp [exec, h, Res.map, hs], by rw [hs]; exact r', by omega, hp, ?_⟩
      rw [hs]; simp only [List.length_eraseIdx]; split <;> omega
    · have hs : specStep A (.remove i) = (.bool false, A) := by
        simp only [specStep]; rw [if_neg hin]
      refine ⟨l, ?_, by rw [hs]; exact r, Nat.le_refl _, rfl, by rw [hs]; simp⟩
      simp only [exec, remove_out r hA i hi hin, Res.map, hs, Option.getD_some]
  | size =>
    exact ⟨l, by simp [exec, sizeOf, specStep, r.size], r, Nat.le_refl _, rfl, by simp [specStep]⟩

theorem execAll_spec (ops : List (Op E)) {l : CList E} {A : List (Option E)} (r : Rel l A)
    (hA : A.length + ops.length < 2 ^ 31) (hl : Legal l.pol A ops) :
    ∃ caps l', execAll l ops = .ok ((specRun A ops).1, caps, l') ∧ Rel l' (specRun A ops).2 ∧
      (l.capacity :: caps).Pairwise (· ≤ ·) ∧ l'.pol = l.pol := by
  induction ops generalizing l A with
  | nil => exact ⟨[], l, rfl, r, by simp, rfl⟩
  | cons op ops ih =>
    simp only [List.length_cons] at hA
    obtain ⟨l1, h1, r1, c1, p1, n1⟩ := exec_spec r (by omega) op ops hl
    obtain ⟨caps, l2, h2, r2, c2, p2⟩ := ih r1 (by omega) (by rw [p1]; exact hl.2)
    refine ⟨l1.capacity :: caps, l2, ?_, r2, ?_, by rw [p2, p1]⟩
    · simp [execAll, h1, Res.bind, Res.map, h2, specRun, capacityOf]
    · rw [List.pairwise_cons]
      refine ⟨?_, c2⟩
      intro c hc
      simp only [List.mem_cons] at hc
      rw [List.pairwise_cons] at c2
      rcases hc with rfl | hc
      · exact c1
      · exact Nat.le_trans c1 (c2.1 c hc)

omit [DecidableEq E] in
theorem Rel_mk (pol : Policy) (cap : Nat) (hc : cap < 2 ^ 60) : Rel (mkE pol cap : CList E) [] := by
  refine ⟨?_, hc, rfl, Nat.zero_le _, ?_, by simp⟩
  · simp only [mkE, List.length_replicate]; exact allocCells_small (by omega)
  · simp [mkE]

/-- **C10.**  From a list of any initial capacity (also 0, below 2^60), any history of fewer than 2^31
appends, insertions at an index in `[0,size]`, removals with any `int` index and size queries: no
access is outside the array and no unwritten cell is read (those are UB in the model), all results
are those of the abstract sequence — in particular a removal out of range returns false and changes
nothing — the array shows exactly the abstract sequence, the size never exceeds the capacity, and
the capacity never shrinks. -/
theorem C10_list_refines (pol : Policy) (cap : Nat) (hc : cap < 2 ^ 60) (ops : List (Op E))
    (hn : ops.length < 2 ^ 31) (hl : Legal pol [] ops) :
    ∃ caps l, execAll (mkE pol cap) ops = .ok ((specRun [] ops).1, caps, l) ∧
      contents l = (specRun [] ops).2.map some ∧
      sizeOf (some l) = (specRun [] ops).2.length ∧ sizeOf (some l) ≤ capacityOf (some l) ∧
      (cap :: caps).Pairwise (· ≤ ·) := by
  obtain ⟨caps, l, h, r, c, _⟩ := execAll_spec ops (Rel_mk pol cap hc) (by simpa using hn) hl
  exact ⟨caps, l, h, r.cont, r.size, r.le, c⟩

/-- `cee_list_remove(NULL, i)` returns false and `cee_list_size(NULL)` is 0 (part of C10). -/
theorem C10_null (i : Int) : remove (none : Option (CList E)) i = .ok (false, none) ∧
    sizeOf (none : Option (CList E)) = 0 := ⟨rfl, rfl⟩

def demoOps : List (Op Nat) :=
  [.append (some 1), .insert 0 (some 2), .insert 1 (some 3), .remove (-1), .remove 0, .remove 7,
   .append (some 4), .insert 3 (some 5), .size]

theorem demo_legal : Legal .rc [] demoOps := by
  simp [demoOps, Legal, specStep, IsInt]

/-- a history from capacity 0 that reallocates, shifts and uses bad indices -/
example : Legal .rc [] demoOps ∧ demoOps.length < 2 ^ 31 ∧
    specRun [] demoOps = ([.unit, .unit, .unit, .bool false, .bool true, .bool false, .unit, .unit,
      .num 4], [some 3, some 1, some 4, some 5]) := ⟨demo_legal, by decide, by decide⟩

/-! ## C11 -/

/-- specification of an iteration with index: stop after the first non-zero answer -/
def iterSpec (f : σ → Option E → Int → Int × σ) : List (Option E) → Int → σ → Int × σ
  | [], _, s => (0, s)
  | e :: l, i, s =>
    let r := f s e i
    if r.1 ≠ 0 then r else iterSpec f l (i + 1) r.2

omit [DecidableEq E] in
theorem iterLoop_spec {l : CList E} (f : σ → Option E → Int → Int × σ) (Q P : List (Option E))
    (h : l.cells.take l.size = (P ++ Q).map some) (ret : Option Int)
    (hret : Q = [] → ret = some 0) (s : σ) :
    iterLoop l f Q.length (P.length : Int) ret s =
      .ok (some (iterSpec f Q P.length s).1, (iterSpec f Q P.length s).2) := by
  induction Q generalizing P ret s with
  | nil => simp [iterLoop, iterSpec, hret rfl]
  | cons e Q ih =>
    simp only [List.length_cons]
    unfold iterLoop
    have hrd : l.cells[P.length]? = some (some e) := by
      have h1 : (l.cells.take l.size)[P.length]? = some (some e) := by
        rw [h]; simp
      rw [List.getElem?_take] at h1
      split at h1
      · exact h1
      · simp at h1
    rw [rd_ok hrd]
    simp only [iterSpec]
    split
    · rfl
    · next h0 =>
      have h0' : (f s e P.length).1 = 0 := by simpa using h0
      have := ih (P ++ [e]) (by simpa using h) (some 0) (fun _ => rfl) (f s e P.length).2
      simp only [List.length_append, List.length_cons, List.length_nil, Nat.zero_add,
        Int.natCast_add, Int.natCast_one] at this
      rw [h0', this]

/-- **C11 (iterate).**  On a non-empty list produced by any legal history, `cee_list_iterate` calls
the callback on elements 0, 1, 2, ... (with these indices) until the first non-zero result, which it
returns (0 if there is none). -/
theorem C11_iterate (pol : Policy) (cap : Nat) (hc : cap < 2 ^ 60) (ops : List (Op E))
    (hn : ops.length < 2 ^ 31) (hl : Legal pol [] ops) (hne : (specRun [] ops).2 ≠ []) :
    ∃ o caps l, execAll (mkE pol cap) ops = .ok (o, caps, l) ∧
      ∀ (σ : Type) (f : σ → Option E → Int → Int × σ) (s : σ),
        iterate (some l) f s =
          .ok (some (iterSpec f (specRun [] ops).2 0 s).1, (iterSpec f (specRun [] ops).2 0 s).2) := by
  obtain ⟨caps, l, h, r, c, _⟩ := execAll_spec ops (Rel_mk pol cap hc) (by simpa using hn) hl
  refine ⟨_, caps, l, h, ?_⟩
  intro σ f s
  have hlen : ∀ (ops : List (Op E)) (A : List (Option E)), Legal pol A ops →
      (specRun A ops).2.length ≤ A.length + ops.length := by
    intro ops
    induction ops with
    | nil => intro A _; simp [specRun]
    | cons op ops ih =>
      intro A hA
      have := ih _ hA.2
      have h1 : (specStep A op).2.length ≤ A.length + 1 := by
        cases op with
        | append e => simp [specStep]
        | insert i e =>
          have := hA.1
          simp [specStep, List.length_take, List.length_drop]; omega
        | remove i =>
          simp only [specStep]
          split
          · simp only [List.length_eraseIdx]; split <;> omega
          · simp
        | size => simp [specStep]
      simp only [specRun, List.length_cons] at *
      omega
  have hlen' := hlen ops [] hl
  simp only [List.length_nil] at hlen'
  unfold iterate
  simp only
  rw [if_neg (by rw [r.size]; omega), r.size]
  exact iterLoop_spec f (specRun [] ops).2 [] (by simpa using r.cont) none
    (fun h => absurd h hne) s

/-- the callback sums and stops at the element 4, at index 2 -/
example : (specRun [] demoOps).2 ≠ [] ∧
    iterSpec (E := Nat) (fun s e i => ((if e = some 4 then 10 + i else 0 : Int), s + e.getD 0))
      (specRun [] demoOps).2 0 0 = (12, 8) := by decide

theorem merge_fold (Q : List (Option E)) {d : CList E} {A : List (Option E)} (r : Rel d A)
    (hA : A.length + Q.length < 2 ^ 31) (hq : d.pol = .noop ∨ none ∉ Q) (i : Int) :
    ∃ d', (iterSpec addV Q i (.ok d)).2 = .ok d' ∧ Rel d' (A ++ Q) := by
  induction Q generalizing d A i with
  | nil => exact ⟨d, rfl, by simpa using r⟩
  | cons e Q ih =>
    simp only [List.length_cons] at hA
    obtain ⟨d1, h1, r1, _, p1⟩ := append_spec r (by omega) e (by
      rcases hq with h | h
      · exact .inr h
      · exact .inl (fun h' => h (by simp [h'])))
    obtain ⟨d2, h2, r2⟩ := ih r1 (by simp; omega) (by
      rcases hq with h | h
      · exact .inl (by rw [p1]; exact h)
      · exact .inr (fun h' => h (by simp [h']))) (i + 1)
    refine ⟨d2, ?_, by simpa using r2⟩
    simp only [iterSpec, addV, ne_eq, not_true_eq_false, if_false, h1]
    exact h2

/-- **C11 (merge).**  Merging a list into a distinct one appends all its elements in order.  The
source is an input of the model function only, so it is unchanged.  (With an empty source the call
is the only statement of `cee_list_merge` and its indeterminate result is discarded.) -/
theorem C11_merge (pol pol' : Policy) (cap cap' : Nat) (hc : cap < 2 ^ 60) (hc' : cap' < 2 ^ 60)
    (ops ops' : List (Op E)) (hl : Legal pol [] ops) (hl' : Legal pol' [] ops')
    (hn : ops.length < 2 ^ 31) (hn' : ops'.length < 2 ^ 31)
    (hsz : (specRun [] ops).2.length + (specRun [] ops').2.length < 2 ^ 31)
    (hnull : pol = .noop ∨ none ∉ (specRun [] ops').2) :
    ∃ o caps d o' caps' s m, execAll (mkE pol cap) ops = .ok (o, caps, d) ∧
      execAll (mkE pol' cap') ops' = .ok (o', caps', s) ∧ merge d s = .ok m ∧
      contents m = ((specRun [] ops).2 ++ (specRun [] ops').2).map some ∧
      sizeOf (some m) = (specRun [] ops).2.length + (specRun [] ops').2.length := by
  obtain ⟨caps, d, h, r, c, p⟩ := execAll_spec ops (Rel_mk pol cap hc) (by simpa using hn) hl
  obtain ⟨caps', s, h', r', c', _⟩ := execAll_spec ops' (Rel_mk pol' cap' hc') (by simpa using hn') hl'
  obtain ⟨m, hm, rm⟩ := merge_fold (specRun [] ops').2 r hsz (by rw [p]; exact hnull) 0
  refine ⟨_, caps, d, _, caps', s, m, h, h', ?_, rm.cont, by rw [sizeOf, rm.size, List.length_append]⟩
  unfold merge iterate
  simp only
  rw [if_neg (by rw [r'.size]; omega), r'.size]
  cases hQ : (specRun [] ops').2 with
  | nil =>
    rw [hQ] at hm
    simp only [iterSpec] at hm
    simp only [List.length_nil, iterLoop, Res.ok_bind]
    exact hm
  | cons q Q =>
    have := iterLoop_spec (l := s) addV (q :: Q) [] (by rw [← hQ]; simpa using r'.cont) none (by simp) (.ok d)
    simp only [List.length_nil] at this
    have h0 : ((0 : Nat) : Int) = 0 := rfl
    rw [h0] at this
    rw [hQ] at hm
    rw [this]
    simp only [Res.ok_bind]
    exact hm

example : Legal .rc [] demoOps ∧
    (specRun [] demoOps).2.length + (specRun [] demoOps).2.length < 2 ^ 31 ∧
    none ∉ (specRun [] demoOps).2 := ⟨demo_legal, by decide, by decide⟩

/-! ## C12 -/

/-- **C12 is false of the code.**  Merging a non-empty list into itself never returns: whatever the
number of loop iterations granted, the run is either still going or has undefined behaviour (the
`int` index overflows). -/
theorem C12_self_merge_false (fuel i : Nat) (l : CList E) (hi : i < l.size) (r : CList E) :
    mergeSelf fuel l i ≠ some (.ok r) := by
  induction fuel generalizing l i with
  | zero => simp [mergeSelf]
  | succ fuel ih =>
    unfold mergeSelf
    rw [if_pos hi]
    split
    · simp
    · cases rd l.cells (i : Int) with
      | ub => simp
      | segv => simp
      | ok e =>
        simp only
        cases ha : append l e with
        | ub => simp
        | segv => simp
        | ok l' =>
          simp only
          apply ih
          have : l'.size = l.size + 1 := by
            unfold append at ha
            simp only [Res.bind_eq_ok, Res.pure_eq] at ha
            obtain ⟨cells, _, _, _, h⟩ := ha
            simp only [Res.ok.injEq] at h
            subst h
            have : (grow l).size = l.size := by unfold grow; split <;> rfl
            simp [this]
          omega

/-- a concrete non-empty list: one element; five iterations later it has six elements and the loop
is still running -/
example : ∃ l : CList Nat, append (mkE .noop 1) (some 7) = .ok l ∧ 0 < l.size ∧
    mergeSelf 5 l 0 = none := by
  refine ⟨_, rfl, by decide, by decide⟩

/-! ## C52 -/

/-- **C52 is false of the code.**  `cee_list_iterate` on an empty (non-NULL) list returns the
uninitialised variable `ret`, whatever the callback. -/
theorem C52_iterate_empty_false (pol : Policy) (cap : Nat) (f : σ → Option E → Int → Int × σ)
    (s : σ) : iterate (some (mkE pol cap)) f s = .ok (none, s) := by
  simp [iterate, mkE, iterLoop]

example : iterate (some (mkE .rc 10 : CList Nat)) (fun s _ _ => (0, s + 1)) 0 = .ok (none, 0) :=
  C52_iterate_empty_false _ _ _ _

end Verif.CList.Props
