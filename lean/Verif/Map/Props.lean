import Verif.Map.Lemmas

/-!
# Properties of `cee_map` (C01, C02, C03, C05, C06)
-/

namespace Verif.Map.Props

open Tree (Tree walk isFirst inorder Inv visited)
open Spec (IsOrd SMap Op Out)

variable {K V : Type} [DecidableEq V]

/-- run one user operation of `Spec.Op` on the model of map.c -/
def exec (cmp : K → K → Int) (m : Map K V) : Op K V → Res (Out V × Map K V)
  | .add k v => (Map.add cmp m k v).map (fun r => (.ptr r.1, r.2))
  | .addE k v f => (Map.addE cmp m k v (some f)).map (fun r => (.ptr r.1, r.2))
  | .remove k => (Map.remove cmp m k).map (fun r => (.ptr r.1, r.2))
  | .rename k k' => (Map.rename cmp m k k').map (fun r => (.bool r.1, r.2))
  | .find k => .ok (.ptr (Map.find cmp m k), m)
  | .size => .ok (.num (Map.sizeOf m), m)

def execAll (cmp : K → K → Int) (m : Map K V) : List (Op K V) → Res (List (Out V) × Map K V)
  | [] => .ok ([], m)
  | op :: ops =>
    (exec cmp m op).bind (fun r => (execAll cmp r.2 ops).map (fun r' => (r.1 :: r'.1, r'.2)))

/-! ## The specification is a finite map

`Spec.insert`, `Spec.erase` and `Spec.lookup` satisfy the usual equations; these lemmas say that
the association lists used as specification are what the English text means. -/

omit [DecidableEq V] in
theorem spec_present_insert {cmp : K → K → Int} (ho : IsOrd cmp) (l : SMap K V) (k k' : K)
    (v : Option V) :
    Spec.present cmp (Spec.insert cmp l k v) k' ↔ cmp k' k = 0 ∨ Spec.present cmp l k' := by
  unfold Spec.insert
  split
  · next hp =>
    simp only [Spec.present, List.mem_map]
    constructor
    · rintro ⟨e, ⟨x, hx, rfl⟩, he⟩
      right
      refine ⟨x, hx, ?_⟩
      split at he <;> exact he
    · rintro (h | ⟨x, hx, he⟩)
      · obtain ⟨x, hx, hk⟩ := hp
        refine ⟨_, ⟨x, hx, rfl⟩, ?_⟩
        rw [if_pos hk]
        exact ord_congr0 ho (ord_symm0 ho h) hk
      · refine ⟨_, ⟨x, hx, rfl⟩, ?_⟩
        split <;> exact he
  · next hp =>
    simp only [Spec.present, List.mem_append, List.mem_singleton]
    constructor
    · rintro ⟨e, he | rfl, h⟩
      · exact .inr ⟨e, he, h⟩
      · exact .inl h
    · rintro (h | ⟨e, he, h⟩)
      · exact ⟨_, .inr rfl, h⟩
      · exact ⟨e, .inl he, h⟩

omit [DecidableEq V] in
theorem spec_lookup_insert {cmp : K → K → Int} (ho : IsOrd cmp) (l : SMap K V) (k k' : K)
    (v : Option V) :
    Spec.lookup cmp (Spec.insert cmp l k v) k' =
      if cmp k' k = 0 then v else Spec.lookup cmp l k' := by
  unfold Spec.insert
  split
  · next hp =>
    split
    · next hkk =>
      -- every match of k' is a match of k, so it carries v
      have hsome : (l.find? (fun e => decide (cmp k' e.1 = 0))).isSome := by
        rw [List.find?_isSome]
        obtain ⟨x, hx, hk⟩ := hp
        exact ⟨x, hx, by simpa using ord_congr0 ho (ord_symm0 ho hkk) hk⟩
      unfold Spec.lookup
      rw [List.find?_map]
      have hfun : ((fun e : K × Option V => decide (cmp k' e.1 = 0)) ∘
          fun e => if cmp k e.1 = 0 then (e.1, v) else e) =
          fun e => decide (cmp k' e.1 = 0) := by
        funext e; simp only [Function.comp_apply]; split <;> rfl
      rw [hfun]
      cases hf : l.find? (fun e => decide (cmp k' e.1 = 0)) with
      | none => rw [hf] at hsome; simp at hsome
      | some e =>
        have he : cmp k' e.1 = 0 := by simpa using List.find?_some hf
        have : cmp k e.1 = 0 := ord_congr0 ho hkk he
        simp [this]
    · next hkk =>
      unfold Spec.lookup
      rw [List.find?_map]
      have hfun : ((fun e : K × Option V => decide (cmp k' e.1 = 0)) ∘
          fun e => if cmp k e.1 = 0 then (e.1, v) else e) =
          fun e => decide (cmp k' e.1 = 0) := by
        funext e; simp only [Function.comp_apply]; split <;> rfl
      rw [hfun]
      cases hf : l.find? (fun e => decide (cmp k' e.1 = 0)) with
      | none => rfl
      | some e =>
        have he : cmp k' e.1 = 0 := by simpa using List.find?_some hf
        have : cmp k e.1 ≠ 0 := by
          intro h0
          exact hkk (ord_congr0 ho (ord_symm0 ho he) (ord_symm0 ho h0))
        simp [this]
  · next hp =>
    unfold Spec.lookup
    rw [List.find?_append]
    cases hf : l.find? (fun e => decide (cmp k' e.1 = 0)) with
    | none =>
      by_cases h0 : cmp k' k = 0 <;> simp [h0]
    | some e =>
      have he : cmp k' e.1 = 0 := by simpa using List.find?_some hf
      have hmem := List.mem_of_find?_eq_some hf
      have : cmp k' k ≠ 0 := by
        intro h0
        exact hp ⟨e, hmem, ord_congr0 ho h0 he⟩
      simp [this]

omit [DecidableEq V] in
theorem spec_lookup_erase {cmp : K → K → Int} (ho : IsOrd cmp) (l : SMap K V) (k k' : K) :
    Spec.lookup cmp (Spec.erase cmp l k) k' =
      if cmp k' k = 0 then none else Spec.lookup cmp l k' := by
  split
  · next h0 =>
    apply lookup_of_not_present
    rintro ⟨e, he, hk⟩
    simp only [Spec.erase, List.mem_filter, decide_eq_true_eq] at he
    exact he.2 (ord_congr0 ho h0 hk)
  · next h0 =>
    unfold Spec.lookup Spec.erase
    rw [List.find?_filter]
    have hfun : (fun a : K × Option V => decide (cmp k a.1 ≠ 0) && decide (cmp k' a.1 = 0)) =
        fun a => decide (cmp k' a.1 = 0) := by
      funext a
      by_cases h1 : cmp k' a.1 = 0
      · have : cmp k a.1 ≠ 0 := fun h2 =>
          h0 (ord_congr0 ho (ord_symm0 ho h1) (ord_symm0 ho h2))
        simp [h1, this]
      · simp [h1]
    simp only [Bool.decide_and, Bool.decide_eq_true] at *
    rw [hfun]

/-! ## Simulation -/

theorem exec_spec {cmp : K → K → Int} (ho : IsOrd cmp) {m : Map K V} {A : SMap K V}
    (r : Rel cmp m A) (hn : A.length < 2 ^ 31) (op : Op K V) (hl : op.legal m.vpol) :
    ∃ m', exec cmp m op = .ok ((Spec.step cmp A op).1, m') ∧ m'.vpol = m.vpol ∧
      m'.kpol = m.kpol ∧ Rel cmp m' (Spec.step cmp A op).2 ∧
      (Spec.step cmp A op).2.length ≤ A.length + 1 := by
  cases op with
  | add k v =>
    cases k with
    | none => exact ⟨m, rfl, rfl, rfl, r, by simp [Spec.step]⟩
    | some k =>
      obtain ⟨m', h, hv, hk, r'⟩ := addE_spec ho r (by omega) k v none (by
        rcases hl with h | h
        · exact .inl ⟨h, by simp⟩
        · exact .inr h)
      refine ⟨m', by simp [exec, Map.add, h, Res.map, Spec.step], hv, hk, ?_, insert_length _ _ _⟩
      simpa [newValue, Spec.step] using r'
  | addE k v f =>
    cases k with
    | none => exact ⟨m, rfl, rfl, rfl, r, by simp [Spec.step]⟩
    | some k =>
      obtain ⟨m', h, hv, hk, r'⟩ := addE_spec ho r (by omega) k v (some f) (by
        rcases hl with ⟨h1, h2⟩ | h
        · exact .inl ⟨h1, by intro g hg o; simp only [Option.some.injEq] at hg; subst hg; exact h2 o⟩
        · exact .inr h)
      refine ⟨m', by simp [exec, h, Res.map, Spec.step], hv, hk, r', ?_⟩
      simp only [Spec.step]
      split <;> exact insert_length _ _ _
  | remove k =>
    cases k with
    | none => exact ⟨m, rfl, rfl, rfl, r, by simp [Spec.step]⟩
    | some k =>
      obtain ⟨m', h, hv, hk, r'⟩ := remove_spec ho r hn k
      refine ⟨m', by simp [exec, h, Res.map, Spec.step], hv, hk, r', ?_⟩
      have := erase_length_le (cmp := cmp) A k
      simp only [Spec.step]; omega
  | rename k k' =>
    cases k with
    | none => exact ⟨m, by simp [exec, Map.rename, Res.map, Spec.step], rfl, rfl, r, by simp [Spec.step]⟩
    | some k =>
      cases k' with
      | none => exact ⟨m, by simp [exec, Map.rename, Res.map, Spec.step], rfl, rfl, r, by simp [Spec.step]⟩
      | some k' =>
        obtain ⟨m1, h1, hv1, hk1, r1⟩ := remove_spec ho r hn k
        have hle := erase_length_le (cmp := cmp) A k
        cases hlk : Spec.lookup cmp A k with
        | none =>
          rw [hlk] at h1
          refine ⟨m1, by simp [exec, Map.rename, Res.map, Spec.step, h1, hlk], hv1, hk1, ?_, ?_⟩
          · simpa [Spec.step, hlk] using r1
          · simp only [Spec.step, hlk]; omega
        | some v =>
          rw [hlk] at h1
          obtain ⟨m2, h2, hv2, hk2, r2⟩ := addE_spec ho r1 (by omega) k' (some v) none
            (.inl ⟨by simp, by simp⟩)
          refine ⟨m2, by simp [exec, Map.rename, Map.add, Res.map, Spec.step, h1, hlk, h2],
            by rw [hv2, hv1], by rw [hk2, hk1], ?_, ?_⟩
          · simpa [Spec.step, hlk, newValue] using r2
          · simp only [Spec.step, hlk]
            have := insert_length (cmp := cmp) (Spec.erase cmp A k) k' (some v)
            omega
  | find k =>
    cases k with
    | none => exact ⟨m, rfl, rfl, rfl, r, by simp [Spec.step]⟩
    | some k =>
      exact ⟨m, by simp [exec, Spec.step, find_spec ho r], rfl, rfl, r, by simp [Spec.step]⟩
  | size => exact ⟨m, by simp [exec, Spec.step, Map.sizeOf, r.size], rfl, rfl, r, by simp [Spec.step]⟩

theorem execAll_spec {cmp : K → K → Int} (ho : IsOrd cmp) (ops : List (Op K V)) {m : Map K V}
    {A : SMap K V} (r : Rel cmp m A) (hn : A.length + ops.length < 2 ^ 31)
    (hl : ∀ op ∈ ops, op.legal m.vpol) :
    ∃ m', execAll cmp m ops = .ok ((Spec.run cmp A ops).1, m') ∧ m'.vpol = m.vpol ∧
      m'.kpol = m.kpol ∧ Rel cmp m' (Spec.run cmp A ops).2 ∧
      (Spec.run cmp A ops).2.length ≤ A.length + ops.length := by
  induction ops generalizing m A with
  | nil => exact ⟨m, rfl, rfl, rfl, r, by simp [Spec.run]⟩
  | cons op ops ih =>
    simp only [List.length_cons] at hn
    obtain ⟨m1, h1, hv1, hk1, r1, l1⟩ := exec_spec ho r (by omega) op (hl op (by simp))
    obtain ⟨m2, h2, hv2, hk2, r2, l2⟩ := ih r1 (by omega) (by
      intro o ho'; rw [hv1]; exact hl o (by simp [ho']))
    refine ⟨m2, by simp [execAll, h1, Res.bind, Res.map, h2, Spec.run], by rw [hv2, hv1],
      by rw [hk2, hk1], r2, ?_⟩
    simp only [Spec.run, List.length_cons] at *; omega

/-! ## C01 -/

/-- **C01.**  Any history of fewer than 2^31 operations on a fresh map, with any total-order
comparator, any policies and any (ownership-legal) values: no undefined behaviour and no deliberate
crash, and every returned value is the one of the abstract insertion-ordered finite map. -/
theorem C01_map_refines {cmp : K → K → Int} (ho : IsOrd cmp) (kpol vpol : Policy)
    (ops : List (Op K V)) (hn : ops.length < 2 ^ 31) (hl : ∀ op ∈ ops, op.legal vpol) :
    ∃ m, execAll cmp (Map.mkE kpol vpol) ops = .ok ((Spec.run cmp [] ops).1, m) := by
  obtain ⟨m, h, _⟩ := execAll_spec ho ops (Rel_mk cmp kpol vpol) (by simpa using hn) hl
  exact ⟨m, h⟩

def natCmp (a b : Nat) : Int := (a : Int) - b

theorem natCmp_ord : IsOrd natCmp where
  refl a := by simp [natCmp]
  swap a b := by simp only [natCmp]; omega
  trans a b c := by simp only [natCmp]; omega

def demoOps : List (Op Nat Nat) :=
  [.add (some 5) (some 50), .add (some 3) (some 30), .add (some 8) (some 80),
   .add (some 5) (some 51), .addE (some 3) (some 1) (fun o n => some (o.getD 0 + n.getD 0)),
   .find (some 3), .remove (some 5), .add (some 5) (some 52), .rename (some 8) (some 1), .size,
   .add none (some 7), .remove (some 77)]

theorem demoOps_legal : ∀ op ∈ demoOps, op.legal .del := by
  intro op h
  simp only [demoOps, List.mem_cons, List.not_mem_nil, or_false] at h
  rcases h with h | h | h | h | h | h | h | h | h | h | h | h <;> subst h <;> simp [Op.legal]

/-- the hypotheses of `C01_map_refines` hold for a history with overwrites, a merge callback, removal
and renaming, and its outputs are these -/
example : IsOrd natCmp ∧ demoOps.length < 2 ^ 31 ∧ (∀ op ∈ demoOps, op.legal .del) ∧
    (Spec.run natCmp [] demoOps).1 =
      [.ptr none, .ptr none, .ptr none, .ptr (some 50), .ptr (some 30), .ptr (some 31),
       .ptr (some 51), .ptr none, .bool true, .num 3, .ptr none, .ptr none] :=
  ⟨natCmp_ord, by decide, demoOps_legal, by decide⟩

/-! ## C02 -/

/-- **C02.**  After any history the insertion-ordered key list is the key column of the abstract
insertion-ordered list (`Spec.insert` keeps the position of a live key and appends an absent one,
`Spec.erase` removes), and no two listed keys are equal. -/
theorem C02_insertion_order {cmp : K → K → Int} (ho : IsOrd cmp) (kpol vpol : Policy)
    (ops : List (Op K V)) (hn : ops.length < 2 ^ 31) (hl : ∀ op ∈ ops, op.legal vpol) :
    ∃ outs m, execAll cmp (Map.mkE kpol vpol) ops = .ok (outs, m) ∧
      Map.insertionOrderedKeys m = (Spec.run cmp [] ops).2.map (fun e => e.1) ∧
      (Map.insertionOrderedKeys m).Pairwise (fun a b => cmp a b ≠ 0) ∧
      (Map.insertionOrderedKeys m).length = Map.sizeOf m := by
  obtain ⟨m, h, _, _, r, _⟩ := execAll_spec ho ops (Rel_mk cmp kpol vpol) (by simpa using hn) hl
  refine ⟨_, m, h, r.order, ?_, ?_⟩
  · unfold Map.insertionOrderedKeys
    rw [r.order, List.pairwise_map]
    exact r.uniq ho
  · simp [Map.insertionOrderedKeys, Map.sizeOf, r.order, r.size]

/-- overwriting does not move a key, removing and re-adding does: keys 5,3,8 added in this order,
5 overwritten, 5 removed and re-added, 8 renamed to 1 -/
example : (Spec.run natCmp [] (demoOps.take 5)).2.map (fun e => e.1) = [5, 3, 8] ∧
    (Spec.run natCmp [] demoOps).2.map (fun e => e.1) = [3, 5, 1] := by decide

/-! ## C03 -/

omit [DecidableEq V] in
theorem values_eq (m : Map K V) : Map.values m = (visited m.tree).map (fun e => e.2) := by
  unfold Map.values Tree.visited
  rw [List.map_map]; rfl

omit [DecidableEq V] in
theorem keys_eq (m : Map K V) : Map.keys m = (visited m.tree).map (fun e => e.1) := by
  unfold Map.keys Tree.visited
  rw [List.map_map]; rfl

/-- specification of an iteration: feed the bindings to the callback, stop after the first
non-zero answer -/
def iterSpec (f : σ → K → Option V → Int × σ) : List (K × Option V) → σ → Int × σ
  | [], s => (0, s)
  | e :: l, s =>
    let r := f s e.1 e.2
    if r.1 ≠ 0 then r else iterSpec f l r.2

omit [DecidableEq V] in
theorem iterate_eq (m : Map K V) (f : σ → K → Option V → Int × σ) (s : σ) :
    Map.iterate m f s = iterSpec f (visited m.tree) s := by
  unfold Map.iterate Tree.visited
  have stuck : ∀ (l : List ((K × Option V) × Tree.Visit × Nat)) (a : Int × σ), a.1 ≠ 0 →
      l.foldl (fun acc e => if acc.1 ≠ 0 then acc
        else if isFirst e.2.1 then f acc.2 e.1.1 e.1.2 else acc) a = a := by
    intro l
    induction l with
    | nil => intros; rfl
    | cons e l ih => intro a ha; rw [List.foldl_cons, if_pos ha]; exact ih a ha
  generalize walk m.tree 0 = l
  induction l generalizing s with
  | nil => rfl
  | cons e l ih =>
    rw [List.foldl_cons, List.filter_cons]
    simp only [ne_eq, not_true_eq_false, if_false]
    by_cases h : isFirst e.2.1
    · simp only [h, if_true, List.map_cons, iterSpec]
      by_cases h0 : (f s e.1.1 e.1.2).1 = 0
      · have : f s e.1.1 e.1.2 = (0, (f s e.1.1 e.1.2).2) := by rw [← h0]
        rw [if_neg (by simpa using h0), this]
        exact ih _
      · rw [if_pos (by simpa using h0)]
        exact stuck l _ h0
    · simp only [Bool.not_eq_true] at h
      simp only [h, if_false, Bool.false_eq_true]
      exact ih s

/-- **C03.**  After any history there is an enumeration `B` of the bindings of the abstract map,
each exactly once, such that `cee_map_keys` and `cee_map_values` are its columns and
`cee_map_iterate` feeds `B` to the callback until the first non-zero answer, which it returns. -/
theorem C03_enumeration {cmp : K → K → Int} (ho : IsOrd cmp) (kpol vpol : Policy)
    (ops : List (Op K V)) (hn : ops.length < 2 ^ 31) (hl : ∀ op ∈ ops, op.legal vpol) :
    ∃ outs m B, execAll cmp (Map.mkE kpol vpol) ops = .ok (outs, m) ∧
      B.Perm (Spec.run cmp [] ops).2 ∧
      Map.keys m = B.map (fun e => e.1) ∧ Map.values m = B.map (fun e => e.2) ∧
      B.length = Map.sizeOf m ∧
      (∀ (σ : Type) (f : σ → K → Option V → Int × σ) (s : σ),
        Map.iterate m f s = iterSpec f B s) := by
  obtain ⟨m, h, _, _, r, _⟩ := execAll_spec ho ops (Rel_mk cmp kpol vpol) (by simpa using hn) hl
  have hp := (Tree.visited_perm m.tree r.inv).trans r.perm
  refine ⟨_, m, visited m.tree, h, hp, keys_eq m, values_eq m, ?_, fun σ f s => iterate_eq m f s⟩
  rw [hp.length_eq, Map.sizeOf, r.size]

/-- the callback stops at the binding of key 3 (second in this enumeration) and its answer is
returned; the state counts the calls -/
example : iterSpec (K := Nat) (V := Nat)
    (fun s k _ => ((if k = 3 then 7 else 0 : Int), s + 1)) [(5, some 51), (3, some 31), (8, some 80)] 0
      = (7, 2) := by decide

/-! ## C05 -/

/-- specification of merging: add the bindings of `src` one after the other -/
def mergeSpec (cmp : K → K → Int) (f : Option (Option V → Option V → Option V))
    (dest : SMap K V) (src : List (K × Option V)) : SMap K V :=
  src.foldl (fun d e => if Spec.present cmp d e.1 then
      Spec.insert cmp d e.1 (newValue f (Spec.lookup cmp d e.1) e.2)
    else Spec.insert cmp d e.1 e.2) dest

theorem merge_visited (cmp : K → K → Int) (dest src : Map K V)
    (f : Option (Option V → Option V → Option V)) :
    Map.merge cmp dest src f = (visited src.tree).foldl (fun (acc : Res (Map K V)) e =>
      acc.bind (fun d => (Map.addE cmp d (some e.1) e.2 f).map (fun r => r.2))) (.ok dest) := by
  unfold Map.merge Tree.visited
  generalize walk src.tree 0 = l
  generalize Res.ok dest = acc
  induction l generalizing acc with
  | nil => rfl
  | cons e l ih =>
    rw [List.foldl_cons, List.filter_cons]
    by_cases h : isFirst e.2.1
    · simp only [h, if_true, List.map_cons, List.foldl_cons]
      rw [ih]
      congr 1
      cases acc with
      | ok d => simp only [Res.bind]; cases Map.addE cmp d (some e.1.1) e.1.2 f <;> rfl
      | ub => rfl
      | segv => rfl
    · simp only [Bool.not_eq_true] at h
      simp only [h, Bool.false_eq_true, if_false]
      rw [← ih]
      congr 1
      cases acc <;> rfl

theorem merge_fold {cmp : K → K → Int} (ho : IsOrd cmp) (l : List (K × Option V)) {m : Map K V}
    {A : SMap K V} (r : Rel cmp m A) (f : Option (Option V → Option V → Option V))
    (hn : A.length + l.length < 2 ^ 64)
    (hl : (∀ e ∈ l, e.2 ≠ none ∧ ∀ g, f = some g → ∀ o, g o e.2 ≠ none) ∨ m.vpol = .noop) :
    ∃ m', l.foldl (fun (acc : Res (Map K V)) e =>
      acc.bind (fun d => (Map.addE cmp d (some e.1) e.2 f).map (fun r => r.2))) (.ok m) = .ok m' ∧
      m'.vpol = m.vpol ∧ m'.kpol = m.kpol ∧ Rel cmp m' (mergeSpec cmp f A l) := by
  induction l generalizing m A with
  | nil => exact ⟨m, rfl, rfl, rfl, r⟩
  | cons e l ih =>
    simp only [List.length_cons] at hn
    obtain ⟨m1, h1, hv1, hk1, r1⟩ := addE_spec ho r (by omega) e.1 e.2 f (by
      rcases hl with h | h
      · exact .inl (h e (by simp))
      · exact .inr h)
    obtain ⟨m2, h2, hv2, hk2, r2⟩ := ih r1 (by
      split
      · have := insert_length (cmp := cmp) A e.1 (newValue f (Spec.lookup cmp A e.1) e.2); omega
      · have := insert_length (cmp := cmp) A e.1 e.2; omega) (by
      rcases hl with h | h
      · exact .inl (fun x hx => h x (by simp [hx]))
      · exact .inr (by rw [hv1]; exact h))
    refine ⟨m2, ?_, by rw [hv2, hv1], by rw [hk2, hk1], r2⟩
    rw [List.foldl_cons]
    simp only [Res.bind, h1, Res.map]
    exact h2

omit [DecidableEq V] in
/-- the bindings after a merge, key by key -/
theorem mergeSpec_lookup {cmp : K → K → Int} (ho : IsOrd cmp)
    (f : Option (Option V → Option V → Option V)) (src : List (K × Option V))
    (hu : src.Pairwise (fun x y => cmp x.1 y.1 ≠ 0)) (dest : SMap K V) (k : K) :
    (Spec.present cmp (mergeSpec cmp f dest src) k ↔
      Spec.present cmp dest k ∨ Spec.present cmp src k) ∧
    Spec.lookup cmp (mergeSpec cmp f dest src) k =
      if Spec.present cmp src k then
        if Spec.present cmp dest k then newValue f (Spec.lookup cmp dest k) (Spec.lookup cmp src k)
        else Spec.lookup cmp src k
      else Spec.lookup cmp dest k := by
  induction src generalizing dest with
  | nil => simp [mergeSpec, Spec.present]
  | cons e l ih =>
    rw [List.pairwise_cons] at hu
    have hs : mergeSpec cmp f dest (e :: l) = mergeSpec cmp f
        (if Spec.present cmp dest e.1 then
          Spec.insert cmp dest e.1 (newValue f (Spec.lookup cmp dest e.1) e.2)
        else Spec.insert cmp dest e.1 e.2) l := rfl
    obtain ⟨ih1, ih2⟩ := ih hu.2 (if Spec.present cmp dest e.1 then
          Spec.insert cmp dest e.1 (newValue f (Spec.lookup cmp dest e.1) e.2)
        else Spec.insert cmp dest e.1 e.2)
    rw [hs, ih1, ih2]
    have hpe : Spec.present cmp (e :: l) k ↔ cmp k e.1 = 0 ∨ Spec.present cmp l k := by
      simp [Spec.present]
    have hpd : Spec.present cmp (if Spec.present cmp dest e.1 then
          Spec.insert cmp dest e.1 (newValue f (Spec.lookup cmp dest e.1) e.2)
        else Spec.insert cmp dest e.1 e.2) k ↔ cmp k e.1 = 0 ∨ Spec.present cmp dest k := by
      split <;> exact spec_present_insert ho _ _ _ _
    constructor
    · rw [hpd, hpe]
      constructor
      · rintro ((h | h) | h)
        · exact .inr (.inl h)
        · exact .inl h
        · exact .inr (.inr h)
      · rintro (h | h | h)
        · exact .inl (.inr h)
        · exact .inl (.inl h)
        · exact .inr h
    · by_cases hk : cmp k e.1 = 0
      · have hnl : ¬ Spec.present cmp l k := by
          rintro ⟨x, hx, h0⟩
          exact hu.1 x hx (ord_congr0 ho hk h0)
        have hlk : Spec.lookup cmp (e :: l) k = e.2 := by simp [Spec.lookup, hk]
        rw [if_neg hnl, if_pos (hpe.2 (.inl hk)), hlk]
        have hdk : Spec.present cmp dest e.1 ↔ Spec.present cmp dest k := by
          constructor
          · rintro ⟨x, hx, h0⟩; exact ⟨x, hx, ord_congr0 ho (ord_symm0 ho hk) h0⟩
          · rintro ⟨x, hx, h0⟩; exact ⟨x, hx, ord_congr0 ho hk h0⟩
        have hll : Spec.lookup cmp dest e.1 = Spec.lookup cmp dest k := by
          unfold Spec.lookup
          have : (fun x : K × Option V => decide (cmp e.1 x.1 = 0)) =
              fun x => decide (cmp k x.1 = 0) := by
            funext x
            rw [decide_eq_decide]
            exact ⟨fun h => ord_congr0 ho (ord_symm0 ho hk) h, fun h => ord_congr0 ho hk h⟩
          rw [this]
        by_cases hd : Spec.present cmp dest k
        · rw [if_pos (hdk.2 hd), if_pos hd, spec_lookup_insert ho, if_pos hk, hll]
        · rw [if_neg (fun h => hd (hdk.1 h)), if_neg hd, spec_lookup_insert ho, if_pos hk]
      · have hlk : Spec.lookup cmp (e :: l) k = Spec.lookup cmp l k := by
          simp [Spec.lookup, hk]
        have hld : Spec.lookup cmp (if Spec.present cmp dest e.1 then
            Spec.insert cmp dest e.1 (newValue f (Spec.lookup cmp dest e.1) e.2)
            else Spec.insert cmp dest e.1 e.2) k = Spec.lookup cmp dest k := by
          split <;> rw [spec_lookup_insert ho, if_neg hk]
        rw [hld, hlk]
        simp only [hpe, hpd, hk, false_or]

omit [DecidableEq V] in
theorem lookup_perm {cmp : K → K → Int} (ho : IsOrd cmp) {A B : SMap K V} (hp : A.Perm B)
    (hu : B.Pairwise (fun x y => cmp x.1 y.1 ≠ 0)) (k : K) :
    (Spec.present cmp A k ↔ Spec.present cmp B k) ∧ Spec.lookup cmp A k = Spec.lookup cmp B k := by
  have hpr : Spec.present cmp A k ↔ Spec.present cmp B k :=
    ⟨fun ⟨e, he, h⟩ => ⟨e, hp.mem_iff.1 he, h⟩, fun ⟨e, he, h⟩ => ⟨e, hp.mem_iff.2 he, h⟩⟩
  refine ⟨hpr, ?_⟩
  have huA : A.Pairwise (fun x y => cmp x.1 y.1 ≠ 0) :=
    hp.symm.pairwise hu (fun h h' => h (ord_symm0 ho h'))
  by_cases hB : Spec.present cmp B k
  · obtain ⟨e, he, h⟩ := hB
    unfold Spec.lookup
    rw [find_unique ho hu he h, find_unique ho huA (hp.mem_iff.2 he) h]
  · rw [lookup_of_not_present k B hB, lookup_of_not_present k A (fun h => hB (hpr.1 h))]

/-- **C05 (merge).**  Take two maps produced by arbitrary histories `ops1`, `ops2`.  Merging the
second into the first has no undefined behaviour, and afterwards `cee_map_find` on the result gives,
for every key, the combined value if both had it (`newValue`: the callback's answer, or the source's
value without callback), and otherwise the value of whichever had it; the size is the number of
distinct keys.  The source is an input of the model function only, so it is unchanged. -/
theorem C05_merge {cmp : K → K → Int} (ho : IsOrd cmp) (kpol vpol kpol' vpol' : Policy)
    (ops1 ops2 : List (Op K V)) (h1 : ops1.length < 2 ^ 31) (h2 : ops2.length < 2 ^ 31)
    (hl1 : ∀ op ∈ ops1, op.legal vpol) (hl2 : ∀ op ∈ ops2, op.legal vpol')
    (f : Option (Option V → Option V → Option V))
    (hleg : (∀ e ∈ (Spec.run cmp [] ops2).2, e.2 ≠ none ∧ ∀ g, f = some g → ∀ o, g o e.2 ≠ none) ∨
      vpol = .noop) :
    ∃ o1 o2 m1 m2 m3, execAll cmp (Map.mkE kpol vpol) ops1 = .ok (o1, m1) ∧
      execAll cmp (Map.mkE kpol' vpol') ops2 = .ok (o2, m2) ∧
      Map.merge cmp m1 m2 f = .ok m3 ∧
      (∀ k, Map.find cmp m3 (some k) =
        let A := (Spec.run cmp [] ops1).2
        let B := (Spec.run cmp [] ops2).2
        if Spec.present cmp A k ∧ Spec.present cmp B k then
          newValue f (Map.find cmp m1 (some k)) (Map.find cmp m2 (some k))
        else if Spec.present cmp B k then Map.find cmp m2 (some k)
        else Map.find cmp m1 (some k)) ∧
      (∀ k, (∃ k' ∈ Map.insertionOrderedKeys m3, cmp k k' = 0) ↔
        (∃ k' ∈ Map.insertionOrderedKeys m1, cmp k k' = 0) ∨
        (∃ k' ∈ Map.insertionOrderedKeys m2, cmp k k' = 0)) := by
  obtain ⟨m1, e1, v1, _, r1, l1⟩ := execAll_spec ho ops1 (Rel_mk cmp kpol vpol) (by simpa using h1) hl1
  obtain ⟨m2, e2, v2, _, r2, l2⟩ := execAll_spec ho ops2 (Rel_mk cmp kpol' vpol') (by simpa using h2) hl2
  have hp := (Tree.visited_perm m2.tree r2.inv).trans r2.perm
  simp only [List.length_nil, Nat.zero_add] at l1 l2
  obtain ⟨m3, e3, v3, _, r3⟩ := merge_fold ho (visited m2.tree) r1 f (by
      rw [hp.length_eq]; omega) (by
      rcases hleg with h | h
      · exact .inl (fun e he => h e (hp.mem_iff.1 he))
      · exact .inr (by rw [v1]; exact h))
  have huv : (visited m2.tree).Pairwise (fun x y => cmp x.1 y.1 ≠ 0) :=
    hp.symm.pairwise (r2.uniq ho) (fun h h' => h (ord_symm0 ho h'))
  refine ⟨_, _, m1, m2, m3, e1, e2, by rw [merge_visited]; exact e3, ?_, ?_⟩
  · intro k
    simp only
    rw [find_spec ho r3, find_spec ho r1, find_spec ho r2,
      (mergeSpec_lookup ho f _ huv _ k).2]
    obtain ⟨q1, q2⟩ := lookup_perm ho hp (r2.uniq ho) k
    rw [q2]
    by_cases hB : Spec.present cmp (Spec.run cmp [] ops2).2 k
    · by_cases hA : Spec.present cmp (Spec.run cmp [] ops1).2 k <;> simp [q1, hA, hB]
    · simp [q1, hB]
  · intro k
    have hk : ∀ {m : Map K V} {A : SMap K V}, Rel cmp m A →
        ((∃ k' ∈ Map.insertionOrderedKeys m, cmp k k' = 0) ↔ Spec.present cmp A k) := by
      intro m A r
      unfold Map.insertionOrderedKeys Spec.present
      rw [r.order]
      simp
    rw [hk r3, hk r1, hk r2, (mergeSpec_lookup ho f _ huv _ k).1,
      (lookup_perm ho hp (r2.uniq ho) k).1]

/-- `C05_merge` applies to `demoOps` and a second history sharing key 3, with an adding callback;
the merged value of key 3 is 31 + 4 -/
example :
    let ops2 : List (Op Nat Nat) := [.add (some 3) (some 4), .add (some 2) (some 20)]
    (∀ op ∈ ops2, op.legal .del) ∧
    Spec.lookup natCmp (Spec.run natCmp [] demoOps).2 3 = some 31 ∧
    Spec.present natCmp (Spec.run natCmp [] demoOps).2 3 ∧
    Spec.present natCmp (Spec.run natCmp [] ops2).2 3 ∧
    newValue (some (fun o n : Option Nat => some (o.getD 0 + n.getD 0))) (some 31) (some 4) = some 35
    := by
  refine ⟨?_, by decide, by decide, by decide, by decide⟩
  intro op h
  simp only [List.mem_cons, List.not_mem_nil, or_false] at h
  rcases h with h | h <;> subst h <;> simp [Op.legal]

omit [DecidableEq V] in
/-- inserting distinct keys into an empty list just copies -/
theorem mergeSpec_copy {cmp : K → K → Int} (ho : IsOrd cmp) (l A : SMap K V)
    (hu : (A ++ l).Pairwise (fun x y => cmp x.1 y.1 ≠ 0)) :
    mergeSpec cmp none A l = A ++ l := by
  induction l generalizing A with
  | nil => simp [mergeSpec]
  | cons x l ih =>
    have hnp : ¬ Spec.present cmp A x.1 := by
      rintro ⟨y, hy, h0⟩
      rw [List.pairwise_append] at hu
      exact hu.2.2 y hy x (by simp) (ord_symm0 ho h0)
    have : mergeSpec cmp none A (x :: l) = mergeSpec cmp none (A ++ [x]) l := by
      unfold mergeSpec
      rw [List.foldl_cons, if_neg hnp, Spec.insert, if_neg hnp]
    rw [this, ih (A ++ [x]) (by simpa using hu)]
    simp

/-- **C05 (clone).**  The clone of any map produced by a history answers `cee_map_find` like the
original, has the same size, and the same keys. -/
theorem C05_clone {cmp : K → K → Int} (ho : IsOrd cmp) (kpol vpol : Policy)
    (ops : List (Op K V)) (h : ops.length < 2 ^ 31) (hl : ∀ op ∈ ops, op.legal vpol) :
    ∃ o m m', execAll cmp (Map.mkE kpol vpol) ops = .ok (o, m) ∧ Map.clone cmp m = .ok m' ∧
      (∀ k, Map.find cmp m' k = Map.find cmp m k) ∧ Map.sizeOf m' = Map.sizeOf m ∧
      (Map.insertionOrderedKeys m').Perm (Map.insertionOrderedKeys m) := by
  obtain ⟨m, e, v, kp, r, l⟩ := execAll_spec ho ops (Rel_mk cmp kpol vpol) (by simpa using h) hl
  simp only [List.length_nil, Nat.zero_add] at l
  have hp := (Tree.visited_perm m.tree r.inv).trans r.perm
  have huv : (visited m.tree).Pairwise (fun x y => cmp x.1 y.1 ≠ 0) :=
    hp.symm.pairwise (r.uniq ho) (fun h h' => h (ord_symm0 ho h'))
  obtain ⟨m', e', v', _, r'⟩ := merge_fold ho (visited m.tree) (Rel_mk cmp m.kpol m.vpol) none (by
      rw [hp.length_eq]; simp only [List.length_nil]; omega) (by
      by_cases hv : m.vpol = .noop
      · exact .inr hv
      · exact .inl (fun x hx => ⟨r.nonnull hv x (hp.mem_iff.1 hx), by simp⟩))
  have hcopy := mergeSpec_copy (V := V) ho
  rw [hcopy _ [] (by simpa using huv)] at r'
  simp only [List.nil_append] at r'
  refine ⟨_, m, m', e, by unfold Map.clone; rw [merge_visited]; exact e', ?_, ?_, ?_⟩
  · intro k
    cases k with
    | none => rfl
    | some k =>
      rw [find_spec ho r', find_spec ho r]
      exact (lookup_perm ho hp (r.uniq ho) k).2
  · rw [Map.sizeOf, Map.sizeOf, r'.size, r.size, hp.length_eq]
  · unfold Map.insertionOrderedKeys
    rw [r'.order, r.order]
    exact hp.map _

example : demoOps.length < 2 ^ 31 ∧ (∀ op ∈ demoOps, op.legal .del) ∧
    (Spec.run natCmp [] demoOps).2.length = 3 := ⟨by decide, demoOps_legal, by decide⟩

/-! ## C06 -/

/-- **C06 is false of the code.**  `cee_map_clone` re-adds the bindings in the order of the tree
walk: a map into which 3, 1, 2 were added in this order has a clone whose insertion-ordered keys are
2, 1, 3. -/
theorem C06_clone_order_false :
    ∃ (ops : List (Op Nat Nat)) (o : List (Out Nat)) (m m' : Map Nat Nat),
      (∀ op ∈ ops, op.legal .del) ∧
      execAll natCmp (Map.mkE .del .del) ops = .ok (o, m) ∧ Map.clone natCmp m = .ok m' ∧
      Map.insertionOrderedKeys m = [3, 1, 2] ∧ Map.insertionOrderedKeys m' = [2, 1, 3] := by
  have hl : ∀ op ∈ ([.add (some 3) (some 30), .add (some 1) (some 10), .add (some 2) (some 20)] :
      List (Op Nat Nat)), op.legal .del := by
    intro op h
    simp only [List.mem_cons, List.not_mem_nil, or_false] at h
    rcases h with h | h | h <;> subst h <;> simp [Op.legal]
  refine ⟨_, _, _, _, hl, rfl, rfl, ?_, ?_⟩ <;> decide

/-- **C06, what does hold** (`_partial`: only the *set* of keys is preserved, not their order; the
full statement "insertion-ordered keys of the clone = those of the source" is refuted by
`C06_clone_order_false`).  The clone's insertion-ordered keys are exactly the keys of the original
in the enumeration order of `cee_map_keys`. -/
theorem C06_clone_order_partial {cmp : K → K → Int} (ho : IsOrd cmp) (kpol vpol : Policy)
    (ops : List (Op K V)) (h : ops.length < 2 ^ 31) (hl : ∀ op ∈ ops, op.legal vpol) :
    ∃ o m m', execAll cmp (Map.mkE kpol vpol) ops = .ok (o, m) ∧ Map.clone cmp m = .ok m' ∧
      Map.insertionOrderedKeys m' = Map.keys m := by
  obtain ⟨m, e, v, kp, r, l⟩ := execAll_spec ho ops (Rel_mk cmp kpol vpol) (by simpa using h) hl
  simp only [List.length_nil, Nat.zero_add] at l
  have hp := (Tree.visited_perm m.tree r.inv).trans r.perm
  have huv : (visited m.tree).Pairwise (fun x y => cmp x.1 y.1 ≠ 0) :=
    hp.symm.pairwise (r.uniq ho) (fun h h' => h (ord_symm0 ho h'))
  obtain ⟨m', e', v', _, r'⟩ := merge_fold ho (visited m.tree) (Rel_mk cmp m.kpol m.vpol) none (by
      rw [hp.length_eq]; simp only [List.length_nil]; omega) (by
      by_cases hv : m.vpol = .noop
      · exact .inr hv
      · exact .inl (fun x hx => ⟨r.nonnull hv x (hp.mem_iff.1 hx), by simp⟩))
  have hcopy := mergeSpec_copy (V := V) ho
  rw [hcopy _ [] (by simpa using huv)] at r'
  refine ⟨_, m, m', e, by unfold Map.clone; rw [merge_visited]; exact e', ?_⟩
  unfold Map.insertionOrderedKeys
  rw [r'.order, keys_eq]
  simp

example : IsOrd natCmp ∧ demoOps.length < 2 ^ 31 ∧ (∀ op ∈ demoOps, op.legal .del) :=
  ⟨natCmp_ord, by decide, demoOps_legal⟩

end Verif.Map.Props
