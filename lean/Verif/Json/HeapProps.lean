import Verif.Json.Heap
import Verif.Json.Entries

/-!
# JSON values in memory: search and merge (C39, C40)
-/

namespace Verif.Json

open Tree (visited)
open Map.Spec (IsOrd SMap)

/-! ## `strcmp` -/

theorem strcmp_self (a : List Byte) : strcmp a a = 0 := by
  induction a with
  | nil => rfl
  | cons x a ih => simp [strcmp, ih]

theorem strcmp_eq {a b : List Byte} : strcmp a b = 0 ↔ a = b := by
  refine ⟨fun h => ?_, fun h => h ▸ strcmp_self a⟩
  induction a generalizing b with
  | nil => cases b with
    | nil => rfl
    | cons _ _ => simp [strcmp] at h
  | cons x a ih => cases b with
    | nil => simp [strcmp] at h
    | cons y b =>
      rw [strcmp] at h
      split at h
      · next e => rw [e, ih h]
      · split at h <;> simp at h

theorem strcmp_ord : IsOrd strcmp where
  refl := strcmp_self
  swap a b := by
    induction a generalizing b with
    | nil => cases b <;> simp [strcmp]
    | cons x a ih => cases b with
      | nil => simp [strcmp]
      | cons y b =>
        rw [strcmp, strcmp]
        by_cases e : x = y
        · rw [if_pos e, if_pos e.symm]; exact ih b
        · have e' : ¬ y = x := fun h => e h.symm
          rw [if_neg e, if_neg e']
          rcases UInt8.lt_or_lt_of_ne e with h | h
          · have h' : ¬ y < x := UInt8.not_lt.2 (UInt8.le_of_lt h)
            rw [if_pos h, if_neg h']; decide
          · have h' : ¬ x < y := UInt8.not_lt.2 (UInt8.le_of_lt h)
            rw [if_neg h', if_pos h]; decide
  trans a b c := by
    induction a generalizing b c with
    | nil => intro _ _; cases c <;> simp [strcmp]
    | cons x a ih =>
      intro h1 h2
      cases b with
      | nil => simp [strcmp] at h1
      | cons y b =>
        cases c with
        | nil => simp [strcmp] at h2
        | cons z c =>
          rw [strcmp] at h1 h2 ⊢
          have hxy : x = y ∧ strcmp a b ≤ 0 ∨ x < y := by
            by_cases e : x = y
            · rw [if_pos e] at h1; exact .inl ⟨e, h1⟩
            · rw [if_neg e] at h1
              by_cases l : x < y
              · exact .inr l
              · rw [if_neg l] at h1; simp at h1
          have hyz : y = z ∧ strcmp b c ≤ 0 ∨ y < z := by
            by_cases e : y = z
            · rw [if_pos e] at h2; exact .inl ⟨e, h2⟩
            · rw [if_neg e] at h2
              by_cases l : y < z
              · exact .inr l
              · rw [if_neg l] at h2; simp at h2
          rcases hxy with ⟨rfl, h1'⟩ | l1
          · rcases hyz with ⟨rfl, h2'⟩ | l2
            · rw [if_pos rfl]; exact ih _ _ h1' h2'
            · rw [if_neg (UInt8.ne_of_lt l2), if_pos l2]; decide
          · have : x < z := by
              rcases hyz with ⟨rfl, _⟩ | l2
              · exact l1
              · exact UInt8.lt_trans l1 l2
            rw [if_neg (UInt8.ne_of_lt this), if_pos this]; decide

/-! ## what a node stands for -/

/-- a step from a container to something in it -/
inductive Step where
  | idx (i : Nat)
  | key (k : List Byte)
  deriving DecidableEq

/-- the map `m` has the keys of the entries `kvs` -/
structure ObjRel (m : ObjMap) (kvs : List (List Byte × Val)) : Prop where
  rel : ∃ A, Map.Rel strcmp m A ∧ A.length = kvs.length
  pol : m.vpol ≠ .noop
  nodup : (kvs.map (·.1)).Nodup
  keys : ∀ k, (Map.find strcmp m (some k)).isSome = (kvs.lookup k).isSome

/-- the node `r` stands for the value `v`, every node below it (at the path `p` and its extensions) being as
`S` says.  Objects are compared as maps, i.e. without regard to the order of the keys. -/
inductive Reps (h : Heap) (S : List Step → Nat → Prop) : List Step → Nat → Val → Prop
  | atom {p r a} : S p r → h[r]? = some (.atom a) → Reps h S p r (.atom a)
  | arr {p r rs xs} : S p r → h[r]? = some (.arr rs) → rs.length = xs.length →
      (∀ i c x, rs[i]? = some c → xs[i]? = some x → Reps h S (p ++ [.idx i]) c x) → Reps h S p r (.arr xs)
  | obj {p r m kvs} : S p r → h[r]? = some (.obj m) → ObjRel m kvs →
      (∀ k c x, Map.find strcmp m (some k) = some c → kvs.lookup k = some x → Reps h S (p ++ [.key k]) c x) →
      Reps h S p r (.obj kvs)

theorem Reps.root {h : Heap} {S p r v} (hr : Reps h S p r v) : S p r := by
  cases hr <;> assumption

/-- nodes that are not looked at may change -/
theorem Reps.frame {h h' : Heap} {S : List Step → Nat → Prop} {p : List Step} {r : Nat} {v : Val}
    (hr : Reps h S p r v) (hf : ∀ q c, S (p ++ q) c → h'[c]? = h[c]?) : Reps h' S p r v := by
  induction hr with
  | atom hs hn => exact .atom hs (by rw [hf [] _ (by simpa using hs)]; exact hn)
  | arr hs hn hl _ ih =>
    refine .arr hs (by rw [hf [] _ (by simpa using hs)]; exact hn) hl fun i c x h1 h2 => ?_
    exact ih i c x h1 h2 fun q c hq => hf ([.idx i] ++ q) c (by simpa using hq)
  | obj hs hn hm _ ih =>
    refine .obj hs (by rw [hf [] _ (by simpa using hs)]; exact hn) hm fun k c x h1 h2 => ?_
    exact ih k c x h1 h2 fun q c hq => hf ([.key k] ++ q) c (by simpa using hq)

theorem Reps.mono {h : Heap} {S T : List Step → Nat → Prop} {p : List Step} {r : Nat} {v : Val}
    (hr : Reps h S p r v) (hf : ∀ q c, S q c → T q c) : Reps h T p r v := by
  induction hr with
  | atom hs hn => exact .atom (hf _ _ hs) hn
  | arr hs hn hl _ ih => exact .arr (hf _ _ hs) hn hl ih
  | obj hs hn hm _ ih => exact .obj (hf _ _ hs) hn hm ih

theorem Reps.move {h : Heap} {T : Nat → Prop} {p q : List Step} {r : Nat} {v : Val}
    (hr : Reps h (fun _ => T) p r v) : Reps h (fun _ => T) q r v := by
  generalize hS : (fun (_ : List Step) => T) = S at hr
  induction hr generalizing q with
  | atom hs hn => subst hS; exact .atom hs hn
  | arr hs hn hl _ ih => exact .arr (by subst hS; exact hs) hn hl fun i c x h1 h2 => ih i c x h1 h2
  | obj hs hn hm _ ih => subst hS; exact .obj hs hn hm fun i c x h1 h2 => ih i c x h1 h2

theorem lookup_mem {kvs : List (List Byte × Val)} {k : List Byte} {x : Val} (h : kvs.lookup k = some x) :
    (k, x) ∈ kvs := by
  induction kvs with
  | nil => simp at h
  | cons e l ih =>
    obtain ⟨k', x'⟩ := e
    rw [List.lookup_cons] at h
    split at h
    · next hk => simp only [Option.some.injEq] at h; rw [eq_of_beq hk, h]; simp
    · exact List.mem_cons_of_mem _ (ih h)

/-- the entries that `cee_map_iterate` visits are those that `cee_map_find` finds -/
theorem visited_find {m : ObjMap} {kvs : List (List Byte × Val)} (o : ObjRel m kvs) :
    (∀ e ∈ visited m.tree, ∃ c, e.2 = some c ∧ Map.find strcmp m (some e.1) = some c) ∧
    (∀ k c, Map.find strcmp m (some k) = some c → (k, some c) ∈ visited m.tree) ∧
    ((visited m.tree).map (·.1)).Nodup := by
  obtain ⟨A, r, -⟩ := o.rel
  have perm := (Tree.visited_perm m.tree r.inv).trans r.perm
  have hu := r.uniq strcmp_ord
  refine ⟨fun e he => ?_, fun k c hf => ?_, ?_⟩
  · have hA := perm.mem_iff.1 he
    obtain ⟨c, hc⟩ := Option.ne_none_iff_exists'.1 (r.nonnull o.pol e hA)
    refine ⟨c, hc, ?_⟩
    rw [Map.find_spec strcmp_ord r, Map.Spec.lookup, Map.find_unique strcmp_ord hu hA (strcmp_self _)]
    exact hc
  · rw [Map.find_spec strcmp_ord r, Map.Spec.lookup] at hf
    split at hf
    · next e he =>
      have h1 := List.mem_of_find?_eq_some he
      have h2 := List.find?_some he
      simp only [decide_eq_true_eq, strcmp_eq] at h2
      subst h2
      rw [perm.mem_iff, ← hf]; exact h1
    · simp at hf
  · rw [List.Nodup, List.pairwise_map]
    have hA : A.Pairwise (fun x y => x.1 ≠ y.1) := hu.imp fun {a b} h e => h (by rw [e]; exact strcmp_self _)
    exact perm.symm.pairwise hA fun h e => h e.symm

/-! ## C39 -/

mutual
/-- the number of nodes of a value -/
def Val.nodes : Val → Nat
  | .atom _ => 1
  | .arr xs => 1 + nodesL xs
  | .obj kvs => 1 + nodesF kvs
/-- the number of nodes of the elements -/
def nodesL : List Val → Nat
  | [] => 0
  | x :: xs => x.nodes + nodesL xs
/-- the number of nodes of the entries -/
def nodesF : List (List Byte × Val) → Nat
  | [] => 0
  | (_, x) :: xs => x.nodes + nodesF xs
end

theorem Val.nodes_pos (v : Val) : 1 ≤ v.nodes := by
  cases v <;> rw [Val.nodes] <;> omega

theorem nodesL_mem {xs : List Val} {x : Val} (h : x ∈ xs) : x.nodes ≤ nodesL xs := by
  induction xs with
  | nil => simp at h
  | cons y ys ih =>
    rw [nodesL]
    rcases List.mem_cons.1 h with rfl | h
    · omega
    · have := ih h; omega

theorem nodesL_length (xs : List Val) : xs.length ≤ nodesL xs := by
  induction xs with
  | nil => simp
  | cons y ys ih => rw [nodesL]; have := y.nodes_pos; simp; omega

theorem nodesF_mem {xs : List (List Byte × Val)} {x : List Byte × Val} (h : x ∈ xs) : x.2.nodes ≤ nodesF xs := by
  induction xs with
  | nil => simp at h
  | cons y ys ih =>
    obtain ⟨k, y⟩ := y
    rw [nodesF]
    rcases List.mem_cons.1 h with rfl | h
    · simp only; omega
    · have := ih h; omega

theorem nodesF_length (xs : List (List Byte × Val)) : xs.length ≤ nodesF xs := by
  induction xs with
  | nil => simp
  | cons y ys ih => obtain ⟨k, y⟩ := y; rw [nodesF]; have := y.nodes_pos; simp; omega

/-- `x` is the value of the key `k` in some object inside `v` (or `v` itself) -/
inductive HasKey : Val → List Byte → Val → Prop
  | here {kvs k x} : kvs.lookup k = some x → HasKey (.obj kvs) k x
  | inObj {kvs k x k' y} : kvs.lookup k' = some y → HasKey y k x → HasKey (.obj kvs) k x
  | inArr {xs k x y} : y ∈ xs → HasKey y k x → HasKey (.arr xs) k x

theorem iterFound_spec {α : Type} {f : α → Res (Option (Bool × Option Nat))} {Q : α → Option Nat → Prop} (l : List α)
    (hf : ∀ a ∈ l, ∃ found, f a = .ok (some (found.isSome, found)) ∧ Q a found) :
    ∃ res, iterFound f l none = .ok (some res) ∧ (res = none → ∀ a ∈ l, Q a none) ∧
      (∀ c, res = some c → ∃ a ∈ l, Q a (some c)) := by
  induction l with
  | nil => exact ⟨none, rfl, by simp, by simp⟩
  | cons a l ih =>
    rw [List.forall_mem_cons] at hf
    obtain ⟨⟨found, ha, hq⟩, hl⟩ := hf
    rw [iterFound, ha, Res.bind_ok]
    cases found with
    | some c => exact ⟨some c, rfl, by simp, fun c' e => ⟨a, by simp, e ▸ hq⟩⟩
    | none =>
      obtain ⟨res, h1, h2, h3⟩ := ih hl
      refine ⟨res, h1, fun e => ?_, fun c e => ?_⟩
      · rw [List.forall_mem_cons]; exact ⟨hq, h2 e⟩
      · obtain ⟨b, hb, hc⟩ := h3 c e
        exact ⟨b, List.mem_cons_of_mem _ hb, hc⟩

theorem has_spec {h : Heap} {S : List Step → Nat → Prop} (key : List Byte) (v : Val) :
    ∀ {p j n}, Reps h S p j v → v.nodes < 2 ^ 31 → v.height ≤ n →
    ∃ res, has h key n j = .ok (some res) ∧ (res = none → ∀ x, ¬ HasKey v key x) ∧
      (∀ c, res = some c → ∃ x q, HasKey v key x ∧ Reps h S q c x) := by
  induction v using Val.ind with
  | h0 a =>
    intro p j n hr hs hn
    rw [Val.height] at hn
    obtain ⟨n, rfl⟩ : ∃ k, n = k + 1 := ⟨n - 1, by omega⟩
    cases hr with
    | atom _ hj => exact ⟨none, by rw [has, hj], by rintro - x ⟨⟩, by simp⟩
  | ha xs ih =>
    intro p j n hr hs hn
    rw [Val.height] at hn
    rw [Val.nodes] at hs
    obtain ⟨n, rfl⟩ : ∃ k, n = k + 1 := ⟨n - 1, by omega⟩
    cases hr with
    | @arr _ _ rs _ _ hj hl hc =>
      have hw := nodesL_length xs
      rw [has, hj]
      simp only
      rw [if_neg (by omega)]
      have main : ∀ (i c : Nat) (x : Val), rs[i]? = some c → xs[i]? = some x →
          ∃ res, has h key n c = .ok (some res) ∧ (res = none → ∀ y, ¬ HasKey x key y) ∧
            (∀ d, res = some d → ∃ y q, HasKey x key y ∧ Reps h S q d y) := by
        intro i c x h1 h2
        have hm := List.mem_of_getElem? h2
        have h3 := nodesL_mem hm
        have h4 := heightL_mem hm
        exact ih x hm (hc i c x h1 h2) (by omega) (by omega)
      obtain ⟨res, h1, h2, h3⟩ := iterFound_spec (f := findInElem (has h key n))
        (Q := fun c found => has h key n c = .ok (some found)) rs (by
        intro c hcr
        obtain ⟨i, hi, rfl⟩ := List.getElem_of_mem hcr
        obtain ⟨res, e, -⟩ := main i _ _ (List.getElem?_eq_getElem hi) (List.getElem?_eq_getElem (hl ▸ hi))
        exact ⟨res, by rw [findInElem, e]; rfl, e⟩)
      refine ⟨res, h1, fun e x hk => ?_, fun c e => ?_⟩
      · cases hk with
        | inArr hy hk =>
          obtain ⟨i, hi, rfl⟩ := List.getElem_of_mem hy
          have hi' : i < rs.length := hl ▸ hi
          obtain ⟨res', r0, r1, -⟩ := main i _ _ (List.getElem?_eq_getElem hi') (List.getElem?_eq_getElem hi)
          rw [h2 e rs[i] (List.getElem_mem _)] at r0
          simp only [Res.ok.injEq, Option.some.injEq] at r0
          exact r1 r0.symm x hk
      · obtain ⟨a, ha, e1⟩ := h3 c e
        obtain ⟨i, hi, rfl⟩ := List.getElem_of_mem ha
        have hi' : i < xs.length := hl ▸ hi
        obtain ⟨res', r0, -, r2⟩ := main i _ _ (List.getElem?_eq_getElem hi) (List.getElem?_eq_getElem hi')
        rw [e1] at r0
        simp only [Res.ok.injEq, Option.some.injEq] at r0
        obtain ⟨y, q, hy, hq⟩ := r2 c r0.symm
        exact ⟨y, q, .inArr (List.getElem_mem _) hy, hq⟩
  | ho kvs ih =>
    intro p j n hr hs hn
    rw [Val.height] at hn
    rw [Val.nodes] at hs
    obtain ⟨n, rfl⟩ : ∃ k, n = k + 1 := ⟨n - 1, by omega⟩
    cases hr with
    | @obj _ _ m _ _ hj ho hc =>
      rw [has, hj]
      simp only
      obtain ⟨v1, v2, -⟩ := visited_find ho
      have main : ∀ k c x, Map.find strcmp m (some k) = some c → kvs.lookup k = some x →
          ∃ res, has h key n c = .ok (some res) ∧ (res = none → ∀ y, ¬ HasKey x key y) ∧
            (∀ d, res = some d → ∃ y q, HasKey x key y ∧ Reps h S q d y) := by
        intro k c x h1 h2
        have hm := lookup_mem h2
        have h3 := nodesF_mem hm
        have h4 := heightF_mem hm
        simp only at h3 h4
        exact ih _ hm (hc k c x h1 h2) (by simp only; omega) (by simp only; omega)
      have look : ∀ k c, Map.find strcmp m (some k) = some c → ∃ x, kvs.lookup k = some x := by
        intro k c e
        have := ho.keys k
        rw [e] at this
        exact Option.isSome_iff_exists.1 this.symm
      have back : ∀ k x, kvs.lookup k = some x → ∃ c, Map.find strcmp m (some k) = some c := by
        intro k x e
        have := ho.keys k
        rw [e] at this
        exact Option.isSome_iff_exists.1 this
      obtain ⟨res, h1, h2, h3⟩ := iterFound_spec (f := matchKey (has h key n) key)
        (Q := fun e found => ∃ c, e.2 = some c ∧ Map.find strcmp m (some e.1) = some c ∧
          (if e.1 = key then found = some c else has h key n c = .ok (some found))) (visited m.tree) (by
        intro e he
        obtain ⟨c, e1, e2⟩ := v1 e he
        by_cases hk : e.1 = key
        · refine ⟨some c, ?_, c, e1, e2, by rw [if_pos hk]⟩
          rw [matchKey, if_pos (strcmp_eq.2 hk), e1]; rfl
        · obtain ⟨x, hx⟩ := look _ _ e2
          obtain ⟨res, r0, -⟩ := main _ _ _ e2 hx
          refine ⟨res, ?_, c, e1, e2, by rw [if_neg hk]; exact r0⟩
          rw [matchKey, if_neg (fun h => hk (strcmp_eq.1 h)), e1]
          simp only
          rw [r0]; rfl)
      refine ⟨res, h1, fun e x hk => ?_, fun c e => ?_⟩
      · have h2 := h2 e
        cases hk with
        | here hx =>
          obtain ⟨c, hc⟩ := back _ _ hx
          obtain ⟨c', -, -, q⟩ := h2 _ (v2 _ _ hc)
          rw [if_pos rfl] at q
          simp at q
        | @inObj _ _ _ k' y hy hk =>
          obtain ⟨c, hc⟩ := back _ _ hy
          obtain ⟨c', e1, -, q⟩ := h2 _ (v2 _ _ hc)
          by_cases hkk : k' = key
          · rw [if_pos hkk] at q; simp at q
          · rw [if_neg hkk] at q
            simp only [Option.some.injEq] at e1
            subst e1
            obtain ⟨res', r0, r1, -⟩ := main _ _ _ hc hy
            rw [q] at r0
            simp only [Res.ok.injEq, Option.some.injEq] at r0
            exact r1 r0.symm x hk
      · obtain ⟨a, ha, c', e1, e2, q⟩ := h3 c e
        obtain ⟨x, hx⟩ := look _ _ e2
        by_cases hk : a.1 = key
        · rw [if_pos hk] at q
          simp only [Option.some.injEq] at q
          subst q
          exact ⟨x, _, .here (hk ▸ hx), hc _ _ _ e2 hx⟩
        · rw [if_neg hk] at q
          obtain ⟨res', r0, -, r2⟩ := main _ _ _ e2 hx
          rw [q] at r0
          simp only [Res.ok.injEq, Option.some.injEq] at r0
          obtain ⟨y, q, hy, hq⟩ := r2 c r0.symm
          exact ⟨y, q, .inObj hx hy, hq⟩

/-! ## C40 -/

mutual
/-- two objects are merged key by key, two arrays are concatenated; otherwise the source wins -/
def mergeVal : Val → Val → Val
  | .obj a, .obj b => .obj (mergeF a b)
  | .arr a, .arr b => .arr (a ++ b)
  | _, .atom y => .atom y
  | _, .arr b => .arr b
  | _, .obj b => .obj b
/-- the entries of the source one after the other -/
def mergeF : List (List Byte × Val) → List (List Byte × Val) → List (List Byte × Val)
  | a, [] => a
  | a, (k, y) :: b =>
    mergeF (insertKey k (match a.lookup k with
      | none => y
      | some x => mergeVal x y) a) b
end

/-- both are objects or both are arrays -/
def mergeable : Val → Val → Bool
  | .obj _, .obj _ => true
  | .arr _, .arr _ => true
  | _, _ => false

theorem mergeVal_not {x y : Val} (h : mergeable x y = false) : mergeVal x y = y := by
  cases x <;> cases y <;> simp [mergeable] at h <;> rw [mergeVal] <;> simp

theorem nodup_mergeF {a : List (List Byte × Val)} (b : List (List Byte × Val)) (h : (a.map (·.1)).Nodup) :
    ((mergeF a b).map (·.1)).Nodup := by
  induction b generalizing a with
  | nil => rw [mergeF]; exact h
  | cons e b ih => obtain ⟨k, y⟩ := e; rw [mergeF]; exact ih (nodup_insertKey h)

theorem lookup_mergeF (a b : List (List Byte × Val)) (hb : (b.map (·.1)).Nodup) (k : List Byte) :
    (mergeF a b).lookup k = match b.lookup k with
      | none => a.lookup k
      | some y => some (match a.lookup k with
        | none => y
        | some x => mergeVal x y) := by
  induction b generalizing a with
  | nil => rw [mergeF]; simp
  | cons e b ih =>
    obtain ⟨k1, y⟩ := e
    rw [List.map_cons, List.nodup_cons] at hb
    rw [mergeF, ih _ hb.2, lookup_insertKey, List.lookup_cons]
    by_cases e : k = k1
    · subst e
      have hn : b.lookup k = none := by
        rw [← Option.not_isSome_iff_eq_none, lookup_isSome]; exact hb.1
      rw [hn]
      simp
    · rw [beq_false_of_ne e]
      simp only [e, if_false]

/-- the nodes of the destination: each carries its one path -/
def lab (P : Nat → Option (List Step)) (p : List Step) (r : Nat) : Prop := P r = some p
/-- the nodes of the source carry none -/
def un (P : Nat → Option (List Step)) (_ : List Step) (r : Nat) : Prop := P r = none
/-- where the path of a node in a source leads after the source was merged into `v`: the elements of an array
come after those that were there -/
def reloc : Val → List Step → List Step
  | .arr xs, .idx i :: p => .idx (i + xs.length) :: p
  | .obj kvs, .key k :: p => .key k :: relocF kvs k p
  | _, p => p
where
  /-- below a key -/
  relocF : List (List Byte × Val) → List Byte → List Step → List Step
  | [], _, p => p
  | (k', x) :: kvs, k, p => if k == k' then reloc x p else relocF kvs k p

/-- the nodes of the result: those of the destination with their paths, and those of the source (`U` says which
and where) with the paths that `G` gives -/
def both (P : Nat → Option (List Step)) (U : List Step → Nat → Prop) (G : List Step → List Step) (p : List Step)
    (r : Nat) : Prop := P r = some p ∨ ∃ q, U q r ∧ p = G q

/-- `G` is `reloc` at the path `p` where the destination has the value `v` -/
def Fits (G : List Step → List Step) (p : List Step) (v : Val) : Prop := ∀ q, G (p ++ q) = p ++ reloc v q

theorem relocF_eq (kvs : List (List Byte × Val)) (k : List Byte) (p : List Step) :
    reloc.relocF kvs k p = match kvs.lookup k with
      | none => p
      | some x => reloc x p := by
  induction kvs with
  | nil => rfl
  | cons e kvs ih =>
    obtain ⟨k', x⟩ := e
    rw [reloc.relocF, List.lookup_cons]
    cases h : k == k' with
    | true => rfl
    | false => exact ih

theorem lookup_map {α : Type} (l : List (List Byte × α)) (g : List Byte → Val) (k : List Byte) :
    (l.map fun e => (e.1, g e.1)).lookup k = if k ∈ l.map (·.1) then some (g k) else none := by
  induction l with
  | nil => simp
  | cons e l ih =>
    rw [List.map_cons, List.lookup_cons, List.map_cons]
    by_cases hk : k = e.1
    · subst hk; simp
    · rw [beq_false_of_ne hk]
      simp only
      rw [ih]
      simp only [List.mem_cons, hk, false_or]

theorem Reps.shift {h : Heap} {S T : List Step → Nat → Prop} {p q : List Step} {r : Nat} {v : Val}
    (hr : Reps h S q r v) (hf : ∀ t c, S (q ++ t) c → T (p ++ t) c) : Reps h T p r v := by
  induction hr generalizing p with
  | atom hs hn => exact .atom (by simpa using hf [] _ (by simpa using hs)) hn
  | arr hs hn hl _ ih =>
    refine .arr (by simpa using hf [] _ (by simpa using hs)) hn hl fun i c x h1 h2 => ih i c x h1 h2 fun t c ht => ?_
    rw [List.append_assoc] at ht ⊢
    exact hf _ c ht
  | obj hs hn hm _ ih =>
    refine .obj (by simpa using hf [] _ (by simpa using hs)) hn hm fun k c x h1 h2 => ih k c x h1 h2 fun t c ht => ?_
    rw [List.append_assoc] at ht ⊢
    exact hf _ c ht

/-- the nodes of a source, at a path where nothing was -/
theorem Reps.unBoth {h : Heap} {P : Nat → Option (List Step)} {U : List Step → Nat → Prop}
    {G : List Step → List Step} {p q : List Step} {r : Nat} {v : Val}
    (hr : Reps h U q r v) (hG : ∀ t, G (q ++ t) = p ++ t) : Reps h (both P U G) p r v :=
  hr.shift fun t _ ht => .inr ⟨_, ht, (hG t).symm⟩

/-- or where something was with which the source was not merged -/
theorem Reps.unBoth' {h : Heap} {P : Nat → Option (List Step)} {U : List Step → Nat → Prop}
    {G : List Step → List Step} {p : List Step} {r : Nat} {v w : Val}
    (hr : Reps h U p r v) (hG : Fits G p w) (hm : mergeable w v = false) : Reps h (both P U G) p r v := by
  have h0 : ∀ u : Val, reloc u [] = [] := by intro u; cases u <;> simp [reloc]
  cases hr with
  | atom hs hn => exact .atom (.inr ⟨_, hs, by have := hG []; rw [h0] at this; simpa using this.symm⟩) hn
  | arr hs hn hl hc =>
    refine .arr (.inr ⟨_, hs, by have := hG []; rw [h0] at this; simpa using this.symm⟩) hn hl
      fun i c x h1 h2 => (hc i c x h1 h2).unBoth fun t => ?_
    rw [List.append_assoc, hG]
    cases w <;> simp [mergeable] at hm <;> simp [reloc]
  | obj hs hn ho hc =>
    refine .obj (.inr ⟨_, hs, by have := hG []; rw [h0] at this; simpa using this.symm⟩) hn ho
      fun k c x h1 h2 => (hc k c x h1 h2).unBoth fun t => ?_
    rw [List.append_assoc, hG]
    cases w <;> simp [mergeable] at hm <;> simp [reloc]

theorem Reps.congr {h : Heap} {S p r kvs kvs'} (hr : Reps h S p r (.obj kvs)) (hn : (kvs'.map (·.1)).Nodup)
    (he : ∀ k, kvs.lookup k = kvs'.lookup k) : Reps h S p r (.obj kvs') := by
  cases hr with
  | obj h1 h2 h3 h4 =>
    refine .obj h1 h2 ⟨?_, h3.pol, hn, fun k => by rw [← he]; exact h3.keys k⟩ fun k c x e1 e2 => h4 k c x e1 (by rw [he]; exact e2)
    obtain ⟨A, r, l⟩ := h3.rel
    refine ⟨A, r, ?_⟩
    have := ((List.perm_ext_iff_of_nodup h3.nodup hn).2 fun k => by rw [← lookup_isSome, ← lookup_isSome, he]).length_eq
    rw [List.length_map, List.length_map] at this
    omega

/-- putting an entry into an object -/
theorem ObjRel.add {m : ObjMap} {kvs : List (List Byte × Val)} (o : ObjRel m kvs) (hs : kvs.length < 2 ^ 31)
    (k : List Byte) (v : Nat) (f : Option (Option Nat → Option Nat → Option Nat)) (x : Val)
    (hf : ∀ g, f = some g → ∀ o, g o (some v) ≠ none) :
    ∃ m' old, Map.addE strcmp m (some k) (some v) f = .ok (old, m') ∧ ObjRel m' (insertKey k x kvs) ∧
      ∀ k', Map.find strcmp m' (some k') = if k' = k then
        (match Map.find strcmp m (some k) with
          | none => some v
          | some old => Map.newValue f (some old) (some v))
        else Map.find strcmp m (some k') := by
  obtain ⟨A, r, hl⟩ := o.rel
  obtain ⟨m', e, hv, -, r'⟩ := Map.addE_spec strcmp_ord r (by omega) k (some v) f (.inl ⟨by simp, hf⟩)
  have pres : ∀ k, Map.Spec.present strcmp A k ↔ (Map.find strcmp m (some k)).isSome := by
    intro k
    rw [Map.find_spec strcmp_ord r]
    constructor
    · rintro ⟨e, he, h0⟩
      rw [Map.Spec.lookup, Map.find_unique strcmp_ord (r.uniq strcmp_ord) he h0]
      exact Option.isSome_iff_ne_none.2 (r.nonnull o.pol e he)
    · intro h
      apply Classical.byContradiction
      intro hn
      rw [Map.lookup_of_not_present k A hn] at h
      simp at h
  have find : ∀ k', Map.find strcmp m' (some k') = if k' = k then
        (match Map.find strcmp m (some k) with
          | none => some v
          | some old => Map.newValue f (some old) (some v))
        else Map.find strcmp m (some k') := by
    intro k'
    rw [Map.find_spec strcmp_ord r']
    have hif : ∀ w, Map.Spec.lookup strcmp (Map.Spec.insert strcmp A k w) k' =
        if k' = k then w else Map.find strcmp m (some k') := by
      intro w
      rw [Map.Props.spec_lookup_insert strcmp_ord, Map.find_spec strcmp_ord r]
      by_cases e : k' = k
      · rw [if_pos (strcmp_eq.2 e), if_pos e]
      · rw [if_neg (fun h => e (strcmp_eq.1 h)), if_neg e]
    by_cases hp : Map.Spec.present strcmp A k
    · rw [if_pos hp, hif]
      obtain ⟨w, hw⟩ := Option.isSome_iff_exists.1 ((pres k).1 hp)
      rw [hw, ← Map.find_spec strcmp_ord r, hw]
    · rw [if_neg hp, hif]
      have : Map.find strcmp m (some k) = none := by
        rw [← Option.not_isSome_iff_eq_none]; exact fun h => hp ((pres k).2 h)
      rw [this]
  refine ⟨m', _, e, ⟨⟨_, r', ?_⟩, by rw [hv]; exact o.pol, nodup_insertKey o.nodup, ?_⟩, find⟩
  · rw [length_insertKey, ← o.keys]
    by_cases hp : Map.Spec.present strcmp A k
    · rw [if_pos hp, if_pos ((pres k).1 hp), Map.Spec.insert, if_pos hp, List.length_map, hl]
    · rw [if_neg hp, if_neg (fun h => hp ((pres k).2 h)), Map.Spec.insert, if_neg hp, List.length_append, hl]; rfl
  · intro k'
    rw [find, lookup_insertKey]
    by_cases e : k' = k
    · rw [if_pos e, if_pos e]
      cases hw : Map.find strcmp m (some k) with
      | none => rfl
      | some w =>
        simp only [Map.newValue]
        cases f with
        | none => rfl
        | some g =>
          have := hf g rfl (some w)
          simpa [Option.isSome_iff_ne_none] using this
    · rw [if_neg e, if_neg e]; exact o.keys k'

/-- what `cee_json_merge` does on the node `d` at the path `p` with the value `dv`, and the value `sv` of a
source -/
def Merges (P : Nat → Option (List Step)) (U : List Step → Nat → Prop) (G : List Step → List Step) (rec : Heap → Nat → Nat → Res (Option (Bool × Heap))) (p : List Step)
    (sv : Val) : Prop :=
  ∀ (h : Heap) d dv s, Reps h (lab P) p d dv → Reps h U p s sv → Fits G p dv → dv.nodes + sv.nodes < 2 ^ 31 →
    ∃ h', rec h d s = .ok (some (mergeable dv sv, h')) ∧ h'.length = h.length ∧
      (∀ r, (∀ q, P r ≠ some (p ++ q)) → h'[r]? = h[r]?) ∧
      (mergeable dv sv = true → Reps h' (both P U G) p d (mergeVal dv sv)) ∧
      (mergeable dv sv = false → h' = h)

theorem set_other {h : Heap} {d r : Nat} {n : Node} (hr : r ≠ d) : (h.set d n)[r]? = h[r]? := by
  rw [List.getElem?_set_ne (fun e => hr e.symm)]

theorem set_same {h : Heap} {d : Nat} {n n' : Node} (hd : h[d]? = some n) : (h.set d n')[d]? = some n' := by
  rw [List.getElem?_set_self]
  exact (List.getElem?_eq_some_iff.1 hd).1

theorem mergeKvs_spec {P : Nat → Option (List Step)} {U : List Step → Nat → Prop} (hU : ∀ q r, U q r → P r = none)
    {G : List Step → List Step} {p : List Step} {d : Nat} (hd : P d = some p)
    {rec : Heap → Nat → Nat → Res (Option (Bool × Heap))} {src : List (List Byte × Val)}
    (hrec : ∀ k y, src.lookup k = some y → Merges P U G rec (p ++ [.key k]) y)
    (L : List (List Byte × Option Nat)) : ∀ (h : Heap) (m : ObjMap) (cur : List (List Byte × Val)),
    h[d]? = some (.obj m) → ObjRel m cur → cur.length + L.length < 2 ^ 31 → (L.map (·.1)).Nodup →
    (∀ e ∈ L, ∃ s y, e.2 = some s ∧ src.lookup e.1 = some y ∧ Reps h U (p ++ [.key e.1]) s y) →
    (∀ k ∈ L.map (·.1), match cur.lookup k with
      | none => ∀ t, G (p ++ [.key k] ++ t) = p ++ [.key k] ++ t
      | some x => Fits G (p ++ [.key k]) x) →
    (∀ k c x, k ∉ L.map (·.1) → Map.find strcmp m (some k) = some c → cur.lookup k = some x →
      Reps h (both P U G) (p ++ [.key k]) c x) →
    (∀ k c x, k ∈ L.map (·.1) → Map.find strcmp m (some k) = some c → cur.lookup k = some x →
      Reps h (lab P) (p ++ [.key k]) c x ∧ x.nodes + nodesF src < 2 ^ 31) →
    ∃ h' m', mergeKvs rec d L h = .ok (some h') ∧ h'.length = h.length ∧
      (∀ r, (∀ q, P r ≠ some (p ++ q)) → h'[r]? = h[r]?) ∧ h'[d]? = some (.obj m') ∧
      ObjRel m' (mergeF cur (L.map fun e => (e.1, (src.lookup e.1).getD (.atom .null)))) ∧
      (∀ k c x, Map.find strcmp m' (some k) = some c →
        (mergeF cur (L.map fun e => (e.1, (src.lookup e.1).getD (.atom .null)))).lookup k = some x →
        Reps h' (both P U G) (p ++ [.key k]) c x) := by
  induction L with
  | nil =>
    intro h m cur hm ho _ _ _ _ hdone _
    rw [List.map_nil, mergeF]
    exact ⟨h, m, rfl, rfl, fun _ _ => rfl, hm, ho, fun k c x h1 h2 => hdone k c x (by simp) h1 h2⟩
  | cons e L ih =>
    obtain ⟨k, v⟩ := e
    intro h m cur hm ho hsz hnd hsrc hG hdone hpend
    rw [List.map_cons, List.nodup_cons] at hnd
    rw [List.length_cons] at hsz
    rw [List.forall_mem_cons] at hsrc
    obtain ⟨⟨s, y, rfl, hy, hsy⟩, hsrc⟩ := hsrc
    simp only at hy hnd
    rw [List.map_cons, mergeF, mergeKvs]
    simp only [hy, Option.getD_some]
    -- nodes below other keys, and nodes of the source, are not below `k`
    have away : ∀ k' q r, k' ≠ k → both P U G (p ++ [.key k'] ++ q) r → ∀ q', P r ≠ some (p ++ [.key k] ++ q') := by
      rintro k' q r hk (e | ⟨_, e, -⟩) q' e'
      · rw [e] at e'
        simp only [List.append_assoc, List.singleton_append, Option.some.injEq, List.append_cancel_left_eq,
          List.cons.injEq, Step.key.injEq] at e'
        exact hk e'.1
      · rw [hU _ _ e] at e'; simp at e'
    have notd : ∀ k' q r, both P U G (p ++ [.key k'] ++ q) r → r ≠ d := by
      rintro k' q r (e | ⟨_, e, -⟩) rfl
      · rw [hd] at e
        simp at e
      · rw [hU _ _ e] at hd; simp at hd
    have und : ∀ r, P r = none → r ≠ d := by
      rintro r e rfl
      rw [hd] at e; simp at e
    -- the end of the turn: `h1` is the heap after the recursive call, `c1` the pointer stored
    have turn : ∀ (h1 : Heap) (f : Option (Option Nat → Option Nat → Option Nat)) (c1 : Nat) (x1 : Val),
        h1.length = h.length → (∀ r, (∀ q, P r ≠ some (p ++ [.key k] ++ q)) → h1[r]? = h[r]?) →
        (∀ g, f = some g → ∀ o, g o (some s) ≠ none) →
        (match Map.find strcmp m (some k) with
          | none => some s
          | some old => Map.newValue f (some old) (some s)) = some c1 →
        Reps h1 (both P U G) (p ++ [.key k]) c1 x1 →
        ∃ h' m' m1, (Map.addE strcmp m (some k) (some s) f).map (fun r => some (h1.set d (.obj r.2))) = .ok (some (h1.set d (.obj m1))) ∧
          mergeKvs rec d L (h1.set d (.obj m1)) = .ok (some h') ∧ h'.length = h.length ∧
          (∀ r, (∀ q, P r ≠ some (p ++ q)) → h'[r]? = h[r]?) ∧ h'[d]? = some (.obj m') ∧
          ObjRel m' (mergeF (insertKey k x1 cur) (L.map fun e => (e.1, (src.lookup e.1).getD (.atom .null)))) ∧
          (∀ k' c x, Map.find strcmp m' (some k') = some c →
            (mergeF (insertKey k x1 cur) (L.map fun e => (e.1, (src.lookup e.1).getD (.atom .null)))).lookup k' = some x →
            Reps h' (both P U G) (p ++ [.key k']) c x) := by
      intro h1 f c1 x1 hlen hfr hf hc1 hreps
      obtain ⟨m1, old, e1, o1, f1⟩ := ho.add (by omega) k s f x1 hf
      rw [hc1] at f1
      have hd1 : h1[d]? = some (.obj m) := by
        rw [hfr d (by intro q; rw [hd]; simp)]; exact hm
      have hsame : ∀ k' q r, k' ≠ k → both P U G (p ++ [.key k'] ++ q) r → (h1.set d (.obj m1))[r]? = h[r]? := by
        intro k' q r hk hb
        rw [set_other (notd k' q r hb), hfr r (away k' q r hk hb)]
      obtain ⟨h', m', g1, g2, g3, g4, g5, g6⟩ := ih (h1.set d (.obj m1)) m1 (insertKey k x1 cur) (set_same hd1) o1
        (by rw [length_insertKey]; split <;> omega) hnd.2
        (by
          intro e he
          obtain ⟨s', y', a1, a2, a3⟩ := hsrc e he
          refine ⟨s', y', a1, a2, a3.frame fun q r hr => ?_⟩
          have hr := hU _ _ hr
          rw [set_other (und r hr), hfr r (by intro q; rw [hr]; simp)])
        (by
          intro k' hk
          have e : k' ≠ k := fun e => hnd.1 (e ▸ hk)
          rw [lookup_insertKey, if_neg e]
          exact hG k' (by rw [List.map_cons]; exact List.mem_cons_of_mem _ hk))
        (by
          intro k' c x hk hfind hlook
          rw [f1] at hfind
          rw [lookup_insertKey] at hlook
          by_cases e : k' = k
          · subst e
            rw [if_pos rfl] at hfind hlook
            simp only [Option.some.injEq] at hfind hlook
            subst hfind hlook
            exact hreps.frame fun q r hr => set_other (notd _ q r hr)
          · rw [if_neg e] at hfind hlook
            refine (hdone k' c x ?_ hfind hlook).frame fun q r hr => hsame k' q r e hr
            rw [List.map_cons, List.mem_cons, not_or]
            exact ⟨e, hk⟩)
        (by
          intro k' c x hk hfind hlook
          have e : k' ≠ k := fun e => hnd.1 (e ▸ hk)
          rw [f1, if_neg e] at hfind
          rw [lookup_insertKey, if_neg e] at hlook
          obtain ⟨a1, a2⟩ := hpend k' c x (by rw [List.map_cons]; exact List.mem_cons_of_mem _ hk) hfind hlook
          exact ⟨a1.frame fun q r hr => hsame k' q r e (.inl hr), a2⟩)
      refine ⟨h', m', m1, by rw [e1]; rfl, g1, by rw [g2, List.length_set, hlen], fun r hr => ?_, g4, g5, g6⟩
      rw [g3 r hr, set_other, hfr r]
      · intro q; rw [List.append_assoc]; exact hr _
      · rintro rfl; exact hr [] (by rw [hd]; simp)
    rw [mergeKv, hm]
    simp only
    have hkeys := ho.keys k
    cases hfind : Map.find strcmp m (some k) with
    | none =>
      rw [hfind] at hkeys
      have hcur : cur.lookup k = none := by
        rw [← Option.not_isSome_iff_eq_none, ← hkeys]; simp
      have hGk := hG k (by simp)
      rw [hcur] at hGk ⊢
      obtain ⟨h', m', m1, e1, e2, r1⟩ := turn h none s y rfl (fun _ _ => rfl) (by simp) (by rw [hfind])
        (hsy.unBoth hGk)
      refine ⟨h', m', ?_, r1⟩
      simp only
      rw [e1, Res.bind_ok]
      exact e2
    | some old =>
      rw [hfind] at hkeys
      obtain ⟨x, hx⟩ := Option.isSome_iff_exists.1 hkeys.symm
      obtain ⟨hold, hsize⟩ := hpend k old x (by simp) hfind hx
      have hny := nodesF_mem (lookup_mem hy)
      simp only at hny
      have hGk := hG k (by simp)
      rw [hx] at hGk
      obtain ⟨h1, a1, a2, a3, a4, a5⟩ := hrec k y hy h old x s hold hsy hGk (by omega)
      rw [hx]
      have hd1 : h1[d]? = some (.obj m) := by
        rw [a3 d (by intro q; rw [hd]; simp)]; exact hm
      obtain ⟨h', m', m1, e1, e2, r1⟩ := turn h1 (some fun _ _ => some (if mergeable x y then old else s))
        (if mergeable x y then old else s) (mergeVal x y) a2 a3 (by simp) (by rw [hfind]; rfl) (by
          cases hmg : mergeable x y with
          | true => simp only [if_true]; exact a4 hmg
          | false =>
            simp only [Bool.false_eq_true, if_false]
            rw [a5 hmg, mergeVal_not hmg]
            exact hsy.unBoth' hGk hmg)
      refine ⟨h', m', ?_, r1⟩
      simp only
      rw [a1, Res.bind_ok]
      simp only
      rw [hd1]
      simp only
      rw [e1, Res.bind_ok]
      exact e2

theorem mergeArr_spec {d s : Nat} (hds : d ≠ s) (h : Heap) (xs : List Nat) (hs : h[s]? = some (.arr xs))
    (hw : xs.length < 2 ^ 31) (rest : List Nat) : ∀ (i n : Nat) (ys : List Nat) (h1 : Heap),
    xs.drop i = rest → i ≤ xs.length → rest.length < n →
    h1 = h.set d (.arr ys) → d < h.length →
    mergeArr d s n i h1 = .ok (some (h.set d (.arr (ys ++ rest)))) := by
  induction rest with
  | nil =>
    intro i n ys h1 hdr hi hn e hd
    obtain ⟨n, rfl⟩ : ∃ k, n = k + 1 := ⟨n - 1, by simp only [List.length_nil] at hn; omega⟩
    subst e
    have hlen := congrArg List.length hdr
    rw [List.length_drop, List.length_nil] at hlen
    rw [mergeArr, List.getElem?_set_self hd, set_other (fun e => hds e.symm), hs]
    simp only
    rw [List.getElem?_eq_none (by omega)]
    simp
  | cons x rest ih =>
    intro i n ys h1 hdr hi hn e hd
    rw [List.length_cons] at hn
    obtain ⟨n, rfl⟩ : ∃ k, n = k + 1 := ⟨n - 1, by omega⟩
    subst e
    have hlen := congrArg List.length hdr
    rw [List.length_drop, List.length_cons] at hlen
    have hx : xs[i]? = some x := by
      have := congrArg (·[0]?) hdr
      simpa using this
    rw [mergeArr, List.getElem?_set_self hd, set_other (fun e => hds e.symm), hs]
    simp only
    rw [hx]
    simp only
    rw [if_neg (by omega), ih (i + 1) n (ys ++ [x]) _ ?_ (by omega) (by omega) ?_ hd]
    · simp
    · rw [← List.tail_drop, hdr]; rfl
    · rw [List.set_set]

theorem merge_spec (P : Nat → Option (List Step)) (U : List Step → Nat → Prop) (hU : ∀ q r, U q r → P r = none)
    (G : List Step → List Step) (sv : Val) :
    ∀ n p, sv.nodes < n → Merges P U G (merge n) p sv := by
  induction sv using Val.ind with
  | h0 a =>
    intro n p hn h d dv s hd hs _ _
    obtain ⟨n, rfl⟩ : ∃ k, n = k + 1 := ⟨n - 1, by omega⟩
    have hmg : mergeable dv (.atom a) = false := by cases dv <;> rfl
    refine ⟨h, ?_, rfl, fun _ _ => rfl, by rw [hmg]; simp, fun _ => rfl⟩
    rw [merge, hmg]
    cases hs with
    | atom _ hs =>
      rw [hs]
      cases hd with
      | atom _ hd => rw [hd]
      | arr _ hd => rw [hd]
      | obj _ hd => rw [hd]
  | ha zs ih =>
    intro n p hn h d dv s hd hs hG hsz
    obtain ⟨n, rfl⟩ : ∃ k, n = k + 1 := ⟨n - 1, by omega⟩
    have hne : d ≠ s := by
      rintro rfl
      have h1 : P d = some p := hd.root
      have h2 : P d = none := hU _ _ hs.root
      rw [h1] at h2; simp at h2
    cases hs with
    | @arr _ _ rs _ hsr hs hl hc =>
      rw [merge, hs]
      cases hd with
      | atom hdr hd => exact ⟨h, by rw [hd]; rfl, rfl, fun _ _ => rfl, by simp [mergeable], fun _ => rfl⟩
      | obj hdr hd => exact ⟨h, by rw [hd]; rfl, rfl, fun _ _ => rfl, by simp [mergeable], fun _ => rfl⟩
      | @arr _ _ ds xs hdr hd hl' hc' =>
        rw [Val.nodes, Val.nodes] at hsz
        rw [Val.nodes] at hn
        have hw := nodesL_length zs
        have hdl := (List.getElem?_eq_some_iff.1 hd).1
        have hself : h = h.set d (.arr ds) := by
          rw [← (List.getElem?_eq_some_iff.1 hd).2, List.set_getElem_self]
        rw [hd]
        simp only
        rw [mergeArr_spec hne h rs hs (by omega) rs 0 n ds h rfl (by omega) (by omega) hself hdl]
        have hother : ∀ r, P r ≠ some p → (h.set d (.arr (ds ++ rs)))[r]? = h[r]? := by
          intro r hr
          refine set_other ?_
          rintro rfl
          exact hr hdr
        refine ⟨_, rfl, by rw [List.length_set], fun r hr => hother r (by simpa using hr []), fun _ => ?_, by simp [mergeable]⟩
        rw [mergeVal]
        refine .arr (.inl hdr) (set_same hd) (by simp [hl, hl']) fun i c x h1 h2 => ?_
        rw [List.getElem?_append] at h1 h2
        by_cases hi : i < ds.length
        · rw [if_pos hi] at h1
          rw [if_pos (by omega)] at h2
          refine ((hc' i c x h1 h2).frame fun q r hr => hother r ?_).mono fun _ _ hr => .inl hr
          rw [show P r = _ from hr]; simp
        · rw [if_neg hi] at h1
          rw [if_neg (by omega), ← hl'] at h2
          refine ((hc _ c x h1 h2).frame fun q r hr => hother r ?_).unBoth fun t => ?_
          · rw [hU _ _ hr]; simp
          · rw [List.append_assoc, hG, List.append_assoc, List.singleton_append, reloc, ← hl', Nat.sub_add_cancel (by omega)]
            rfl
  | ho bs ih =>
    intro n p hn h d dv s hd hs hG hsz
    obtain ⟨n, rfl⟩ : ∃ k, n = k + 1 := ⟨n - 1, by omega⟩
    cases hs with
    | @obj _ _ ms _ hsr hs hso hc =>
      rw [merge, hs]
      cases hd with
      | atom hdr hd => exact ⟨h, by rw [hd]; rfl, rfl, fun _ _ => rfl, by simp [mergeable], fun _ => rfl⟩
      | arr hdr hd => exact ⟨h, by rw [hd]; rfl, rfl, fun _ _ => rfl, by simp [mergeable], fun _ => rfl⟩
      | @obj _ _ md kvs hdr hd hdo hc' =>
        rw [Val.nodes] at hn hsz
        rw [Val.nodes] at hsz
        obtain ⟨v1, v2, v3⟩ := visited_find hso
        have hlen : (visited ms.tree).length = bs.length := by
          obtain ⟨A, r, l⟩ := hso.rel
          rw [((Tree.visited_perm ms.tree r.inv).trans r.perm).length_eq, l]
        have hb := nodesF_length bs
        have hk := nodesF_length kvs
        have look : ∀ e ∈ visited ms.tree, ∃ c y, e.2 = some c ∧ bs.lookup e.1 = some y ∧
            Map.find strcmp ms (some e.1) = some c := by
          intro e he
          obtain ⟨c, e1, e2⟩ := v1 e he
          have := hso.keys e.1
          rw [e2] at this
          obtain ⟨y, hy⟩ := Option.isSome_iff_exists.1 this.symm
          exact ⟨c, y, e1, hy, e2⟩
        obtain ⟨h', m', g1, g2, g3, g4, g5, g6⟩ := mergeKvs_spec hU (rec := merge n) (src := bs) hdr
          (fun k y hy => ih _ (lookup_mem hy) n _ (by have := nodesF_mem (lookup_mem hy); omega))
          (visited ms.tree) h md kvs hd hdo (by omega) v3
          (by
            intro e he
            obtain ⟨c, y, e1, e2, e3⟩ := look e he
            exact ⟨c, y, e1, e2, hc _ _ _ e3 e2⟩)
          (by
            intro k _
            have hG' : ∀ t, G (p ++ [.key k] ++ t) = p ++ [.key k] ++ reloc.relocF kvs k t := by
              intro t
              rw [List.append_assoc, hG, List.append_assoc, List.singleton_append, reloc]; rfl
            split
            · next e => intro t; rw [hG', relocF_eq, e]
            · next x e => intro t; rw [hG', relocF_eq, e])
          (fun k c x _ e1 e2 => (hc' k c x e1 e2).mono fun _ _ hr => .inl hr)
          (fun k c x _ e1 e2 => ⟨hc' k c x e1 e2, by have := nodesF_mem (lookup_mem e2); simp only at this; omega⟩)
        rw [hd]
        simp only
        rw [g1]
        refine ⟨h', rfl, g2, g3, fun _ => ?_, by simp [mergeable]⟩
        rw [mergeVal]
        have hobj : Reps h' (both P U G) p d (.obj _) := .obj (.inl hdr) g4 g5 g6
        have hkeys : ((visited ms.tree).map fun e => (e.1, (bs.lookup e.1).getD (.atom .null))).map (·.1) =
            (visited ms.tree).map (·.1) := by
          rw [List.map_map]; rfl
        have hlk : ∀ k, ((visited ms.tree).map fun e => (e.1, (bs.lookup e.1).getD (.atom .null))).lookup k = bs.lookup k := by
          intro k
          rw [lookup_map (visited ms.tree) (fun k => (bs.lookup k).getD (.atom .null))]
          by_cases hk : k ∈ (visited ms.tree).map (·.1)
          · rw [if_pos hk]
            obtain ⟨e, he, rfl⟩ := List.mem_map.1 hk
            obtain ⟨c, y, -, e2, -⟩ := look e he
            rw [e2]; rfl
          · rw [if_neg hk]
            symm
            rw [← Option.not_isSome_iff_eq_none, ← hso.keys]
            intro hs
            obtain ⟨c, hc⟩ := Option.isSome_iff_exists.1 hs
            exact hk (List.mem_map.2 ⟨_, v2 _ _ hc, rfl⟩)
        refine hobj.congr (nodup_mergeF bs hdo.nodup) fun k => ?_
        · rw [lookup_mergeF _ _ (by rw [hkeys]; exact v3), lookup_mergeF _ _ hso.nodup, hlk]

end Verif.Json
