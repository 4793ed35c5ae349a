import Verif.Map.Props
import Verif.Set.Props

/-!
# Keys that change while they are in a container (C121)

A container keeps pointers to its keys and compares what they point to (map.c:76-81, set.c:67-70).  When the bytes of a key are changed in place, the
comparison of pointers is another one from then on, here `cmp'` instead of `cmp`; nothing in the container changes.
-/

namespace Verif.InPlace

open Verif.Tree
open Verif.Map.Spec (IsOrd)

section tree
variable {E : Type} {c c' : E → E → Int}

/-- in a tree of different elements, all are found exactly if the tree is a search tree -/
theorem found_sorted (ho : IsOrd c') : ∀ t : Tree E, (inorder t).Nodup → (∀ x ∈ inorder t, tfind (c' x) t = some x) →
    (inorder t).Pairwise (fun x y => c' x y < 0)
  | .nil, _, _ => by simp [inorder]
  | .node k a0 a1 h, hn, hf => by
    simp only [inorder] at hn hf ⊢
    rw [List.nodup_append, List.nodup_cons] at hn
    obtain ⟨n0, ⟨n1, n2⟩, n3⟩ := hn
    have left : ∀ x ∈ inorder a0, c' x k < 0 ∧ tfind (c' x) a0 = some x := by
      intro x hx
      have h1 := hf x (by simp [hx])
      have hk : x ≠ k := n3 x hx k (by simp)
      rw [tfind] at h1
      split at h1
      · simp only [Option.some.injEq] at h1; exact absurd h1.symm hk
      · split at h1
        · exact absurd rfl (n3 x hx x (by simp [(tfind_some h1).1]))
        · exact ⟨by omega, h1⟩
    have right : ∀ x ∈ inorder a1, c' k x < 0 ∧ tfind (c' x) a1 = some x := by
      intro x hx
      have h1 := hf x (by simp [hx])
      have hk : x ≠ k := by rintro rfl; exact n1 hx
      rw [tfind] at h1
      split at h1
      · simp only [Option.some.injEq] at h1; exact absurd h1.symm hk
      · split at h1
        · exact ⟨(ho.swap k x).2 (by omega), h1⟩
        · exact absurd rfl (n3 x (tfind_some h1).1 x (by simp [hx]))
    rw [List.pairwise_append, List.pairwise_cons]
    refine ⟨found_sorted ho a0 n0 fun x hx => (left x hx).2, ⟨fun x hx => (right x hx).1, found_sorted ho a1 n2 fun x hx => (right x hx).2⟩, ?_⟩
    intro x hx y hy
    have h1 := (left x hx).1
    rcases List.mem_cons.1 hy with rfl | hy
    · exact h1
    · exact Map.ord_trans_lt_le ho h1 (by have := (right y hy).1; omega)

/-- elements that are in both orders -/
theorem same_order (ho : IsOrd c) : ∀ l : List E, l.Pairwise (fun x y => c x y < 0) → l.Pairwise (fun x y => c' x y < 0) →
    ∀ x ∈ l, ∀ y ∈ l, c x y < 0 → c' x y < 0
  | [], _, _ => by simp
  | z :: l, h1, h2 => by
    rw [List.pairwise_cons] at h1 h2
    intro x hx y hy hxy
    have := ho.refl x
    rcases List.mem_cons.1 hx with rfl | hx <;> rcases List.mem_cons.1 hy with rfl | hy
    · omega
    · exact h2.1 y hy
    · have := h1.1 x (by assumption)
      have := ho.swap y x
      omega
    · exact same_order ho l h1.2 h2.2 x hx y hy hxy

theorem nodup_of (ho : IsOrd c) {l : List E} (h : l.Pairwise (fun x y => c x y < 0)) : l.Nodup :=
  h.imp fun {x y} h e => by subst e; have := ho.refl x; omega

theorem inj_of_nodup {F : Type} {f : E → F} : ∀ {l : List E}, (l.map f).Nodup → ∀ x ∈ l, ∀ y ∈ l, f x = f y → x = y
  | [], _ => by simp
  | z :: l, h => by
    rw [List.map_cons, List.nodup_cons] at h
    intro x hx y hy e
    rcases List.mem_cons.1 hx with hx | hx <;> rcases List.mem_cons.1 hy with hy | hy
    · rw [hx, hy]
    · exact absurd (List.mem_map.2 ⟨y, hy, by rw [← e, hx]⟩) h.1
    · exact absurd (List.mem_map.2 ⟨x, hx, by rw [e, hy]⟩) h.1
    · exact inj_of_nodup h.2 x hx y hy e

end tree

/-! ## Sets -/

section set
variable {E : Type} [DecidableEq E] {cmp cmp' : E → E → Int}
open Verif.Set

theorem set_rel {s : Set E} {A : List E} (r : Set.Rel cmp s A) (h : ∀ x ∈ A, ∀ y ∈ A, cmp x y < 0 → cmp' x y < 0) : Set.Rel cmp' s A :=
  ⟨r.inv, r.sorted.imp_of_mem fun hx hy hxy => h _ (r.perm.mem_iff.1 hx) _ (r.perm.mem_iff.1 hy) hxy, r.perm⟩

/-- **C121, sets.**  Members of a set are changed in place, after any history.  All members are still found exactly if their order is the same as before,
and then the set goes on as a set: every further history with the new comparison gives what it gives on the abstract set. -/
theorem C121_set (ho : IsOrd cmp) (ho' : IsOrd cmp') (pol : Policy) (ops : List (Set.Spec.Op E)) (hn : ops.length < 2 ^ 64) :
    ∃ s A, A = (Set.Spec.run cmp [] ops).2 ∧ Set.Props.execAll cmp (Set.mkE pol) ops = .ok ((Set.Spec.run cmp [] ops).1, s) ∧
      ((∀ x ∈ A, Set.find cmp' s x = some x) ↔ ∀ x ∈ A, ∀ y ∈ A, cmp x y < 0 → cmp' x y < 0) ∧
      ((∀ x ∈ A, ∀ y ∈ A, cmp x y < 0 → cmp' x y < 0) → ∀ ops', A.length + ops'.length < 2 ^ 64 →
        ∃ s', Set.Props.execAll cmp' s ops' = .ok ((Set.Spec.run cmp' A ops').1, s')) := by
  obtain ⟨s, h, r, _, _⟩ := Set.Props.execAll_spec ho ops (Set.Rel_mk cmp pol) (by simpa using hn)
  refine ⟨s, _, rfl, h, ⟨fun hf => ?_, fun hs x hx => ?_⟩, fun hs ops' hn' => ?_⟩
  · have hf' : ∀ x ∈ inorder s.tree, tfind (cmp' x) s.tree = some x := fun x hx => hf x (r.perm.mem_iff.1 hx)
    have := same_order ho _ r.sorted (found_sorted ho' _ (nodup_of ho r.sorted) hf')
    exact fun x hx y hy => this x (r.perm.mem_iff.2 hx) y (r.perm.mem_iff.2 hy)
  · have r' := set_rel r hs
    rw [Set.find, Set.tfind_member ho' r', Set.member_unique ho' (r'.uniq ho') hx (ho'.refl x)]
  · obtain ⟨s', h', _⟩ := Set.Props.execAll_spec ho' ops' (set_rel r hs) hn'
    exact ⟨s', h'⟩

end set

/-! ## Maps -/

section map
variable {K V : Type} [DecidableEq V] {cmp cmp' : K → K → Int}
open Verif.Map

theorem map_rel {m : Map K V} {A : Map.Spec.SMap K V} (r : Map.Rel cmp m A) (h : ∀ x ∈ A, ∀ y ∈ A, cmp x.1 y.1 < 0 → cmp' x.1 y.1 < 0) :
    Map.Rel cmp' m A :=
  { r with sorted := r.sorted.imp_of_mem fun hx hy hxy => h _ (r.perm.mem_iff.1 hx) _ (r.perm.mem_iff.1 hy) hxy }

/-- an order of keys as one of bindings -/
theorem lift (ho : IsOrd cmp) : IsOrd (fun x y : K × Option V => cmp x.1 y.1) :=
  ⟨fun a => ho.refl a.1, fun a b => ho.swap a.1 b.1, fun a b c => ho.trans a.1 b.1 c.1⟩

/-- **C121, maps.**  Keys of a map are changed in place, after any history.  All keys still have their values (which are different, so that they can be
told apart) exactly if the order of the keys is the same as before, and then the map goes on as a map. -/
theorem C121_map (ho : IsOrd cmp) (ho' : IsOrd cmp') (kpol vpol : Policy) (ops : List (Map.Spec.Op K V)) (hn : ops.length < 2 ^ 31)
    (hl : ∀ op ∈ ops, op.legal vpol) :
    ∃ m A, A = (Map.Spec.run cmp [] ops).2 ∧ Map.Props.execAll cmp (Map.mkE kpol vpol) ops = .ok ((Map.Spec.run cmp [] ops).1, m) ∧
      ((A.map (·.2)).Nodup → (∀ e ∈ A, e.2 ≠ none) →
        ((∀ e ∈ A, Map.find cmp' m (some e.1) = e.2) ↔ ∀ x ∈ A, ∀ y ∈ A, cmp x.1 y.1 < 0 → cmp' x.1 y.1 < 0)) ∧
      ((∀ x ∈ A, ∀ y ∈ A, cmp x.1 y.1 < 0 → cmp' x.1 y.1 < 0) → ∀ ops', A.length + ops'.length < 2 ^ 31 → (∀ op ∈ ops', op.legal vpol) →
        ∃ m', Map.Props.execAll cmp' m ops' = .ok ((Map.Spec.run cmp' A ops').1, m')) := by
  obtain ⟨m, h, hv, _, r, _⟩ := Map.Props.execAll_spec ho ops (Map.Rel_mk cmp kpol vpol) (by simpa using hn) hl
  refine ⟨m, _, rfl, h, fun hnd hnn => ⟨fun hf => ?_, fun hs e he => ?_⟩, fun hs ops' hn' hl' => ?_⟩
  · generalize (Map.Spec.run cmp [] ops).2 = A at *
    have inj : ∀ x ∈ A, ∀ y ∈ A, x.2 = y.2 → x = y := fun x hx y hy e => inj_of_nodup hnd x hx y hy e
    have hf' : ∀ x ∈ inorder m.tree, tfind (fun y => cmp' x.1 y.1) m.tree = some x := by
      intro x hx
      have hx := r.perm.mem_iff.1 hx
      have h1 := hf x hx
      simp only [Map.find] at h1
      split at h1
      · exact absurd h1.symm (hnn x hx)
      · rename_i e he
        rw [show (fun y : K × Option V => cmp' x.1 y.1) = keyCmp cmp' x.1 from rfl, he,
          inj e (r.perm.mem_iff.1 (tfind_some he).1) x hx h1]
    have := same_order (lift ho) _ r.sorted (found_sorted (lift ho') _ (nodup_of (lift ho) r.sorted) hf')
    exact fun x hx y hy => this x (r.perm.mem_iff.2 hx) y (r.perm.mem_iff.2 hy)
  · have r' := map_rel r hs
    rw [Map.find, Map.tfind_lookup ho' r', Map.find_unique ho' (r'.uniq ho') he (ho'.refl _)]
  · obtain ⟨m', h', _⟩ := Map.Props.execAll_spec ho' ops' (map_rel r hs) hn' (by rw [hv]; exact hl')
    exact ⟨m', h'⟩

/-- **C121, the way to do it.**  A key that is removed first can be changed in any way (`cmp'` is as `cmp` for all other keys) and added again. -/
theorem C121_removed (ho : IsOrd cmp) (ho' : IsOrd cmp') (kpol vpol : Policy) (ops : List (Map.Spec.Op K V)) (key : K)
    (hc : ∀ x y, x ≠ key → y ≠ key → cmp' x y = cmp x y) (hn : ops.length + 1 < 2 ^ 31) (hl : ∀ op ∈ ops, op.legal vpol) :
    ∃ m A, A = (Map.Spec.run cmp [] (ops ++ [.remove (some key)])).2 ∧
      Map.Props.execAll cmp (Map.mkE kpol vpol) (ops ++ [.remove (some key)]) = .ok ((Map.Spec.run cmp [] (ops ++ [.remove (some key)])).1, m) ∧
      ∀ ops', A.length + ops'.length < 2 ^ 31 → (∀ op ∈ ops', op.legal vpol) →
        ∃ m', Map.Props.execAll cmp' m ops' = .ok ((Map.Spec.run cmp' A ops').1, m') := by
  obtain ⟨m, A, hA, h1, _, h2⟩ := C121_map ho ho' kpol vpol (ops ++ [.remove (some key)]) (by simpa using hn) (by
    intro op hop
    rcases List.mem_append.1 hop with hop | hop
    · exact hl op hop
    · simp only [List.mem_singleton] at hop; subst hop; trivial)
  refine ⟨m, A, hA, h1, h2 ?_⟩
  have run_append : ∀ (l l' : List (Map.Spec.Op K V)) (B : Map.Spec.SMap K V), (Map.Spec.run cmp B (l ++ l')).2 = (Map.Spec.run cmp (Map.Spec.run cmp B l).2 l').2 := by
    intro l l'
    induction l with
    | nil => intro B; rfl
    | cons o l ih => intro B; simp only [List.cons_append, Map.Spec.run]; exact ih _
  have hkey : ∀ e ∈ A, e.1 ≠ key := by
    intro e he
    rw [hA, run_append] at he
    simp only [Map.Spec.run, Map.Spec.step, Map.Spec.erase, List.mem_filter, decide_eq_true_eq] at he
    rintro rfl
    exact he.2 (ho.refl _)
  intro x hx y hy hxy
  rw [hc _ _ (hkey x hx) (hkey y hy)]
  exact hxy

end map

/-! ## The hypotheses are met -/

/-- pointers are numbers; what they point to is a number too, compared as such -/
def byText (text : Nat → Nat) (a b : Nat) : Int := (text a : Int) - text b

theorem byText_ord (text : Nat → Nat) : IsOrd (byText text) :=
  ⟨fun a => by simp [byText], fun a b => by simp only [byText]; omega, fun a b c => by simp only [byText]; omega⟩

/-- three members with the texts 10, 20, 30 -/
def adds : List (Set.Spec.Op Nat) := [.add 1, .add 2, .add 3]

/-- the text 20 becomes 25: all members are found -/
example : (Set.Spec.run (byText (· * 10)) [] adds).2 = [1, 2, 3] ∧
    (∀ x ∈ [1, 2, 3], ∀ y ∈ [1, 2, 3], byText (· * 10) x y < 0 → byText (fun a => if a = 2 then 25 else a * 10) x y < 0) := by decide

/-- the text 20 becomes 35: some member is lost -/
example : ¬ ∀ x ∈ [1, 2, 3], ∀ y ∈ [1, 2, 3], byText (· * 10) x y < 0 → byText (fun a => if a = 2 then 35 else a * 10) x y < 0 := by decide

/-- the same for a map with three keys, the last of which is removed, changed and added again -/
example : IsOrd (byText (· * 10)) ∧ IsOrd (byText (fun a => if a = 3 then 5 else a * 10)) ∧
    (∀ op ∈ ([.add (some 1) (some 7), .add (some 2) (some 8), .add (some 3) (some 9)] : List (Map.Spec.Op Nat Nat)), op.legal .rc) ∧
    (∀ x y, x ≠ 3 → y ≠ 3 → byText (fun a => if a = 3 then 5 else a * 10) x y = byText (· * 10) x y) ∧
    (Map.Spec.run (byText (· * 10)) [] ([.add (some 1) (some 7), .add (some 2) (some 8), .add (some 3) (some 9)] : List (Map.Spec.Op Nat Nat))).2 =
      [(1, some 7), (2, some 8), (3, some 9)] := by
  refine ⟨byText_ord _, byText_ord _, ?_, fun x y hx hy => by simp [byText, hx, hy], by decide⟩
  intro op hop
  simp only [List.mem_cons, List.not_mem_nil, or_false] at hop
  rcases hop with rfl | rfl | rfl <;> simp [Map.Spec.Op.legal]

end Verif.InPlace
