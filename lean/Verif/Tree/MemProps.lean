import Verif.Tree.MemRefine
import Verif.Tree.Props
import Verif.Set.Lemmas

/-!
# Properties of the search tree in memory (C112)

Histories of calls of `musl_tsearch`, `musl_tfind` and `musl_tdelete` on a memory of nodes, then
`musl_twalk` or `musl_tdestroy`.  The allocator is arbitrary: at each call `malloc` may fail, and
otherwise it returns some address that is not in use (also one that was freed before).
-/

namespace Verif.TreeMem.Props

open Verif.Tree (Tree inorder Inv isFirst)
open Verif.Tree.Tree
open Verif.Map.Spec (IsOrd)
open Verif.Set.Spec (member insert erase)

variable {E : Type}

/-! ## Specification -/

/-- a call, with the key it is given -/
inductive Call (E : Type) where
  | search (k : E)
  | find (k : E)
  | delete (k : E)

/-- What `malloc` does: whether it fails at the `i`-th call, and which address it returns otherwise
(it may depend on what is in use). -/
structure Malloc (E : Type) where
  fails : Nat → Bool
  addr : Nat → (Nat → Option (TNode E)) → Nat

/-- whenever only finitely many addresses are in use, the address is not NULL and not in use -/
def Malloc.Sound (al : Malloc E) : Prop :=
  ∀ i m (l : List Nat), (∀ p, m p ≠ none → p ∈ l) → al.addr i m ≠ 0 ∧ m (al.addr i m) = none

/-- what `malloc` returns in the `i`-th call -/
def Malloc.ret (al : Malloc E) (i : Nat) (m : Nat → Option (TNode E)) : Nat :=
  if al.fails i then 0 else al.addr i m

/-- the key read through a returned node pointer (`*(void **)p`, map.c:125-127, 160, set.c:115-117,
153), `none` for NULL -/
def peek (s : Heap E) (p : Nat) : Res (Option E) :=
  if p = 0 then .ok none else (get s p).bind fun n => .ok (some n.key)

/-- One call on the memory; a loop that has not ended after `fuel` rounds counts as undefined. -/
def call (cmp : E → E → Int) (fuel : Nat) (al : Malloc E) (i : Nat) (s : Heap E) :
    Call E → Res (Option E × Heap E)
  | .search k => (tsearch (al.ret i s.mem) (cmp k) k s).bind fun r =>
      (peek r.1 r.2).bind fun o => .ok (o, r.1)
  | .find k =>
    match tfind (cmp k) s fuel s.root with
    | some r => r.bind fun p => (peek s p).bind fun o => .ok (o, s)
    | none => .ub
  | .delete k => (tdelete (cmp k) s).bind fun r => .ok (none, r.1)

def calls (cmp : E → E → Int) (fuel : Nat) (al : Malloc E) :
    Nat → Heap E → List (Call E) → Res (List (Option E) × Heap E)
  | _, s, [] => .ok ([], s)
  | i, s, c :: cs => (call cmp fuel al i s c).bind fun r =>
      (calls cmp fuel al (i + 1) r.2 cs).bind fun r' => .ok (r.1 :: r'.1, r'.2)

/-- The same call on a plain list of members: the member equal to the key is answered, an absent key
becomes a member unless `malloc` fails. -/
def specCall (cmp : E → E → Int) (fails : Bool) (A : List E) : Call E → Option E × List E
  | .search k =>
    match member cmp A k with
    | some x => (some x, A)
    | none => if fails then (none, A) else (some k, insert cmp A k)
  | .find k => (member cmp A k, A)
  | .delete k => (none, erase cmp A k)

def specCalls (cmp : E → E → Int) (fails : Nat → Bool) :
    Nat → List E → List (Call E) → List (Option E) × List E
  | _, A, [] => ([], A)
  | i, A, c :: cs =>
    let r := specCall cmp (fails i) A c
    let r' := specCalls cmp fails (i + 1) r.2 cs
    (r.1 :: r'.1, r'.2)

/-- the empty tree in an empty memory (`m->_[0] = NULL`, map.c:107, set.c:88) -/
def empty : Heap E := ⟨0, fun _ => none⟩

/-- the addresses in use -/
def InUse (s : Heap E) (p : Nat) : Prop := s.mem p ≠ none

/-! ## Proof -/

structure Good (cmp : E → E → Int) (s : Heap E) (A : List E) (t : LT E) : Prop where
  at_ : At s [] t
  only : ∀ p, s.mem p ≠ none → p ∈ addrs t
  inv : Inv (forget t)
  sorted : (inorder (forget t)).Pairwise (fun x y => cmp x y < 0)
  perm : (inorder (forget t)).Perm A

variable {cmp : E → E → Int}

theorem Good.set {s : Heap E} {A : List E} {t : LT E} (g : Good cmp s A t) :
    Set.Rel cmp ⟨forget t, 0, .rc⟩ A := ⟨g.inv, g.sorted, g.perm⟩

theorem realHeight_tmap {A B : Type} (f : A → B) (t : Tree A) :
    Tree.realHeight (tmap f t) = Tree.realHeight t := by
  induction t with
  | nil => rfl
  | node k a0 a1 h ih0 ih1 => simp [tmap, Tree.realHeight, ih0, ih1]

theorem Good.height {s : Heap E} {A : List E} {t : LT E} (g : Good cmp s A t)
    (hn : A.length < 2 ^ 64) : Tree.realHeight t < 95 := by
  have h := g.inv.height_lt (g.set.count_lt hn)
  rwa [g.inv.realHeight, realHeight_tmap] at h

theorem Good.root {s : Heap E} {A : List E} {t : LT E} (g : Good cmp s A t) : s.root = addr t :=
  g.at_.ctx

theorem call_ok (ho : IsOrd cmp) {al : Malloc E} (hal : al.Sound) {fuel : Nat} (hf : 96 ≤ fuel)
    {s : Heap E} {A : List E} {t : LT E} (g : Good cmp s A t) (hn : A.length < 2 ^ 64) (i : Nat)
    (c : Call E) :
    ∃ s' t', call cmp fuel al i s c = .ok ((specCall cmp (al.fails i) A c).1, s') ∧
      Good cmp s' (specCall cmp (al.fails i) A c).2 t' ∧
      ((∀ k, c ≠ .delete k) → ∀ x ∈ inorder t, x ∈ inorder t') := by
  cases c with
  | search k =>
    have hm := Set.tfind_member ho g.set k
    simp only at hm
    obtain ⟨r0, rm⟩ := hal i s.mem (addrs t) g.only
    have hr : al.addr i s.mem ∉ addrs t := fun h => (g.at_.holds.alloc h).2 rm
    rcases Tree.tsearch_spec (cmp k) k (forget t) g.inv (Set.sorted_cut ho g.sorted k)
        (g.set.count_lt hn) with
      ⟨old, _, _, hs, hfind⟩ | ⟨T, L, R, hs, i', hino, hino', hL, hR⟩
    · obtain ⟨p, e, hp, n, nm, nk⟩ := tsearch_found (r := al.ret i s.mem) g.at_ hs
      rw [hfind] at hm
      refine ⟨s, t, ?_, ?_⟩
      · simp only [call, e, Res.bind_ok, specCall, ← hm, peek]
        rw [if_neg (g.at_.holds.alloc hp).1, get_ok (g.at_.holds.alloc hp).1 nm]
        simp only [Res.bind_ok, nk]
      · exact ⟨by simpa only [specCall, ← hm] using g, fun _ x hx => hx⟩
    · have hnone : member cmp A k = none := by
        rw [Set.member_none]
        intro e he
        have := g.perm.mem_iff.2 he
        rw [hino, List.mem_append] at this
        rcases this with h | h
        · have := hL e h; omega
        · have := hR e h; omega
      obtain ⟨hfail, hnew⟩ := tsearch_new (r := al.ret i s.mem) g.at_ hs
      by_cases hfl : al.fails i = true
      · refine ⟨s, t, ?_, ?_⟩
        · simp only [call, hfail (by simp [Malloc.ret, hfl]), Res.bind_ok, specCall, hnone, peek,
            if_true, hfl]
        · exact ⟨by simpa only [specCall, hnone, hfl, if_true] using g, fun _ x hx => hx⟩
      · have hret : al.ret i s.mem = al.addr i s.mem := by simp [Malloc.ret, hfl]
        rw [hret] at hnew
        obtain ⟨s', t', e, a', hT, hp, ⟨L', R', l1, l2⟩, off⟩ := hnew r0 hr
        obtain ⟨_, _, n, nm, nk⟩ := a'.holds.key (p := al.addr i s.mem) (k := k) (by rw [l2]; simp)
        refine ⟨s', t', ?_, ?_⟩
        · simp only [call, hret, e, Res.bind_ok, specCall, hnone, peek, r0, if_false, hfl,
            get_ok r0 nm, nk, Bool.false_eq_true]
        · have hins : insert cmp A k = A ++ [k] := by simp [Set.Spec.insert, hnone]
          simp only [specCall, hnone, hfl, Bool.false_eq_true, if_false, hins]
          have hsorted := g.sorted
          rw [hino, List.pairwise_append] at hsorted
          refine ⟨⟨a', fun p hp' => ?_, hT ▸ i', ?_, ?_⟩, ?_⟩
          · by_cases hq : p ∈ al.addr i s.mem :: addrs t
            · exact hp.mem_iff.2 hq
            · rw [off p hq] at hp'
              exact absurd (List.mem_cons_of_mem _ (g.only p hp')) hq
          · rw [hT, hino']
            simp only [List.pairwise_append, List.pairwise_cons, List.mem_cons]
            refine ⟨hsorted.1, ⟨fun y hy => hR y hy, hsorted.2.1⟩, ?_⟩
            intro a ha b hb
            rcases hb with rfl | hb
            · exact (ho.swap a b).2 (hL a ha)
            · exact hsorted.2.2 a ha b hb
          · rw [hT, hino']
            have hp := g.perm
            rw [hino] at hp
            exact List.perm_middle.trans ((hp.cons _).trans (List.perm_append_singleton _ _).symm)
          · intro _ x hx
            rw [l1, List.mem_append] at hx
            rw [l2]
            rcases hx with hx | hx <;> simp [hx]
  | find k =>
    have hm := Set.tfind_member ho g.set k
    simp only at hm
    have ht := g.height hn
    have hfd := tfind_ok (cmp k) g.at_.holds (fuel := fuel) (by omega)
    rw [← g.root] at hfd
    refine ⟨s, t, ?_, g, fun _ x hx => hx⟩
    rw [tfind_tmap] at hm
    simp only [call, hfd, specCall, ← hm, Res.bind_ok]
    cases hx : Tree.tfind (fun x => cmp k x.2) t with
    | none => simp [peek, Res.bind]
    | some x =>
      obtain ⟨h1, _⟩ := Tree.tfind_some hx
      obtain ⟨x0, _, n, nm, nk⟩ := g.at_.holds.key (p := x.1) (k := x.2) h1
      simp only [peek, x0, if_false, get_ok x0 nm, Res.bind_ok, nk, Option.map_some]
  | delete k =>
    rcases Tree.tdelete_spec (cmp k) (forget t) g.inv (Set.sorted_cut ho g.sorted k)
        (g.set.count_lt hn) with ⟨habs, hs⟩ | ⟨T, L, x, R, hx, hs, i', hino, hino', _⟩
    · refine ⟨s, t, ?_, ?_⟩
      · simp only [call, tdelete_absent g.at_ hs, Res.bind_ok, specCall]
      · have : erase cmp A k = A := by
          unfold erase
          rw [List.filter_eq_self]
          intro e he
          simpa using habs e (g.perm.mem_iff.2 he)
        exact ⟨by simpa only [specCall, this] using g, fun h => absurd rfl (h k)⟩
    · obtain ⟨s', t', par, y, e, a', hT, hp, my, off, _⟩ := tdelete_present g.at_ hs
      refine ⟨s', t', by simp only [call, e, Res.bind_ok, specCall], ?_, fun h => absurd rfl (h k)⟩
      simp only [specCall]
      have hsorted := g.sorted
      rw [hino] at hsorted
      have hL : ∀ e ∈ L, cmp k e ≠ 0 := by
        intro e he h0
        have h1 := (List.pairwise_append.1 hsorted).2.2 e he x (by simp)
        have := Map.ord_congr0 ho h0 hx
        omega
      have hR : ∀ e ∈ R, cmp k e ≠ 0 := by
        intro e he h0
        have h1 := (List.pairwise_cons.1 (List.pairwise_append.1 hsorted).2.1).1 e he
        have := Map.ord_congr0 ho hx h0
        omega
      refine ⟨a', fun p hp' => ?_, hT ▸ i', ?_, ?_⟩
      · by_cases hq : p ∈ addrs t
        · rw [hp.mem_iff, List.mem_cons] at hq
          rcases hq with rfl | hq
          · exact absurd my hp'
          · exact hq
        · rw [off p hq] at hp'
          exact absurd (g.only p hp') hq
      · rw [hT, hino']
        have h1 := List.pairwise_append.1 hsorted
        have h2 := List.pairwise_cons.1 h1.2.1
        exact List.pairwise_append.2 ⟨h1.1, h2.2, fun a ha b hb => h1.2.2 a ha b (by simp [hb])⟩
      · rw [hT, hino']
        have hp := g.perm.filter (fun e => decide (cmp k e ≠ 0))
        rw [hino] at hp
        unfold erase
        refine List.Perm.trans (List.Perm.of_eq ?_) hp
        rw [List.filter_append, List.filter_cons_of_neg (by simp [hx]),
          List.filter_eq_self.2 (fun e he => by simpa using hL e he),
          List.filter_eq_self.2 (fun e he => by simpa using hR e he)]

theorem specCall_length (fails : Bool) (A : List E) (c : Call E) :
    (specCall cmp fails A c).2.length ≤ A.length + 1 := by
  cases c with
  | search k =>
    simp only [specCall]
    split
    · simp
    · split
      · simp
      · simp only [Set.Spec.insert]; split <;> simp
  | find k => simp [specCall]
  | delete k =>
    simp only [specCall, erase]
    exact Nat.le_succ_of_le (List.length_filter_le _ _)

theorem calls_ok (ho : IsOrd cmp) {al : Malloc E} (hal : al.Sound) {fuel : Nat} (hf : 96 ≤ fuel)
    (cs : List (Call E)) : ∀ {i : Nat} {s : Heap E} {A : List E} {t : LT E}, Good cmp s A t →
    A.length + cs.length < 2 ^ 64 →
    ∃ s' t', calls cmp fuel al i s cs = .ok ((specCalls cmp al.fails i A cs).1, s') ∧
      Good cmp s' (specCalls cmp al.fails i A cs).2 t' ∧
      ((∀ c ∈ cs, ∀ k, c ≠ .delete k) → ∀ x ∈ inorder t, x ∈ inorder t') ∧
      (specCalls cmp al.fails i A cs).2.length ≤ A.length + cs.length := by
  induction cs with
  | nil => intro i s A t g _; exact ⟨s, t, rfl, g, fun _ x hx => hx, by simp [specCalls]⟩
  | cons c cs ih =>
    intro i s A t g hn
    simp only [List.length_cons] at hn
    obtain ⟨s1, t1, e1, g1, m1⟩ := call_ok ho hal hf g (by omega) i c
    have hl := specCall_length (cmp := cmp) (al.fails i) A c
    obtain ⟨s2, t2, e2, g2, m2, l2⟩ := ih (i := i + 1) g1 (by omega)
    refine ⟨s2, t2, ?_, g2, ?_, ?_⟩
    · simp only [calls, e1, Res.bind_ok, e2, specCalls]
    · intro h x hx
      exact m2 (fun c hc => h c (by simp [hc])) x (m1 (h c (by simp)) x hx)
    · simp only [specCalls, List.length_cons]; omega

theorem Good_empty : Good cmp (empty : Heap E) [] nil :=
  ⟨⟨trivial, rfl, by simp [addrs, addrsF]⟩, fun p hp => absurd rfl hp, trivial, by simp [tmap, inorder],
    by simp [tmap, inorder]⟩

theorem inv_tmap {A B : Type} (f : A → B) (t : Tree A) : Inv (tmap f t) ↔ Inv t := by
  induction t with
  | nil => exact Iff.rfl
  | node k a0 a1 h ih0 ih1 => simp [tmap, Tree.Inv, ih0, ih1, height_tmap]

theorem walk_mem {A : Type} {t : Tree A} {d : Nat} {e : A × Tree.Visit × Nat}
    (h : e ∈ Tree.walk t d) : e.1 ∈ inorder t := by
  induction t generalizing d with
  | nil => simp [Tree.walk] at h
  | node k a0 a1 hh ih0 ih1 =>
    rw [Tree.walk_node] at h
    simp only [inorder, List.mem_append, List.mem_cons]
    split at h
    · simp at h; simp [h]
    · simp only [List.mem_append, List.mem_cons, List.not_mem_nil, or_false] at h
      rcases h with ((rfl | h) | rfl | h) | rfl
      · simp
      · exact .inl (ih0 h)
      · simp
      · exact .inr (.inr (ih1 h))
      · simp

theorem _root_.Verif.TreeMem.Holds.pair {m : Nat → Option (TNode E)} {t : LT E} (h : Holds m t)
    {p : Nat} {n : TNode E} (hp : m p = some n) (ha : p ∈ addrs t) : (p, n.key) ∈ inorder t := by
  induction t with
  | nil => simp [addrs] at ha
  | node k a0 a1 hh ih0 ih1 =>
    obtain ⟨_, km, h0, h1⟩ := h
    simp only [addrs, List.mem_cons, List.mem_append] at ha
    simp only [inorder, List.mem_append, List.mem_cons]
    rcases ha with rfl | ha | ha
    · rw [hp] at km
      simp only [Option.some.injEq] at km
      subst km
      exact .inr (.inl rfl)
    · exact .inl (ih0 h0 ha)
    · exact .inr (.inr (ih1 h1 ha))

/-- **C112 (partial: see the three theorems below).**  Start with an empty tree and make any fewer
than 2^64 calls of `musl_tsearch`, `musl_tfind` and `musl_tdelete` with any total-order comparator
and any allocator, failing or not.  No call reads, writes or frees through NULL or through a pointer
to a freed block or writes beyond its array, and every loop ends within 96 rounds.  Every key read
through a returned pointer is the one a plain list of members gives, and a failed allocation changes
nothing.  Afterwards exactly one block per member is in use; a walk passes a live node to each call
of the action and meets each member once; destroying the tree gives each member to `freekey` once
and leaves no block in use. -/
theorem C112_partial (ho : IsOrd cmp) {al : Malloc E} (hal : al.Sound) {fuel : Nat}
    (hf : 96 ≤ fuel) (cs : List (Call E)) (hn : cs.length < 2 ^ 64) :
    ∃ s, calls cmp fuel al 0 empty cs = .ok ((specCalls cmp al.fails 0 [] cs).1, s) ∧
      (∃ l : List Nat, l.Nodup ∧ l.length = (specCalls cmp al.fails 0 [] cs).2.length ∧
        ∀ p, InUse s p ↔ p ∈ l) ∧
      (∃ w, ∃ ks : List E, walk s fuel s.root 0 = some (.ok w) ∧ (∀ e ∈ w, InUse s e.1) ∧
        (w.filter fun e => isFirst e.2.1).map (fun e => (s.mem e.1).map TNode.key) =
          ks.map some ∧
        ks.Perm (specCalls cmp al.fails 0 [] cs).2) ∧
      (∃ s', ∃ ks : List E, tdestroy fuel s s.root = some (.ok (s', ks)) ∧
        ks.Perm (specCalls cmp al.fails 0 [] cs).2 ∧ ∀ p, ¬ InUse s' p) := by
  obtain ⟨s, t, e, g, _, hl⟩ := calls_ok (fuel := fuel) ho hal hf cs (i := 0) (Good_empty (cmp := cmp))
    (by simpa using hn)
  simp only [List.length_nil, Nat.zero_add] at hl
  have hh := g.height (by omega)
  have hnd : (addrs t).Nodup := (List.nodup_append.1 g.at_.nodup).1
  have hpi : ((inorder t).map Prod.snd).Perm (specCalls cmp al.fails 0 [] cs).2 := by
    have := g.perm; rwa [inorder_tmap] at this
  refine ⟨s, e, ⟨addrs t, hnd, ?_, fun p => ⟨g.only p, fun h => (g.at_.holds.alloc h).2⟩⟩, ?_, ?_⟩
  · rw [(addrs_eq_inorder t).length_eq, ← g.perm.length_eq, inorder_tmap]; simp
  · have hw := walk_ok g.at_.holds (fuel := fuel) (d := 0) (by omega)
    rw [← g.root] at hw
    refine ⟨_, (Tree.visited t).map Prod.snd, hw, ?_, ?_,
      ((Tree.visited_perm t ((inv_tmap _ t).1 g.inv)).map _).trans hpi⟩
    · intro e he
      simp only [List.mem_map] at he
      obtain ⟨x, hx, rfl⟩ := he
      obtain ⟨_, _, n, nm, _⟩ := g.at_.holds.key (p := x.1.1) (k := x.1.2) (walk_mem hx)
      simp [InUse, nm]
    · simp only [Tree.visited, List.filter_map, List.map_map]
      refine List.map_congr_left fun x hx => ?_
      have hx' : x ∈ Tree.walk t 0 := (List.mem_filter.1 hx).1
      obtain ⟨_, _, n, nm, nk⟩ := g.at_.holds.key (p := x.1.1) (k := x.1.2) (walk_mem hx')
      simp [nm, nk]
  · obtain ⟨s', e', d', o'⟩ := tdestroy_ok g.at_.holds hnd (fuel := fuel) (by omega)
    rw [← g.root] at e'
    refine ⟨s', _, e', ((Tree.tdestroy_perm t).map _).trans hpi, fun p hp => ?_⟩
    by_cases hq : p ∈ addrs t
    · exact hp (d' p hq)
    · rw [InUse, o' p hq] at hp
      exact hq (g.only p hp)

theorem exists_free (l : List Nat) : ∃ p, p ≠ 0 ∧ p ∉ l := by
  have : ∃ b, ∀ p ∈ l, p < b := by
    induction l with
    | nil => exact ⟨0, by simp⟩
    | cons a l ih =>
      obtain ⟨b, hb⟩ := ih
      refine ⟨max (a + 1) b, fun p hp => ?_⟩
      rcases List.mem_cons.1 hp with rfl | hp
      · omega
      · have := hb p hp; omega
  obtain ⟨b, hb⟩ := this
  exact ⟨b + 1, by omega, fun h => by have := hb _ h; omega⟩

/-- some free address -/
noncomputable def anyFree (fails : Nat → Bool) : Malloc E :=
  ⟨fails, fun _ m => open Classical in
    if h : ∃ p, p ≠ 0 ∧ m p = none then Classical.choose h else 1⟩

theorem anyFree_sound (fails : Nat → Bool) : (anyFree fails : Malloc E).Sound := by
  intro i m l hl
  have h : ∃ p, p ≠ 0 ∧ m p = none := by
    obtain ⟨p, h0, h1⟩ := exists_free l
    exact ⟨p, h0, Classical.byContradiction fun h => h1 (hl p h)⟩
  simp only [anyFree, dif_pos h]
  exact Classical.choose_spec h

def demoCmp (a b : Nat × Nat) : Int := (a.1 : Int) - b.1

def demoCalls : List (Call (Nat × Nat)) :=
  [.search (2, 0), .search (1, 0), .search (3, 0), .search (2, 7), .search (4, 0), .find (1, 9),
    .delete (2, 5), .find (2, 0), .search (4, 0), .delete (8, 0)]

/-- a history with equal keys, a failing allocation (the fifth call), an absent key and the deletion
of the root meets the hypotheses -/
example : IsOrd demoCmp ∧ (anyFree (E := Nat × Nat) (fun i => i == 4)).Sound ∧
    demoCalls.length < 2 ^ 64 ∧
    specCalls demoCmp (fun i => i == 4) 0 [] demoCalls =
      ([some (2, 0), some (1, 0), some (3, 0), some (2, 0), none, some (1, 0), none, none,
        some (4, 0), none], [(1, 0), (3, 0), (4, 0)]) := by
  refine ⟨⟨fun a => by simp [demoCmp], fun a b => ?_, fun a b c => ?_⟩, anyFree_sound _, by decide,
    by decide⟩
  · simp only [demoCmp]; omega
  · simp only [demoCmp]; omega

/-! ## The memory and the tree as a value -/

/-- the tree that is found in memory behind a pointer (`none`: dangling pointer, or deeper than
`fuel`) -/
def readTree (s : Heap E) : Nat → Nat → Option (Tree E)
  | 0, _ => none
  | fuel + 1, p =>
    if p = 0 then some nil
    else
      match s.mem p with
      | none => none
      | some n =>
        match readTree s fuel n.a0, readTree s fuel n.a1 with
        | some l, some r => some (node n.key l r n.h)
        | _, _ => none

/-- the operations of `Verif.Tree.Props` on the memory -/
def execMem (al : Malloc E) (i : Nat) (s : Heap E) : Tree.Props.Op E → Res (Heap E)
  | .insert c new => (tsearch (al.addr i s.mem) c new s).bind fun r => .ok r.1
  | .delete c => (tdelete c s).bind fun r => .ok r.1

def execMemAll (al : Malloc E) : Nat → Heap E → List (Tree.Props.Op E) → Res (Heap E)
  | _, s, [] => .ok s
  | i, s, op :: ops => (execMem al i s op).bind fun s' => execMemAll al (i + 1) s' ops

theorem readTree_ok {s : Heap E} {t : LT E} (hH : Holds s.mem t) {fuel : Nat}
    (hf : Tree.realHeight t < fuel) : readTree s fuel (addr t) = some (forget t) := by
  induction t generalizing fuel with
  | nil =>
    obtain ⟨n, rfl⟩ : ∃ n, fuel = n + 1 := ⟨fuel - 1, by omega⟩
    rfl
  | node k a0 a1 h ih0 ih1 =>
    obtain ⟨n, rfl⟩ : ∃ n, fuel = n + 1 := ⟨fuel - 1, by omega⟩
    simp only [Tree.realHeight] at hf
    obtain ⟨k0, km, h0, h1⟩ := hH
    simp only [readTree, addr_node, k0, if_false, km, ih0 h0 (fuel := n) (by omega),
      ih1 h1 (fuel := n) (by omega), tmap]

theorem execMem_ok {al : Malloc E} (hal : al.Sound) {s : Heap E} {t : LT E} (ha : At s [] t)
    (ho : ∀ p, s.mem p ≠ none → p ∈ addrs t) (hi : Inv (forget t))
    (hn : Tree.count (forget t) < 2 ^ 64) (i : Nat) (op : Tree.Props.Op E) :
    ∃ s' t', execMem al i s op = .ok s' ∧ Tree.Props.exec (forget t) op = .ok (forget t') ∧
      At s' [] t' ∧ (∀ p, s'.mem p ≠ none → p ∈ addrs t') := by
  cases op with
  | insert c new =>
    obtain ⟨r0, rm⟩ := hal i s.mem (addrs t) ho
    have hr : al.addr i s.mem ∉ addrs t := fun h => (ha.holds.alloc h).2 rm
    rcases Tree.tsearch_any c new (forget t) hi hn with ⟨k, _, _, h, _⟩ | ⟨T, _, _, h, _⟩
    · obtain ⟨p, e, _⟩ := tsearch_found (r := al.addr i s.mem) ha h
      exact ⟨s, t, by simp only [execMem, e, Res.bind_ok], by simp [Tree.Props.exec, h, Res.map],
        ha, ho⟩
    · obtain ⟨s', t', e, a', hT, hp, _, off⟩ := (tsearch_new (r := al.addr i s.mem) ha h).2 r0 hr
      refine ⟨s', t', by simp only [execMem, e, Res.bind_ok],
        by simp [Tree.Props.exec, h, Res.map, hT], a', fun p hp' => ?_⟩
      by_cases hq : p ∈ al.addr i s.mem :: addrs t
      · exact hp.mem_iff.2 hq
      · rw [off p hq] at hp'
        exact absurd (List.mem_cons_of_mem _ (ho p hp')) hq
  | delete c =>
    rcases Tree.tdelete_any c (forget t) hi hn with ⟨_, h⟩ | ⟨T, _, _, _, _, h, _⟩
    · exact ⟨s, t, by simp only [execMem, tdelete_absent ha h, Res.bind_ok],
        by simp [Tree.Props.exec, h, Res.map], ha, ho⟩
    · obtain ⟨s', t', par, y, e, a', hT, hp, my, off, _⟩ := tdelete_present ha h
      refine ⟨s', t', by simp only [execMem, e, Res.bind_ok],
        by simp [Tree.Props.exec, h, Res.map, hT], a', fun p hp' => ?_⟩
      by_cases hq : p ∈ addrs t
      · rw [hp.mem_iff, List.mem_cons] at hq
        rcases hq with rfl | hq
        · exact absurd my hp'
        · exact hq
      · rw [off p hq] at hp'
        exact absurd (ho p hp') hq

theorem execMemAll_ok {al : Malloc E} (hal : al.Sound) (ops : List (Tree.Props.Op E)) :
    ∀ {i : Nat} {s : Heap E} {t : LT E}, At s [] t → (∀ p, s.mem p ≠ none → p ∈ addrs t) →
    Inv (forget t) → Tree.count (forget t) + ops.length < 2 ^ 64 →
    ∃ s' t', execMemAll al i s ops = .ok s' ∧
      Tree.Props.execAll (forget t) ops = .ok (forget t') ∧
      At s' [] t' ∧ (∀ p, s'.mem p ≠ none → p ∈ addrs t') ∧ Inv (forget t') ∧
      Tree.count (forget t') < 2 ^ 64 := by
  induction ops with
  | nil => intro i s t ha ho hi hn; exact ⟨s, t, rfl, rfl, ha, ho, hi, by simpa using hn⟩
  | cons op ops ih =>
    intro i s t ha ho hi hn
    simp only [List.length_cons] at hn
    obtain ⟨s1, t1, e1, f1, a1, o1⟩ := execMem_ok hal ha ho hi (by omega) i op
    obtain ⟨T, h1, i1, c1⟩ := Tree.Props.exec_inv (forget t) op hi (by omega)
    rw [f1] at h1
    simp only [Res.ok.injEq] at h1
    rw [← h1] at i1 c1
    obtain ⟨s2, t2, e2, f2, r⟩ := ih (i := i + 1) a1 o1 i1 (by omega)
    exact ⟨s2, t2, by simp only [execMemAll, e1, Res.bind_ok, e2],
      by simp only [Tree.Props.execAll, f1, Res.bind_ok, f2], r⟩

/-- **C112, memory against values.**  Whatever the comparators answer (also inconsistently), any
fewer than 2^64 insertions and deletions done node by node in memory have no undefined behaviour and
leave in memory the very tree that the same operations make of tree values: the same shape, keys and
stored heights.  So what C01 to C09 say with tree values holds of the memory. -/
theorem C112_values {al : Malloc E} (hal : al.Sound) (ops : List (Tree.Props.Op E))
    (hn : ops.length < 2 ^ 64) :
    ∃ s t, execMemAll al 0 empty ops = .ok s ∧ Tree.Props.execAll nil ops = .ok t ∧
      readTree s 96 s.root = some t ∧
      (∃ l : List Nat, l.Nodup ∧ l.length = (inorder t).length ∧ ∀ p, InUse s p ↔ p ∈ l) := by
  obtain ⟨s, t, e, f, a, o, hi, hc⟩ := execMemAll_ok hal ops (i := 0) (s := empty) (t := nil)
    ⟨trivial, rfl, by simp [addrs, addrsF]⟩ (fun p hp => absurd rfl hp) trivial
    (by simpa [tmap, Tree.count] using hn)
  have hh := hi.height_lt hc
  rw [hi.realHeight, realHeight_tmap] at hh
  have hroot : s.root = addr t := a.ctx
  refine ⟨s, forget t, e, f, ?_, addrs t, (List.nodup_append.1 a.nodup).1, ?_, fun p =>
    ⟨o p, fun h => (a.holds.alloc h).2⟩⟩
  · rw [hroot]; exact readTree_ok a.holds (by omega)
  · rw [(addrs_eq_inorder t).length_eq, inorder_tmap]; simp

/-- a history with a comparator that changes its mind meets the hypotheses -/
example : (anyFree (E := Nat) (fun _ => false)).Sound ∧
    ([.insert (fun x => 5 - x) 5, .insert (fun x => 3 - x) 3, .insert (fun x => x - 4) 4,
      .delete (fun _ => 0)] : List (Tree.Props.Op Nat)).length < 2 ^ 64 :=
  ⟨anyFree_sound _, by decide⟩

/-! ## Node pointers -/

/-- **C112, node pointers.**  Calls of `musl_tsearch` and `musl_tfind` never move a key: a pointer
to a node that was got before still points to a live node with the same key. -/
theorem C112_stable (ho : IsOrd cmp) {al : Malloc E} (hal : al.Sound) {fuel : Nat} (hf : 96 ≤ fuel)
    (cs cs' : List (Call E)) (hn : cs.length + cs'.length < 2 ^ 64)
    (hs : ∀ c ∈ cs', ∀ k, c ≠ .delete k) {o : List (Option E)} {s : Heap E}
    (h : calls cmp fuel al 0 empty cs = .ok (o, s)) :
    ∃ o' s', calls cmp fuel al cs.length s cs' = .ok (o', s') ∧
      ∀ p n, s.mem p = some n → ∃ n', s'.mem p = some n' ∧ n'.key = n.key := by
  obtain ⟨s1, t1, e1, g1, _, l1⟩ := calls_ok (fuel := fuel) ho hal hf cs (i := 0)
    (Good_empty (cmp := cmp)) (by simp only [List.length_nil]; omega)
  rw [h] at e1
  simp only [Res.ok.injEq, Prod.mk.injEq] at e1
  obtain ⟨_, rfl⟩ := e1
  simp only [List.length_nil, Nat.zero_add] at l1
  obtain ⟨s2, t2, e2, g2, m2, _⟩ := calls_ok (fuel := fuel) ho hal hf cs' (i := cs.length) g1
    (by omega)
  refine ⟨_, s2, e2, fun p n hp => ?_⟩
  have hin := g1.at_.holds.pair hp (g1.only p (by simp [hp]))
  obtain ⟨_, _, n', h1, h2⟩ := g2.at_.holds.key (m2 hs _ hin)
  exact ⟨n', h1, h2⟩

/-- the hypotheses are met: three keys, then a search for an old and a new key, and finding -/
example : IsOrd demoCmp ∧ (anyFree (E := Nat × Nat) (fun _ => false)).Sound ∧
    (∃ o s, calls demoCmp 96 (anyFree (fun _ => false)) 0 empty (demoCalls.take 3) = .ok (o, s) ∧
      o = [some (2, 0), some (1, 0), some (3, 0)]) ∧
    (∀ c ∈ ([.search (1, 4), .search (7, 0), .find (3, 3)] : List (Call (Nat × Nat))),
      ∀ k, c ≠ .delete k) := by
  have ho : IsOrd demoCmp := by
    refine ⟨fun a => by simp [demoCmp], fun a b => ?_, fun a b c => ?_⟩
    · simp only [demoCmp]; omega
    · simp only [demoCmp]; omega
  refine ⟨ho, anyFree_sound _, ?_, by simp⟩
  obtain ⟨s, h, _⟩ := C112_partial ho (anyFree_sound (fun _ => false)) (Nat.le_refl 96)
    (demoCalls.take 3) (by decide)
  exact ⟨_, s, h, by decide⟩

/-- run calls with the addresses that `malloc` returns written beside them, keeping the returned
node pointers -/
def ptrs (cmp : E → E → Int) : Heap E → List (Nat × Call E) → Res (List Nat × Heap E)
  | s, [] => .ok ([], s)
  | s, (r, .search k) :: cs => (tsearch r (cmp k) k s).bind fun o =>
      (ptrs cmp o.1 cs).bind fun q => .ok (o.2 :: q.1, q.2)
  | s, (_, .delete k) :: cs => (tdelete (cmp k) s).bind fun o =>
      (ptrs cmp o.1 cs).bind fun q => .ok (o.2 :: q.1, q.2)
  | s, (_, .find _) :: cs => ptrs cmp s cs

def natCmp (a b : Nat) : Int := (a : Int) - b

/-- **C112 is false as first stated: node pointers go stale.**  The key 1 is a member all the time,
but deleting the key 2 frees the node whose pointer `musl_tsearch` returned for 1 (its key moves to
the block of 2): "free the preceding tnode instead of the deleted one" (musl-tsearch.c:188-197). -/
theorem C112_stale_false :
    ∃ s, ptrs natCmp empty [(100, .search 2), (200, .search 1), (0, .delete 2)] =
        .ok ([100, 200, 100], s) ∧
      s.mem 200 = none ∧ tfind (natCmp 1) s 96 s.root = some (.ok 100) ∧
      (s.mem 100).map TNode.key = some 1 := by
  exact ⟨_, rfl, rfl, rfl, rfl⟩

/-- **C112 is false as first stated: NULL for a present key.**  musl-tsearch.c:173-174 says that
a non-NULL pointer is returned when the root is deleted, so that NULL means that the key is absent;
because of lines 202-203 the answer is NULL for a root without a left child, though the key was
present and is deleted. -/
theorem C112_null_false :
    ∃ s, ptrs natCmp empty [(100, .search 2), (200, .search 3), (0, .delete 2)] =
        .ok ([100, 200, 0], s) ∧
      s.mem 100 = none ∧ tfind (natCmp 2) s 96 s.root = some (.ok 0) := by
  exact ⟨_, rfl, rfl, rfl⟩

/-- **C112, the returned parent.**  On the other hand the pointer returned by `musl_tdelete` is never
dangling: it is NULL or points to a node in use. -/
theorem C112_parent (ho : IsOrd cmp) {al : Malloc E} (hal : al.Sound) {fuel : Nat} (hf : 96 ≤ fuel)
    (cs : List (Call E)) (hn : cs.length < 2 ^ 64) (k : E) {o : List (Option E)} {s : Heap E}
    (h : calls cmp fuel al 0 empty cs = .ok (o, s)) :
    ∃ s' p, tdelete (cmp k) s = .ok (s', p) ∧ (p = 0 ∨ InUse s' p) := by
  obtain ⟨s1, t1, e1, g1, _, l1⟩ := calls_ok (fuel := fuel) ho hal hf cs (i := 0)
    (Good_empty (cmp := cmp)) (by simp only [List.length_nil]; omega)
  rw [h] at e1
  simp only [Res.ok.injEq, Prod.mk.injEq] at e1
  obtain ⟨_, rfl⟩ := e1
  simp only [List.length_nil, Nat.zero_add] at l1
  rcases Tree.tdelete_any (cmp k) (forget t1) g1.inv (g1.set.count_lt (by omega)) with
    ⟨_, h⟩ | ⟨T, _, _, _, _, h, _⟩
  · exact ⟨s, 0, tdelete_absent g1.at_ h, .inl rfl⟩
  · obtain ⟨s', t', par, y, e, a', _, _, _, _, hp⟩ := tdelete_present g1.at_ h
    refine ⟨s', par, e, hp.imp id fun h => (a'.holds.alloc h).2⟩

/-- the hypotheses of `C112_parent` are met by the demo history -/
example : ∃ o s, calls demoCmp 96 (anyFree (fun i => i == 4)) 0 empty demoCalls = .ok (o, s) ∧
    o.length = 10 := by
  have ho : IsOrd demoCmp := by
    refine ⟨fun a => by simp [demoCmp], fun a b => ?_, fun a b c => ?_⟩
    · simp only [demoCmp]; omega
    · simp only [demoCmp]; omega
  obtain ⟨s, h, _⟩ := C112_partial ho (anyFree_sound (fun i => i == 4)) (Nat.le_refl 96)
    demoCalls (by decide)
  exact ⟨_, s, h, by decide⟩

end Verif.TreeMem.Props
