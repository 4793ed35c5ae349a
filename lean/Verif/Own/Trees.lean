import Verif.Own.Lemmas
import Verif.Tree.MemProps

/-! # Search trees among the private blocks -/

namespace Verif.Own

open Verif.Tree (Tree inorder)
open Verif.TreeMem (At addrs addr forget TNode Heap)
open Verif.Map.Spec (IsOrd)

/-- The nodes at the addresses `own` are a search tree of the elements `xs`, ordered by their keys. -/
def TreeIn (m : Nat → Option (TNode Nat)) (root : Nat) (key : Nat → Nat) (cmp : Nat → Nat → Int) (xs : List Nat)
    (own : Nat → Prop) : Prop :=
  ∃ t : TreeMem.LT Nat, At ⟨root, m⟩ [] t ∧ Tree.Inv (forget t) ∧
    (inorder (forget t)).Pairwise (fun x y => cmp (key x) (key y) < 0) ∧ (inorder (forget t)).Perm xs ∧
    ∀ b, own b ↔ b ∈ addrs t

variable {m m' : Nat → Option (TNode Nat)} {root : Nat} {key key' : Nat → Nat} {cmp : Nat → Nat → Int} {xs xs' : List Nat}
  {own own' : Nat → Prop}

theorem TreeIn.congr (h : TreeIn m root key cmp xs own) (hm : ∀ b, own b → m' b = m b) (hk : ∀ x ∈ xs, key' x = key x)
    (ho : ∀ b, own' b ↔ own b) : TreeIn m' root key' cmp xs own' := by
  obtain ⟨t, h1, h2, h3, h4, h5⟩ := h
  refine ⟨t, ⟨h1.holds.congr fun p hp => hm p ((h5 p).2 hp), ?_, h1.nodup⟩, h2, ?_, h4, fun b => (ho b).trans (h5 b)⟩
  · exact h1.ctx
  · refine h3.imp_of_mem fun hx hy hxy => ?_
    rw [hk _ (h4.mem_iff.1 hx), hk _ (h4.mem_iff.1 hy)]
    exact hxy

theorem TreeIn.nil (m : Nat → Option (TNode Nat)) (key : Nat → Nat) (cmp : Nat → Nat → Int) (ho : ∀ b, ¬ own b) :
    TreeIn m 0 key cmp [] own :=
  ⟨.nil, ⟨trivial, rfl, by simp [addrs, TreeMem.addrsF]⟩, trivial, by simp [forget, TreeMem.tmap, inorder],
    by simp [forget, TreeMem.tmap, inorder], fun b => by simp [addrs, ho b]⟩

theorem TreeIn.root_nil (h : TreeIn m root key cmp xs own) : root = 0 ↔ xs = [] := by
  obtain ⟨t, h1, h2, h3, h4, h5⟩ := h
  have hr : root = addr t := h1.ctx
  have hl := h4.length_eq
  cases t with
  | nil =>
    simp only [forget, TreeMem.tmap, inorder, List.length_nil] at hl
    simp [hr, TreeMem.addr, List.eq_nil_of_length_eq_zero hl.symm]
  | node k a0 a1 hh =>
    have h0 : k.1 ≠ 0 := h1.holds.1
    have : xs ≠ [] := by rintro rfl; simp [forget, TreeMem.tmap, inorder] at hl
    simp [hr, TreeMem.addr, h0, this]

theorem TreeIn.alloc (h : TreeIn m root key cmp xs own) {b : Nat} (hb : own b) : b ≠ 0 ∧ m b ≠ none := by
  obtain ⟨t, h1, h2, h3, h4, h5⟩ := h
  exact h1.holds.alloc ((h5 b).1 hb)

theorem TreeIn.fin (h : TreeIn m root key cmp xs own) : ∃ l : List Nat, ∀ b, own b → b ∈ l := by
  obtain ⟨t, h1, h2, h3, h4, h5⟩ := h
  exact ⟨addrs t, fun b => (h5 b).1⟩

theorem TreeIn.uniq (ho : IsOrd cmp) (h : TreeIn m root key cmp xs own) :
    xs.Pairwise (fun x y => cmp (key x) (key y) ≠ 0) := by
  obtain ⟨t, h1, h2, h3, h4, h5⟩ := h
  exact h4.pairwise (h3.imp fun h => by omega) (fun h h' => h (Map.ord_symm0 ho h'))

theorem cut_of (ho : IsOrd cmp) {l : List Nat} (hs : l.Pairwise (fun x y => cmp (key x) (key y) < 0)) (q : Nat) :
    Tree.Cut (fun e => cmp q (key e)) l := by
  have := Set.sorted_cut (l := l.map key) ho (List.pairwise_map.2 hs) q
  exact List.pairwise_map.1 this

theorem count_lt {t : TreeMem.LT Nat} (hp : (inorder (forget t)).Perm xs) (hn : xs.length < 2 ^ 64) :
    Tree.count (forget t) < 2 ^ 64 := by
  rw [Tree.count_eq_length, hp.length_eq]; exact hn

theorem height_lt {t : TreeMem.LT Nat} (hi : Tree.Inv (forget t)) (hp : (inorder (forget t)).Perm xs) (hn : xs.length < 2 ^ 64) :
    Tree.realHeight t < 96 := by
  have h := hi.height_lt (count_lt hp hn)
  rw [hi.realHeight, forget, TreeMem.Props.realHeight_tmap] at h
  omega

/-- `musl_tsearch` -/
theorem TreeIn.search (ho : IsOrd cmp) (h : TreeIn m root key cmp xs own) (hn : xs.length < 2 ^ 64) (q new r : Nat)
    (hr : r ≠ 0 → ¬ own r ∧ key new = q) :
    (∃ x p n, x ∈ xs ∧ cmp q (key x) = 0 ∧ TreeMem.tsearch r (fun e => cmp q (key e)) new ⟨root, m⟩ = .ok (⟨root, m⟩, p) ∧
      p ≠ 0 ∧ m p = some n ∧ n.key = x) ∨
    ((∀ x ∈ xs, cmp q (key x) ≠ 0) ∧
      ((r = 0 ∧ TreeMem.tsearch r (fun e => cmp q (key e)) new ⟨root, m⟩ = .ok (⟨root, m⟩, 0)) ∨
       (r ≠ 0 ∧ ∃ h' n, TreeMem.tsearch r (fun e => cmp q (key e)) new ⟨root, m⟩ = .ok (h', r) ∧ h'.mem r = some n ∧ n.key = new ∧
        TreeIn h'.mem h'.root key cmp (xs ++ [new]) (fun b => b = r ∨ own b) ∧
        ∀ b, b ≠ r → ¬ own b → h'.mem b = m b))) := by
  obtain ⟨t, a, hi, hs, hp, hb⟩ := h
  rcases Tree.tsearch_spec (fun e => cmp q (key e)) new (forget t) hi (cut_of ho hs q) (count_lt hp hn) with
    ⟨old, hm, h0, he, _⟩ | ⟨T, L', R', he, i', hino, hino', hL, hR⟩
  · obtain ⟨p, e, hpa, n, nm, nk⟩ := TreeMem.tsearch_found (r := r) a he
    exact .inl ⟨old, p, n, hp.mem_iff.1 hm, h0, e, (a.holds.alloc hpa).1, nm, nk⟩
  · right
    refine ⟨fun x hx => ?_, ?_⟩
    · have := hp.mem_iff.2 hx
      rw [hino, List.mem_append] at this
      rcases this with h | h
      · have := hL x h; omega
      · have := hR x h; omega
    · obtain ⟨hfail, hnew⟩ := TreeMem.tsearch_new (r := r) a he
      by_cases h0 : r = 0
      · exact .inl ⟨h0, hfail h0⟩
      · obtain ⟨hr1, hr2⟩ := hr h0
        obtain ⟨s', t', e, a', hT, hp', ⟨L2, R2, l1, l2⟩, off⟩ := hnew h0 (fun h => hr1 ((hb r).2 h))
        obtain ⟨_, _, n, nm, nk⟩ := a'.holds.key (p := r) (k := new) (by rw [l2]; simp)
        refine .inr ⟨h0, s', n, e, nm, nk, ⟨t', a', hT ▸ i', ?_, ?_, fun b => ?_⟩, fun b h1 h2 => ?_⟩
        · rw [hT, hino']
          rw [hino, List.pairwise_append] at hs
          simp only [List.pairwise_append, List.pairwise_cons, List.mem_cons]
          refine ⟨hs.1, ⟨fun y hy => ?_, hs.2.1⟩, ?_⟩
          · rw [hr2]; exact hR y hy
          · intro x hx y hy
            rcases hy with rfl | hy
            · rw [hr2]; exact (ho.swap _ _).2 (hL x hx)
            · exact hs.2.2 x hx y hy
        · rw [hT, hino']
          rw [hino] at hp
          exact List.perm_middle.trans ((hp.cons _).trans (List.perm_append_singleton _ _).symm)
        · show (b = r ∨ own b) ↔ _
          rw [hp'.mem_iff, List.mem_cons, hb b]
        · exact off b (by simp only [List.mem_cons, not_or]; exact ⟨h1, fun h => h2 ((hb b).2 h)⟩)

/-- `musl_tfind` -/
theorem TreeIn.find (ho : IsOrd cmp) (h : TreeIn m root key cmp xs own) (hn : xs.length < 2 ^ 64) (q : Nat) :
    ∃ p, TreeMem.tfind (fun e => cmp q (key e)) ⟨root, m⟩ 96 root = some (.ok p) ∧
      ((p = 0 ∧ ∀ x ∈ xs, cmp q (key x) ≠ 0) ∨ (p ≠ 0 ∧ ∃ n, m p = some n ∧ n.key ∈ xs ∧ cmp q (key n.key) = 0)) := by
  obtain ⟨t, a, hi, hs, hp, hb⟩ := h
  have e := TreeMem.tfind_ok (fun e => cmp q (key e)) a.holds (height_lt hi hp hn)
  have hr : root = addr t := a.ctx
  rw [← hr] at e
  refine ⟨_, e, ?_⟩
  have htm := TreeMem.tfind_tmap Prod.snd (fun e => cmp q (key e)) t
  cases hx : Tree.tfind (fun x : Nat × Nat => cmp q (key x.2)) t with
  | none =>
    refine .inl ⟨rfl, fun x hx' => ?_⟩
    rw [hx] at htm
    exact Tree.tfind_none (cut_of ho hs q) htm x (hp.mem_iff.2 hx')
  | some x =>
    obtain ⟨h1, h2⟩ := Tree.tfind_some hx
    obtain ⟨x0, _, n, nm, nk⟩ := a.holds.key (p := x.1) (k := x.2) h1
    refine .inr ⟨x0, n, nm, ?_, by rw [nk]; exact h2⟩
    rw [nk]
    refine hp.mem_iff.1 ?_
    rw [forget, TreeMem.inorder_tmap]
    exact List.mem_map.2 ⟨x, h1, rfl⟩

/-- `musl_tdelete` of an element -/
theorem TreeIn.delete (ho : IsOrd cmp) (h : TreeIn m root key cmp xs own) (hn : xs.length < 2 ^ 64) {q x : Nat}
    (hx : x ∈ xs) (hq : cmp q (key x) = 0) :
    ∃ h' par y, TreeMem.tdelete (fun e => cmp q (key e)) ⟨root, m⟩ = .ok (h', par) ∧ own y ∧ h'.mem y = none ∧
      TreeIn h'.mem h'.root key cmp (xs.filter (fun e => cmp q (key e) ≠ 0)) (fun b => own b ∧ b ≠ y) ∧
      ∀ b, ¬ own b → h'.mem b = m b := by
  obtain ⟨t, a, hi, hs, hp, hb⟩ := h
  rcases Tree.tdelete_spec (fun e => cmp q (key e)) (forget t) hi (cut_of ho hs q) (count_lt hp hn) with
    ⟨habs, _⟩ | ⟨T, L', k, R', hk, he, i', hino, hino', _⟩
  · exact absurd hq (habs x (hp.mem_iff.2 hx))
  · obtain ⟨s', t', par, y, e, a', hT, hpy, my, off, _⟩ := TreeMem.tdelete_present a he
    have hnd : (addrs t).Nodup := by simpa [TreeMem.addrsF] using a.nodup
    have hy : y ∉ addrs t' := (List.nodup_cons.1 (hpy.nodup_iff.1 hnd)).1
    rw [hino] at hs
    have hL : ∀ e ∈ L', cmp q (key e) ≠ 0 := by
      intro e he h0
      have h1 := (List.pairwise_append.1 hs).2.2 e he k (by simp)
      have := Map.ord_congr0 ho h0 hk
      omega
    have hR : ∀ e ∈ R', cmp q (key e) ≠ 0 := by
      intro e he h0
      have h1 := (List.pairwise_cons.1 (List.pairwise_append.1 hs).2.1).1 e he
      have := Map.ord_congr0 ho hk h0
      omega
    refine ⟨s', par, y, e, (hb y).2 (hpy.mem_iff.2 (by simp)), my, ⟨t', a', hT ▸ i', ?_, ?_, fun b => ?_⟩, fun b h1 => off b (fun h => h1 ((hb b).2 h))⟩
    · rw [hT, hino']
      have h1 := List.pairwise_append.1 hs
      have h2 := List.pairwise_cons.1 h1.2.1
      exact List.pairwise_append.2 ⟨h1.1, h2.2, fun a ha b hb => h1.2.2 a ha b (by simp [hb])⟩
    · rw [hT, hino']
      have hp := hp.filter (fun e => decide (cmp q (key e) ≠ 0))
      rw [hino] at hp
      refine List.Perm.trans (List.Perm.of_eq ?_) hp
      rw [List.filter_append, List.filter_cons_of_neg (by simp [hk]),
        List.filter_eq_self.2 (fun e he => by simpa using hL e he),
        List.filter_eq_self.2 (fun e he => by simpa using hR e he)]
    · show (own b ∧ b ≠ y) ↔ _
      rw [hb b, hpy.mem_iff, List.mem_cons]
      constructor
      · rintro ⟨h1 | h1, h2⟩
        · exact absurd h1 h2
        · exact h1
      · exact fun h1 => ⟨.inr h1, by rintro rfl; exact hy h1⟩

/-- `musl_tdestroy` -/
theorem TreeIn.destroy (h : TreeIn m root key cmp xs own) (hn : xs.length < 2 ^ 64) :
    ∃ h' ks, TreeMem.tdestroy 96 ⟨root, m⟩ root = some (.ok (h', ks)) ∧ ks.Perm xs ∧ (∀ b, own b → h'.mem b = none) ∧
      ∀ b, ¬ own b → h'.mem b = m b := by
  obtain ⟨t, a, hi, hs, hp, hb⟩ := h
  have hnd : (addrs t).Nodup := by simpa [TreeMem.addrsF] using a.nodup
  obtain ⟨s', e, h1, h2⟩ := TreeMem.tdestroy_ok a.holds hnd (height_lt hi hp hn)
  have hr : root = addr t := a.ctx
  rw [← hr] at e
  refine ⟨s', _, e, ?_, fun b h => h1 b ((hb b).1 h), fun b h => h2 b (fun h' => h ((hb b).2 h'))⟩
  have := (Tree.tdestroy_perm t).map Prod.snd
  rw [← TreeMem.inorder_tmap] at this
  exact this.trans hp

/-- the keys of a descent can be read -/
theorem TreeIn.reads {s : St} (h : TreeIn (nodes s.mem) root key cmp xs own) (hn : xs.length < 2 ^ 64) (c : Nat → Int)
    (hx : ∀ x ∈ xs, ∃ kv, pairOf s x = .ok kv) : keysRead s c 96 root = .ok () := by
  obtain ⟨t, a, hi, hs, hp, hb⟩ := h
  have hr : root = addr t := a.ctx
  rw [hr]
  have hx' : ∀ x ∈ inorder t, ∃ kv, pairOf s x.2 = .ok kv := by
    intro x h
    refine hx x.2 (hp.mem_iff.1 ?_)
    rw [forget, TreeMem.inorder_tmap]
    exact List.mem_map.2 ⟨x, h, rfl⟩
  have key : ∀ (t : TreeMem.LT Nat) fuel, TreeMem.Holds (nodes s.mem) t → Tree.realHeight t < fuel →
      (∀ x ∈ inorder t, ∃ kv, pairOf s x.2 = .ok kv) → keysRead s c fuel (addr t) = .ok () := by
    intro t
    induction t with
    | nil =>
      intro fuel _ hf _
      obtain ⟨n, rfl⟩ : ∃ n, fuel = n + 1 := ⟨fuel - 1, by omega⟩
      rfl
    | node k a0 a1 hh ih0 ih1 =>
      intro fuel hH hf hk
      obtain ⟨n, rfl⟩ : ∃ n, fuel = n + 1 := ⟨fuel - 1, by omega⟩
      obtain ⟨h0, h1, h2, h3⟩ := hH
      simp only [Tree.realHeight] at hf
      have hm : s.mem k.1 = some (.node ⟨k.2, addr a0, addr a1, hh⟩) := by
        simp only [nodes] at h1
        split at h1
        · next heq => rw [heq]; simpa using h1
        · simp at h1
      obtain ⟨kv, hkv⟩ := hk k (by simp [inorder])
      simp only [keysRead, TreeMem.addr, h0, if_false, hm, hkv, Res.bind_ok]
      split
      · rfl
      · rw [TreeMem.TNode.kid]
        split
        · exact ih1 n h3 (by omega) (fun x hx => hk x (by simp [inorder, hx]))
        · exact ih0 n h2 (by omega) (fun x hx => hk x (by simp [inorder, hx]))
  exact key t 96 a.holds (height_lt hi hp hn) hx'

theorem nodes_setNodes (m : Nat → Option Blk) (h : Nat → Option (TNode Nat)) : nodes (setNodes m h) = h := by
  funext b
  simp only [nodes, setNodes]
  cases h b with
  | some n => rfl
  | none =>
    cases hm : m b with
    | none => rfl
    | some x => cases x <;> rfl

theorem nodes_some {m : Nat → Option Blk} {b : Nat} {n : TNode Nat} : nodes m b = some n ↔ m b = some (.node n) := by
  simp only [nodes]
  split
  · next h => simp [h]
  · next h => simp only [reduceCtorEq, false_iff]; exact h n

theorem setNodes_same {m : Nat → Option Blk} {h : Nat → Option (TNode Nat)} {b : Nat} (e : h b = nodes m b) :
    setNodes m h b = m b := by
  simp only [setNodes, e, nodes]
  cases hm : m b with
  | none => rfl
  | some x => cases x <;> rfl

theorem setNodes_none {m : Nat → Option Blk} {h : Nat → Option (TNode Nat)} {b : Nat} (e : h b = none)
    (hm : nodes m b ≠ none ∨ m b = none) : setNodes m h b = none := by
  simp only [setNodes, e]
  rcases hm with hm | hm
  · simp only [nodes] at hm
    split at hm
    · next h => simp [h]
    · simp at hm
  · simp [hm]

theorem setNodes_id (m : Nat → Option Blk) : setNodes m (nodes m) = m := by
  funext b; exact setNodes_same rfl

end Verif.Own
