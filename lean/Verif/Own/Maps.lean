import Verif.Own.Dict

/-! # Sets and maps and their private memory -/

namespace Verif.Own

open Verif.Chain (upd)
open Verif.Map.Spec (IsOrd)
open Verif.TreeMem (TNode)

variable {al : Malloc} {text : Nat → Hash.Key} {s : St} {L : List Nat} {A : Abs} {G : Nat → Option Nat}

/-! ## Preparations -/

theorem Inv.tick (I : Inv text s L A G) (n : Nat) : Inv text { s with n := n } L A G :=
  ⟨I.chain, I.dom, I.own, I.ownL, I.sep, I.fin, fun p x hp => (I.holds p x hp).frame rfl (fun _ _ => rfl) (fun _ => Iff.rfl)⟩

/-- another description of the same block -/
theorem Inv.relabel (I : Inv text s L A G) {l : Nat} {x x' : SObj} (hl : A l = some x)
    (hx : Holds text s G l x → Holds text s G l x') : Inv text s L (upd A l (some x')) G := by
  refine ⟨I.chain, fun p => ?_, I.own, I.ownL, I.sep, I.fin, fun p y hp => ?_⟩
  · by_cases h : p = l
    · subst h; simp [upd_same, I.mem hl]
    · rw [upd_ne _ _ h]; exact I.dom p
  · by_cases h : p = l
    · subst h
      rw [upd_same, Option.some.injEq] at hp
      subst hp
      exact hx (I.holds p _ hl)
    · rw [upd_ne _ _ h] at hp
      exact I.holds p y hp

/-- what the `malloc` of a node returns -/
theorem nodeAddr_fresh (hal : al.Sound) (hf : Finite s) (h : nodeAddr al s ≠ 0) : Fresh s (nodeAddr al s) := by
  unfold nodeAddr at h ⊢
  split at h
  · exact absurd rfl h
  · next hn => rw [if_neg hn]; exact fresh hal hf

theorem nodeAddr_zero (hal : al.Sound) (hf : Finite s) (h : nodeAddr al s = 0) : al.fails s.n = true := by
  unfold nodeAddr at h
  split at h
  · assumption
  · exact absurd h (fresh hal hf).1

variable {root : Nat} {key : Nat → Nat} {cmp : Nat → Nat → Int} {xs : List Nat} {p : Nat}

/-- `musl_tsearch` in the memory of a state -/
theorem treeSearch_ok (hal : al.Sound) (I : Inv text s L A G) (ho : IsOrd cmp)
    (T : TreeIn (nodes s.mem) root key cmp xs (fun b => G b = some p)) (hn : xs.length ≤ 2 ^ 31) (q new : Nat) (hq : key new = q) :
    (∃ x pp, x ∈ xs ∧ cmp q (key x) = 0 ∧ pp ≠ 0 ∧ nodeKey s pp = .ok x ∧
      treeSearch al s root (fun e => cmp q (key e)) new = .ok ({ s with n := s.n + 1 }, root, pp)) ∨
    ((∀ x ∈ xs, cmp q (key x) ≠ 0) ∧
      ((al.fails s.n = true ∧ ∃ s', treeSearch al s root (fun e => cmp q (key e)) new = .ok (s', root, 0)) ∨
       ∃ (h' : Nat → Option (TNode Nat)) (root' r : Nat), Fresh s r ∧
        treeSearch al s root (fun e => cmp q (key e)) new = .ok (⟨s.ch, s.obj, setNodes s.mem h', s.n + 1⟩, root', r) ∧
        (∃ n, h' r = some n ∧ n.key = new) ∧ TreeIn h' root' key cmp (xs ++ [new]) (fun b => b = r ∨ G b = some p) ∧
        ∀ b, b ≠ r → G b ≠ some p → h' b = nodes s.mem b)) := by
  have hr : nodeAddr al s ≠ 0 → ¬ G (nodeAddr al s) = some p ∧ key new = q := by
    intro h
    refine ⟨fun hg => ?_, hq⟩
    rw [I.free_none (nodeAddr_fresh hal I.finite h).2.2] at hg
    simp at hg
  rcases T.search ho (by omega) q new (nodeAddr al s) hr with
    ⟨x, pp, n, hx, h0, e, hpp, hm, hk⟩ | ⟨hno, ⟨h0, e⟩ | ⟨h0, h', n, e, hm, hk, T', hoff⟩⟩
  · refine .inl ⟨x, pp, hx, h0, hpp, ?_, ?_⟩
    · rw [nodes_some] at hm
      simp only [nodeKey, hm, hk]
    · rw [treeSearch, e, Res.bind_ok, setNodes_id]
  · exact .inr ⟨hno, .inl ⟨nodeAddr_zero hal I.finite h0, _, by rw [treeSearch, e, Res.bind_ok]⟩⟩
  · refine .inr ⟨hno, .inr ⟨h'.mem, h'.root, nodeAddr al s, nodeAddr_fresh hal I.finite h0, by rw [treeSearch, e, Res.bind_ok],
      ⟨n, hm, hk⟩, T', hoff⟩⟩

/-- `musl_tfind` in the memory of a state -/
theorem treeFind_ok (ho : IsOrd cmp) (T : TreeIn (nodes s.mem) root key cmp xs (fun b => G b = some p)) (hn : xs.length ≤ 2 ^ 31)
    (q : Nat) : (treeFind s root (fun e => cmp q (key e)) = .ok 0 ∧ ∀ x ∈ xs, cmp q (key x) ≠ 0) ∨
      ∃ pp x, treeFind s root (fun e => cmp q (key e)) = .ok pp ∧ pp ≠ 0 ∧ nodeKey s pp = .ok x ∧ x ∈ xs ∧ cmp q (key x) = 0 := by
  obtain ⟨pp, e, ⟨rfl, h⟩ | ⟨h0, n, hm, hx, hq⟩⟩ := T.find ho (by omega) q
  · exact .inl ⟨by rw [treeFind, e], h⟩
  · refine .inr ⟨pp, n.key, by rw [treeFind, e], h0, ?_, hx, hq⟩
    rw [nodes_some] at hm
    simp only [nodeKey, hm]

/-- `musl_tdelete` in the memory of a state -/
theorem treeDelete_ok (ho : IsOrd cmp) (T : TreeIn (nodes s.mem) root key cmp xs (fun b => G b = some p)) (hn : xs.length ≤ 2 ^ 31)
    {q x : Nat} (hx : x ∈ xs) (hq : cmp q (key x) = 0) :
    ∃ (h' : Nat → Option (TNode Nat)) (root' y : Nat),
      treeDelete s root (fun e => cmp q (key e)) = .ok (⟨s.ch, s.obj, setNodes s.mem h', s.n⟩, root') ∧
      h' y = none ∧
      TreeIn h' root' key cmp (xs.filter (fun e => cmp q (key e) ≠ 0)) (fun b => G b = some p ∧ b ≠ y) ∧
      ∀ b, G b ≠ some p → h' b = nodes s.mem b := by
  obtain ⟨h', par, y, e, _, my, T', hoff⟩ := T.delete ho (by omega) hx hq
  exact ⟨h'.mem, h'.root, y, by rw [treeDelete, e, Res.bind_ok], my, T', hoff⟩

/-- a container with a new node -/
theorem Inv.grown (I : Inv text s L A G) {l : Nat} {x x' : SObj} (hl : A l = some x)
    (T : TreeIn (nodes s.mem) root key cmp xs (fun b => G b = some l)) {h' : Nat → Option (TNode Nat)} {root' r : Nat} {xs' : List Nat}
    (hr : Fresh s r) (T' : TreeIn h' root' key cmp xs' (fun b => b = r ∨ G b = some l))
    (hoff : ∀ b, b ≠ r → G b ≠ some l → h' b = nodes s.mem b) {o : Obj} {n : Nat}
    (hx : ∀ G', TreeIn (nodes (setNodes s.mem h')) root' key cmp xs' (fun b => G' b = some l) →
      Holds text ⟨s.ch, upd s.obj l o, setNodes s.mem h', n⟩ G' l x') :
    ∃ G', Inv text ⟨s.ch, upd s.obj l o, setNodes s.mem h', n⟩ L (upd A l (some x')) G' := by
  refine I.tree hl (own' := fun b => b = r ∨ G b = some l) (fun b hb => (T.alloc hb).2) (fun b h1 h2 => hoff b (fun h => h2 (.inl h)) h1)
    (fun b hb => hb.elim (fun h => .inr (h ▸ hr)) .inl) (fun b hb => (T'.alloc hb).2) (fun b h1 h2 => absurd (.inr h1) h2) T'.fin
    (fun G' hG' => hx G' ?_)
  rw [nodes_setNodes]
  exact T'.congr (fun _ _ => rfl) (fun _ _ => rfl) hG'

/-- a container with a node less -/
theorem Inv.shrunk (I : Inv text s L A G) {l : Nat} {x x' : SObj} (hl : A l = some x)
    (T : TreeIn (nodes s.mem) root key cmp xs (fun b => G b = some l)) {h' : Nat → Option (TNode Nat)} {root' y : Nat} {xs' : List Nat}
    (hy : h' y = none) (T' : TreeIn h' root' key cmp xs' (fun b => G b = some l ∧ b ≠ y))
    (hoff : ∀ b, G b ≠ some l → h' b = nodes s.mem b) {o : Obj} {n : Nat}
    (hx : ∀ G', TreeIn (nodes (setNodes s.mem h')) root' key cmp xs' (fun b => G' b = some l) →
      Holds text ⟨s.ch, upd s.obj l o, setNodes s.mem h', n⟩ G' l x') :
    ∃ G', Inv text ⟨s.ch, upd s.obj l o, setNodes s.mem h', n⟩ L (upd A l (some x')) G' := by
  refine I.tree hl (own' := fun b => G b = some l ∧ b ≠ y) (fun b hb => (T.alloc hb).2) (fun b h1 _ => hoff b h1)
    (fun b hb => .inl hb.1) (fun b hb => (T'.alloc hb).2) (fun b h1 h2 => ?_) T'.fin (fun G' hG' => hx G' ?_)
  · have : b = y := by
      by_contra h
      exact h2 ⟨h1, h⟩
    rw [this]; exact hy
  · rw [nodes_setNodes]
    exact T'.congr (fun _ _ => rfl) (fun _ _ => rfl) hG'

theorem touch_ok (pol : Policy) {v : Nat} (h : v ≠ 0) : CList.touch pol (ptr v) = .ok () := by
  simp [CList.touch, ptr, h]

/-! ## What a change leaves alone -/

/-- sets and maps -/
def SObj.hasTree : SObj → Prop
  | .set .. => True
  | .map .. => True
  | _ => False

/-- the other sets and maps and their nodes stay as they are when `m` changes -/
structure Kept (s s' : St) (A : Abs) (G : Nat → Option Nat) (m : Nat) : Prop where
  node : ∀ b n, G b ≠ some m → s.mem b = some (.node n) → s'.mem b = some (.node n)
  obj : ∀ q x, A q = some x → x.hasTree → q ≠ m → s'.obj q = s.obj q

theorem append_nodes (hal : al.Sound) (I : Inv text s L A G) {l : Nat} {o : Option Nat} {ys : List (Option Nat)}
    (hl : A l = some (.list o ys)) (hlen : ys.length < 2 ^ 31) {e : Nat} {s' : St} (he : append al s l (some e) = .ok s')
    {b : Nat} {n : TNode Nat} (hb : s.mem b = some (.node n)) : s'.mem b = some (.node n) := by
  obtain ⟨size, cap, a, cs, h1, h2, h3, h4⟩ := I.holds l _ hl
  obtain ⟨l', e1, _⟩ := CList.Props.append_spec h3 hlen (some e) (.inl (by simp))
  obtain ⟨s2, a', e2, S⟩ := append_sim hal I.finite (I.liveOf hl) h1 h2 (I.sep a (by simp [h2])) (I.ne0 (by simp [h2])) e1
  rw [e2, Res.ok.injEq] at he
  subst he
  have hba : b ≠ a := by rintro rfl; rw [h2] at hb; simp at hb
  have hba' : b ≠ a' := by
    rcases S.addr with h | h
    · rw [h]; exact hba
    · rintro rfl; rw [h.2.2] at hb; simp at hb
  rw [S.mem, upd_ne _ _ hba', upd_ne _ _ hba]
  exact hb

theorem mkObj_frame {ob : Obj} {s' : St} {r : Nat} (h : mkObj al s ob = .ok (s', r)) :
    s'.mem = s.mem ∧ s'.obj = upd s.obj r ob := by
  unfold mkObj at h
  simp only at h
  cases hc : Chain.alloc s.ch (al.addr s.n (used s)) with
  | ub => rw [hc] at h; simp [Res.bind] at h
  | segv => rw [hc] at h; simp [Res.bind] at h
  | ok c =>
    rw [hc, Res.bind_ok, Res.ok.injEq, Prod.mk.injEq] at h
    obtain ⟨rfl, rfl⟩ := h
    exact ⟨rfl, rfl⟩

theorem plainFree_mem {p : Nat} {s' : St} (h : plainFree s p = .ok s') : s'.mem = s.mem := by
  unfold plainFree deChain freeObj at h
  cases hc : Chain.deChain s.ch p with
  | ub => rw [hc] at h; simp [Res.bind] at h
  | segv => rw [hc] at h; simp [Res.bind] at h
  | ok c =>
    rw [hc] at h
    simp only [Res.bind_ok] at h
    cases hd : Chain.free c p with
    | ub => rw [hd] at h; simp [Res.bind] at h
    | segv => rw [hd] at h; simp [Res.bind] at h
    | ok c' =>
      rw [hd, Res.bind_ok, Res.ok.injEq] at h
      subst h
      rfl

theorem setNodes_node {m : Nat → Option Blk} {h : Nat → Option (TNode Nat)} {b : Nat} {n : TNode Nat} (hb : m b = some (.node n))
    (e : h b = nodes m b) : setNodes m h b = some (.node n) := by
  rw [setNodes_same e]; exact hb

/-! ## Sets -/

theorem setMk_ok (hal : al.Sound) (I : Inv text s L A G) (pol : Policy) (ho : IsOrd cmp) :
    ∃ s' r, setMk al s pol cmp = .ok (s', r) ∧ r ≠ 0 ∧ A r = none ∧
      Inv text s' (L ++ [r]) (upd A r (some (.set pol cmp []))) G := by
  obtain ⟨s', r, e, r0, _, rA, _, I'⟩ := plainMk_ok hal I (.set pol cmp 0) (.set pol cmp [])
    (fun s' G' r h1 h2 => ⟨ho, by simp, 0, h1, TreeIn.nil _ _ _ h2⟩)
  exact ⟨s', r, e, r0, rA, I'⟩

theorem setAdd_ok (hal : al.Sound) (I : Inv text s L A G) {pol : Policy} (hp : A p = some (.set pol cmp xs))
    (hlen : xs.length < 2 ^ 31) {val : Nat} (hv : val ≠ 0) :
    (∃ s' G', setAdd al s p val = .ok s' ∧ Inv text s' L (upd A p (some (.set pol cmp (Set.Spec.insert cmp xs val)))) G' ∧
      Kept s s' A G p) ∨
    (setAdd al s p val = .segv ∧ ∃ i, al.fails i = true) := by
  obtain ⟨ho, hl, root, hobj, T⟩ := I.holds p _ hp
  have hself : upd s.obj p (.set pol cmp root) = s.obj := by rw [← hobj, upd_self]
  rcases treeSearch_ok hal I ho T hl val val rfl with
    ⟨x, pp, hx, h0, hpp, hk, e⟩ | ⟨hno, ⟨hf, s', e⟩ | ⟨h', root', r, hr, e, ⟨n, hn, hk⟩, T', hoff⟩⟩
  · left
    refine ⟨{ s with n := s.n + 1 }, G, ?_, ?_, fun _ _ _ h => h, fun _ _ _ _ _ => rfl⟩
    · have e' : treeSearch al s root (cmp val) val = .ok ({ s with n := s.n + 1 }, root, pp) := e
      have hk' : nodeKey { s with n := s.n + 1 } pp = .ok x := hk
      simp only [setAdd, I.getObj hp, Res.bind_ok, hobj, e', hpp, if_false, hself, hk', touch_ok pol hv, ite_self]
    · have : Set.Spec.insert cmp xs val = xs := by
        have : (Set.Spec.member cmp xs val).isSome = true := by
          simp only [Set.Spec.member, List.find?_isSome, decide_eq_true_eq]
          exact ⟨x, hx, h0⟩
        simp only [Set.Spec.insert, this, if_true]
      rw [this, ← hp, upd_self]
      exact I.tick _
  · right
    have e' : treeSearch al s root (cmp val) val = .ok (s', root, 0) := e
    refine ⟨?_, _, hf⟩
    simp only [setAdd, I.getObj hp, Res.bind_ok, hobj, e', if_true]
  · left
    have hins : Set.Spec.insert cmp xs val = xs ++ [val] := by
      have : Set.Spec.member cmp xs val = none := Set.member_none.2 hno
      simp [Set.Spec.insert, this]
    obtain ⟨G', I'⟩ := I.grown hp T hr T' hoff (o := .set pol cmp root') (n := s.n + 1) (x' := .set pol cmp (xs ++ [val]))
      (fun G' hT => ⟨ho, by simp; omega, root', upd_same .., hT⟩)
    refine ⟨_, G', ?_, by rw [hins]; exact I', fun b n h1 h2 => ?_, fun q _ _ _ hq => upd_ne _ _ hq⟩
    swap
    · exact setNodes_node h2 (hoff b (by rintro rfl; rw [hr.2.2] at h2; simp at h2) h1)
    have e' : treeSearch al s root (cmp val) val = .ok (⟨s.ch, s.obj, setNodes s.mem h', s.n + 1⟩, root', r) := e
    have hk' : nodeKey ⟨s.ch, upd s.obj p (.set pol cmp root'), setNodes s.mem h', s.n + 1⟩ r = .ok val := by
      simp only [nodeKey, setNodes, hn, hk]
    simp only [setAdd, I.getObj hp, Res.bind_ok, hobj, e', hr.1, if_false, hk', touch_ok pol hv, ite_self]

/-- the answer of `cee_set_find` -/
def answer (o : Option Nat) : Nat := o.getD 0

theorem uniq_id (ho : IsOrd cmp) (T : TreeIn (nodes s.mem) root id cmp xs (fun b => G b = some p)) :
    xs.Pairwise (fun x y => cmp x y ≠ 0) := T.uniq ho

theorem setFind_ok (I : Inv text s L A G) {pol : Policy} (hp : A p = some (.set pol cmp xs)) (key : Nat) :
    setFind s p key = .ok (answer (Set.Spec.member cmp xs key)) := by
  obtain ⟨ho, hl, root, hobj, T⟩ := I.holds p _ hp
  rcases treeFind_ok ho T hl key with ⟨e, hno⟩ | ⟨pp, x, e, h0, hk, hx, hq⟩
  · have e' : treeFind s root (cmp key) = .ok 0 := e
    have : Set.Spec.member cmp xs key = none := Set.member_none.2 hno
    simp only [setFind, I.getObj hp, Res.bind_ok, hobj, e', if_true, this, answer, Option.getD_none]
  · have e' : treeFind s root (cmp key) = .ok pp := e
    have : Set.Spec.member cmp xs key = some x := Set.member_unique ho (uniq_id ho T) hx hq
    simp only [setFind, I.getObj hp, Res.bind_ok, hobj, e', h0, if_false, hk, this, answer, Option.getD_some]

theorem setRemove_ok (I : Inv text s L A G) {pol : Policy} (hp : A p = some (.set pol cmp xs)) (key : Nat) :
    ∃ s' G', setRemove s p key = .ok (s', answer (Set.Spec.member cmp xs key)) ∧
      Inv text s' L (upd A p (some (.set pol cmp (Set.Spec.erase cmp xs key)))) G' := by
  obtain ⟨ho, hl, root, hobj, T⟩ := I.holds p _ hp
  rcases treeFind_ok ho T hl key with ⟨e, hno⟩ | ⟨pp, x, e, h0, hk, hx, hq⟩
  · have e' : treeFind s root (cmp key) = .ok 0 := e
    have hm : Set.Spec.member cmp xs key = none := Set.member_none.2 hno
    have he : Set.Spec.erase cmp xs key = xs := by
      unfold Set.Spec.erase
      rw [List.filter_eq_self]
      intro a ha
      simpa using hno a ha
    refine ⟨s, G, ?_, by rw [he, ← hp, upd_self]; exact I⟩
    simp only [setRemove, I.getObj hp, Res.bind_ok, hobj, e', if_true, hm, answer, Option.getD_none]
  · have e' : treeFind s root (cmp key) = .ok pp := e
    have hm : Set.Spec.member cmp xs key = some x := Set.member_unique ho (uniq_id ho T) hx hq
    obtain ⟨h', root', y, ed, hy, T', hoff⟩ := treeDelete_ok ho T hl hx hq
    have ed' : treeDelete s root (cmp key) = .ok (⟨s.ch, s.obj, setNodes s.mem h', s.n⟩, root') := ed
    obtain ⟨G', I'⟩ := I.shrunk hp T hy T' hoff (o := .set pol cmp root') (n := s.n)
      (x' := .set pol cmp (Set.Spec.erase cmp xs key))
      (fun G' hT => ⟨ho, Nat.le_trans (List.length_filter_le _ _) hl, root', upd_same .., hT⟩)
    refine ⟨_, G', ?_, I'⟩
    simp only [setRemove, I.getObj hp, Res.bind_ok, hobj, e', h0, if_false, hk, ed', hm, answer, Option.getD_some]

/-- all nodes of a container are freed -/
theorem Inv.cleared (I : Inv text s L A G) {l : Nat} {x x' : SObj} (hl : A l = some x)
    (T : TreeIn (nodes s.mem) root key cmp xs (fun b => G b = some l)) {h' : Nat → Option (TNode Nat)}
    (h1 : ∀ b, G b = some l → h' b = none) (h2 : ∀ b, G b ≠ some l → h' b = nodes s.mem b) {o : Obj} {n : Nat}
    (hx : ∀ G', (∀ b, G' b ≠ some l) → Holds text ⟨s.ch, upd s.obj l o, setNodes s.mem h', n⟩ G' l x') :
    ∃ G', Inv text ⟨s.ch, upd s.obj l o, setNodes s.mem h', n⟩ L (upd A l (some x')) G' :=
  I.tree hl (own' := fun _ => False) (fun b hb => (T.alloc hb).2) (fun b h _ => h2 b h) (fun b hb => hb.elim) (fun b hb => hb.elim)
    (fun b h _ => h1 b h) ⟨[], fun b hb => hb.elim⟩ (fun G' hG' => hx G' fun b => (hG' b).1)

theorem setClear_ok (I : Inv text s L A G) {pol : Policy} (hp : A p = some (.set pol cmp xs)) :
    ∃ s' G' ks, setClear s p = .ok (s', ks) ∧ ks.Perm (if pol = .noop then [] else xs) ∧
      Inv text s' L (upd A p (some (.set pol cmp []))) G' := by
  obtain ⟨ho, hl, root, hobj, T⟩ := I.holds p _ hp
  obtain ⟨h', ks, e, hks, h1, h2, _⟩ := treeDestroy_ok T hl
  obtain ⟨G', I'⟩ := I.cleared hp T h1 h2 (o := .set pol cmp 0) (n := s.n) (x' := .set pol cmp [])
    (fun G' hG' => ⟨ho, by simp, 0, upd_same .., TreeIn.nil _ _ _ hG'⟩)
  refine ⟨_, G', if pol = .noop then [] else ks, ?_, ?_, I'⟩
  · simp only [setClear, I.getObj hp, Res.bind_ok, hobj, e]
  · split
    · exact List.Perm.refl _
    · exact hks

theorem setDel_ok (I : Inv text s L A G) {pol : Policy} (hp : A p = some (.set pol cmp xs)) :
    (xs = [] → ∃ s' G', setDel s p = .ok s' ∧ Inv text s' (L.erase p) (upd A p none) G') ∧ (xs ≠ [] → setDel s p = .ub) := by
  obtain ⟨ho, hl, root, hobj, T⟩ := I.holds p _ hp
  constructor
  · intro h
    obtain ⟨s', G', e, I', _⟩ := treeFree_ok I hp T hl
    refine ⟨s', G', ?_, I'⟩
    simp only [setDel, I.getObj hp, Res.bind_ok, hobj, T.root_nil.2 h, if_true, setFree]
    rw [← T.root_nil.2 h]
    exact e
  · intro h
    simp only [setDel, I.getObj hp, Res.bind_ok, hobj, mt T.root_nil.1 h, if_false]

end Verif.Own
