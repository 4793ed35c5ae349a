import Verif.Rc.MapRc

/-! # The reference counts of the keys and values of maps (C102) -/

namespace Verif.Rc.MapProps
open Verif.Chain (upd)
open Verif.Rc.Props

/-! ## counting before the pointers are written -/

/-- the counts are those of the graph `s`, whatever pointers are written in memory -/
def W (s : Spec) (h : RHeap) : Prop := Rel s { h with kids := s.kids }

theorem upd_self {α : Type} (f : Nat → α) (y : Nat) : upd f y (f y) = f := by
  funext z; by_cases h : z = y <;> simp [upd, h]

theorem upd_upd {α : Type} (f : Nat → α) (y : Nat) (a b : α) : upd (upd f y a) y b = upd f y b := by
  funext z; by_cases h : z = y <;> simp [upd, h]

theorem W.of {s : Spec} {h : RHeap} (R : Rel s h) : W s h := by
  have : ({ h with kids := s.kids } : RHeap) = h := by rw [← R.kids]
  rw [W, this]; exact R

theorem W.to {s : Spec} {h : RHeap} (w : W s h) (hk : h.kids = s.kids) : Rel s h := by
  have : ({ h with kids := s.kids } : RHeap) = h := by rw [← hk]
  rw [W, this] at w; exact w

theorem W.live {s : Spec} {h : RHeap} (w : W s h) (x : Nat) : h.live x = true ↔ x ∈ s.D := Rel.live w x

/-- the order of the pointers in a block does not matter -/
theorem W.perm {s : Spec} {h : RHeap} (w : W s h) {y : Nat} {es : List Edge} (hp : (s.kids y).Perm es) :
    W { s with kids := upd s.kids y es } h := by
  have hr : ∀ pol x, refs (upd s.kids y es) s.D pol x = refs s.kids s.D pol x := by
    intro pol x
    unfold refs
    congr 1
    apply List.map_congr_left
    intro z _
    by_cases hz : z = y
    · subst hz; simp only [upd, if_true]; exact (hp.count_eq _).symm
    · simp [upd, hz]
  have hpt : ∀ z x, Pts (upd s.kids y es) z x → Pts s.kids z x := by
    rintro z x ⟨pol, hn, hm⟩
    refine ⟨pol, hn, ?_⟩
    by_cases hz : z = y
    · subst hz; simp only [upd, if_true] at hm; exact hp.mem_iff.2 hm
    · simpa [upd, hz] using hm
  refine ⟨rfl, w.nodup, w.live, fun z hz x hx => w.tgt z hz x (hpt z x hx), w.ext, ?_, ?_, ?_⟩
  · intro x hx
    have := Rel.deg w x hx
    simpa [Spec.rc, hr] using this
  · intro x hx
    have := w.own x hx
    simpa [Spec.own, hr] using this
  · intro x hx hh
    have := w.excl x hx hh
    simpa [Spec.rc, hr] using this

theorem decrIndegree_kids {h h' : RHeap} {e : Edge} (he : decrIndegree h e = .ok h')
    (k : Nat → List Edge) : decrIndegree { h with kids := k } e = .ok { h' with kids := k } := by
  obtain ⟨pol, p⟩ := e
  cases pol <;> cases p <;> simp only [decrIndegree, decrRc, release] at he ⊢
  · cases he
  · split at he
    · next hl =>
      rw [if_pos hl]
      split at he
      · next hr => rw [if_pos hr]; cases he; rfl
      · next hr =>
        rw [if_neg hr]
        split at he
        · next hd => rw [if_pos hd]; cases he; rfl
        · next hd => rw [if_neg hd]; cases he; rfl
    · cases he
  · cases he
  · split at he
    · next hl =>
      rw [if_pos hl]
      split at he
      · next hr => rw [if_pos hr]; cases he; rfl
      · cases he
    · cases he
  · cases he; rfl
  · cases he; rfl

theorem incr_frame {h h' : RHeap} {e : Edge} (he : incrIndegree h e = .ok h') :
    h'.kids = h.kids ∧ h'.live = h.live := by
  obtain ⟨pol, p⟩ := e
  cases pol <;> cases p <;> simp only [incrIndegree, incrRc, retain] at he
  · cases he
  · split at he
    · split at he <;> cases he <;> exact ⟨rfl, rfl⟩
    · cases he
  · cases he
  · split at he
    · cases he; exact ⟨rfl, rfl⟩
    · cases he
  · cases he; exact ⟨rfl, rfl⟩
  · cases he; exact ⟨rfl, rfl⟩

theorem decr_frame {h h' : RHeap} {e : Edge} (he : decrIndegree h e = .ok h') :
    h'.kids = h.kids ∧ h'.live = h.live := by
  obtain ⟨pol, p⟩ := e
  cases pol <;> cases p <;> simp only [decrIndegree, decrRc, release] at he
  · cases he
  · split at he
    · split at he
      · cases he; exact ⟨rfl, rfl⟩
      · split at he <;> cases he <;> exact ⟨rfl, rfl⟩
    · cases he
  · cases he
  · split at he
    · split at he
      · cases he; exact ⟨rfl, rfl⟩
      · cases he
    · cases he
  · cases he; exact ⟨rfl, rfl⟩
  · cases he; exact ⟨rfl, rfl⟩

/-- counting a new pointer -/
theorem W.incr {s : Spec} {h : RHeap} (w : W s h) {y : Nat} (hy : y ∈ s.D) {e : Edge} (he : OkEdge s e) :
    ∃ h', incrIndegree h e = .ok h' ∧ W (addEdge s y e) h' := by
  obtain ⟨h', e', R⟩ := append_spec w hy he
  have hl : h.live y = true := (w.live y).2 hy
  rw [listAppend, if_pos (by exact hl)] at e'
  have e2 := incrIndegree_kids e' h.kids
  refine ⟨{ h' with kids := h.kids }, e2, ?_⟩
  have : ({ h' with kids := (addEdge s y e).kids } : RHeap) = h' := by rw [← R.kids]
  show Rel _ ({ h' with kids := (addEdge s y e).kids } : RHeap)
  rw [this]; exact R

/-- taking a pointer back -/
theorem W.decr {s : Spec} {h : RHeap} (w : W s h) {y : Nat} (hy : y ∈ s.D) {e : Edge} {es : List Edge}
    (hp : (s.kids y).Perm (e :: es)) (he : e.1 = .noop ∨ e.2 ≠ none) :
    ∃ h', decrIndegree h e = .ok h' ∧ W { s with kids := upd s.kids y es } h' := by
  have w1 := w.perm hp
  obtain ⟨h', e', R⟩ := remove_spec (y := y) (i := 0) (e := e) w1 hy (by simp [upd]) he
  have hl : h.live y = true := (w.live y).2 hy
  rw [listRemove, if_pos (by exact hl)] at e'
  have e0 : (upd s.kids y (e :: es) y)[0]? = some e := by simp [upd]
  simp only [e0] at e'
  have e2 := decrIndegree_kids e' h.kids
  refine ⟨{ h' with kids := h.kids }, e2, ?_⟩
  have hk : upd (upd s.kids y (e :: es)) y ((upd s.kids y (e :: es) y).eraseIdx 0) = upd s.kids y es := by
    rw [upd_upd]; simp [upd]
  have hR : Rel { s with kids := upd s.kids y es } h' := by
    have R' := R
    simp only [hk] at R'
    exact R'
  have : ({ h' with kids := upd s.kids y es } : RHeap) = h' := by
    rw [show upd s.kids y es = h'.kids from hR.kids.symm]
  show Rel _ ({ h' with kids := upd s.kids y es } : RHeap)
  rw [this]; exact hR

/-- the new tuple holds the key for a while -/
theorem W.hold {s : Spec} {h : RHeap} (w : W s h) {b : Nat} (hb : b ∈ s.D) (ho : s.own b = 0)
    (hlt : s.rc b + 1 < 65536) : ∃ h', incrIndegree h (.rc, some b) = .ok h' ∧
      W { s with ext := upd s.ext b (s.ext b + 1) } h' := by
  obtain ⟨h', e, R⟩ := incr_spec w hb ho hlt
  have e2 := incrIndegree_kids e h.kids
  refine ⟨{ h' with kids := h.kids }, e2, ?_⟩
  have : ({ h' with kids := s.kids } : RHeap) = h' := by
    have := R.kids; rw [show s.kids = h'.kids from this.symm]
  show Rel _ ({ h' with kids := s.kids } : RHeap)
  rw [this]; exact R

/-! ## the specification: a graph of blocks, and the contents of the maps -/

/-- blocks, what they hold, what the program holds; which blocks are maps, and their contents -/
structure SM where
  s : Spec
  isMap : Nat → Bool
  maps : Nat → MapC

/-- a map holds each of its keys twice (once counted, for the order of the keys, and once under the policy for keys)
and each of its values under the policy for values -/
def SM.put (X : SM) (m : Nat) (c : MapC) : SM :=
  { X with s := { X.s with kids := upd X.s.kids m c.flat }, maps := upd X.maps m c }

open Classical in
/-- `k` disappears if nothing refers to it, and with it what nothing else refers to -/
noncomputable def letGo (s : Spec) (k : Nat) : Spec :=
  { s with D := s.D.filter (fun x => ¬ Unref s.kids s.D s.ext k x) }

inductive MOp where
  /-- an operation on blocks as in C21 -/
  | plain (op : Op)
  | mkMap (x : Nat) (kp vp : Policy)
  | add (m k : Nat) (v : Ptr)
  | remove (m k : Nat)
  | rename (m k k' : Nat)

/-- the value of a key, if the map has it -/
def look (eqv : Nat → Nat → Bool) (c : MapC) (k : Nat) : Option Ptr := (c.pairs.find? (fun p => eqv k p.1)).map (·.2)

/-- Adding a value: a new key is held from now on; for a key that the map has, the value is replaced, and the key
given goes, if nothing else refers to it. -/
noncomputable def stepAdd (eqv : Nat → Nat → Bool) (X : SM) (m k : Nat) (v : Ptr) : SM :=
  let c := X.maps m
  if (look eqv c k).isSome then
    let X' := X.put m { c with pairs := c.pairs.map (fun p => if eqv k p.1 then (p.1, v) else p) }
    if c.kp = .rc then { X' with s := letGo X'.s k } else X'
  else X.put m { c with order := c.order ++ [k], pairs := c.pairs ++ [(k, v)] }

/-- Removing a key: the map holds neither the key nor the value any more; they stay. -/
def stepRemove (eqv : Nat → Nat → Bool) (X : SM) (m k : Nat) : SM :=
  let c := X.maps m
  if (look eqv c k).isSome then
    X.put m { c with order := c.order.filter (fun q => !eqv k q), pairs := c.pairs.filter (fun p => !eqv k p.1) }
  else X

noncomputable def mstep (eqv : Nat → Nat → Bool) (X : SM) : MOp → SM
  | .plain op =>
    { X with
      s := specStep X.s op
      isMap := match op with
        | .mk x => upd X.isMap x false
        | .mkTuple x _ => upd X.isMap x false
        | _ => X.isMap }
  | .mkMap x kp vp =>
    { s := mkBlock X.s x, isMap := upd X.isMap x true, maps := upd X.maps x ⟨kp, vp, [], []⟩ }
  | .add m k v => stepAdd eqv X m k v
  | .remove m k => stepRemove eqv X m k
  | .rename m k k' =>
    match look eqv (X.maps m) k with
    | some (some v) => stepAdd eqv (stepRemove eqv X m k) m k' (some v)
    | _ => stepRemove eqv X m k

/-- what may be added: the key and the value are live blocks that nobody owns (`OkEdge`; a value that is to be owned
has no references), fewer than 65536 references each; the value of a key that the map has is not given again -/
def OkAdd (eqv : Nat → Nat → Bool) (X : SM) (m k : Nat) (v : Ptr) : Prop :=
  m ∈ X.s.D ∧ X.isMap m = true ∧ k ∈ X.s.D ∧
  match look eqv (X.maps m) k with
  | none => OkEdges X.s m [((X.maps m).kp, some k), ((X.maps m).vp, v), (.rc, some k)]
  | some v0 =>
    OkEdge X.s ((X.maps m).kp, some k) ∧
    OkEdge (if (X.maps m).kp = .rc then { X.s with ext := upd X.s.ext k (X.s.ext k + 1) } else X.s)
      ((X.maps m).vp, v) ∧
    ((X.maps m).vp = .noop ∨ v ≠ v0)

def OkRemove (X : SM) (m k : Nat) : Prop := m ∈ X.s.D ∧ X.isMap m = true ∧ k ∈ X.s.D

def MOk (eqv : Nat → Nat → Bool) (X : SM) : MOp → Prop
  | .plain op => OkOp X.s op ∧
    match op with
    | .append y _ => X.isMap y = false
    | .remove y _ => X.isMap y = false
    | _ => True
  | .mkMap x kp _ => x ∉ X.s.D ∧ kp ≠ .del
  | .add m k v => OkAdd eqv X m k v
  | .remove m k => OkRemove X m k
  | .rename m k k' => OkRemove X m k ∧
    match look eqv (X.maps m) k with
    | some (some v) => OkAdd eqv (stepRemove eqv X m k) m k' (some v)
    | _ => True

def MLegal (eqv : Nat → Nat → Bool) (X : SM) : List MOp → Prop
  | [] => True
  | op :: ops => MOk eqv X op ∧ MLegal eqv (mstep eqv X op) ops

noncomputable def mrun (eqv : Nat → Nat → Bool) (X : SM) : List MOp → SM
  | [] => X
  | op :: ops => mrun eqv (mstep eqv X op) ops

/-- execution on the model -/
def mexec (eqv : Nat → Nat → Bool) (fuel : Nat) (H : MHeap) : MOp → Res (Option MHeap)
  | .plain op => (exec fuel H.h op).map fun r => r.map fun h => { H with h := h }
  | .mkMap x kp vp => .ok (some (mapMk H x kp vp))
  | .add m k v => (mapAdd eqv fuel H m (some k) v).map fun r => r.map (·.1)
  | .remove m k => (mapRemove eqv H m (some k)).map fun r => some r.1
  | .rename m k k' => (mapRename eqv fuel H m (some k) (some k')).map fun r => r.map (·.1)

def mexecAll (eqv : Nat → Nat → Bool) (fuel : Nat) (H : MHeap) : List MOp → Res (Option MHeap)
  | [] => .ok (some H)
  | op :: ops =>
    match mexec eqv fuel H op with
    | .ok (some H) => mexecAll eqv fuel H ops
    | .ok none => .ok none
    | .ub => .ub
    | .segv => .segv

/-! ## proofs -/

/-- equal keys -/
structure Eqv (eqv : Nat → Nat → Bool) : Prop where
  refl : ∀ a, eqv a a = true
  symm : ∀ a b, eqv a b = true → eqv b a = true
  trans : ∀ a b c, eqv a b = true → eqv b c = true → eqv a c = true

/-- the map with the contents `c` at `m` -/
structure Wf (eqv : Nat → Nat → Bool) (s : Spec) (m : Nat) (c : MapC) : Prop where
  kids : s.kids m = c.flat
  kp : c.kp ≠ .del
  vals : ∀ p ∈ c.pairs, c.vp = .noop ∨ p.2 ≠ none
  perm : (c.pairs.map (·.1)).Perm c.order
  dist : c.pairs.Pairwise (fun p q => eqv p.1 q.1 = false)

structure Good (eqv : Nat → Nat → Bool) (X : SM) (H : MHeap) : Prop where
  rel : Rel X.s H.h
  maps : H.maps = X.maps
  wf : ∀ m ∈ X.s.D, X.isMap m = true → Wf eqv X.s m (X.maps m)

theorem findPair_none {eqv : Nat → Nat → Bool} {k : Nat} {l : List (Nat × Ptr)} :
    findPair eqv k l = none ↔ l.find? (fun p => eqv k p.1) = none := by
  induction l with
  | nil => simp [findPair]
  | cons p l ih =>
    rw [findPair, List.find?_cons]
    cases h : eqv k p.1
    · simpa using ih
    · simp

theorem findPair_some {eqv : Nat → Nat → Bool} {k : Nat} {l : List (Nat × Ptr)} :
    ∀ {a : List (Nat × Ptr)} {p : Nat × Ptr} {b : List (Nat × Ptr)}, findPair eqv k l = some (a, p, b) →
      l = a ++ p :: b ∧ eqv k p.1 = true ∧ (∀ q ∈ a, eqv k q.1 = false) ∧
      l.find? (fun p => eqv k p.1) = some p := by
  induction l with
  | nil => intro a p b h; cases h
  | cons q l ih =>
    intro a p b h
    rw [findPair] at h
    rw [List.find?_cons]
    cases hq : eqv k q.1
    · rw [hq] at h
      simp only [Bool.false_eq_true, if_false, Option.map_eq_some_iff] at h
      obtain ⟨⟨a', p', b'⟩, h1, h2⟩ := h
      cases h2
      obtain ⟨e1, e2, e3, e4⟩ := ih h1
      refine ⟨by rw [e1]; rfl, e2, ?_, e4⟩
      intro z hz
      rcases List.mem_cons.1 hz with rfl | hz
      · exact hq
      · exact e3 z hz
    · rw [hq] at h
      simp only [if_true, Option.some.injEq, Prod.mk.injEq] at h
      obtain ⟨rfl, rfl, rfl⟩ := h
      exact ⟨rfl, hq, by simp, by simp⟩

theorem findKey_spec {eqv : Nat → Nat → Bool} {k : Nat} {l : List Nat} (h : ∃ q ∈ l, eqv k q = true) :
    ∃ a q b, findKey eqv k l = some (a, q, b) ∧ l = a ++ q :: b ∧ eqv k q = true ∧ ∀ z ∈ a, eqv k z = false := by
  induction l with
  | nil => obtain ⟨q, hq, -⟩ := h; cases hq
  | cons p l ih =>
    rw [findKey]
    cases hp : eqv k p
    · obtain ⟨q, hq, hk⟩ := h
      rcases List.mem_cons.1 hq with rfl | hq
      · rw [hp] at hk; cases hk
      · obtain ⟨a, q, b, e1, e2, e3, e4⟩ := ih ⟨q, hq, hk⟩
        refine ⟨p :: a, q, b, by rw [e1]; rfl, by rw [e2]; rfl, e3, ?_⟩
        intro z hz
        rcases List.mem_cons.1 hz with rfl | hz
        · exact hp
        · exact e4 z hz
    · exact ⟨[], p, l, by simp, rfl, hp, by simp⟩

section
variable {eqv : Nat → Nat → Bool} (E : Eqv eqv)
include E

theorem after_pair {k : Nat} {a : List (Nat × Ptr)} {p : Nat × Ptr} {b : List (Nat × Ptr)}
    (hd : (a ++ p :: b).Pairwise (fun p q => eqv p.1 q.1 = false)) (hp : eqv k p.1 = true) :
    ∀ q ∈ b, eqv k q.1 = false := by
  intro q hq
  have h1 := (List.pairwise_cons.1 (List.pairwise_append.1 hd).2.1).1 q hq
  cases h : eqv k q.1
  · rfl
  · rw [E.trans _ _ _ (E.symm _ _ hp) h] at h1; cases h1

theorem order_dist {c : MapC} (hp : (c.pairs.map (·.1)).Perm c.order)
    (hd : c.pairs.Pairwise (fun p q => eqv p.1 q.1 = false)) : c.order.Pairwise (fun p q => eqv p q = false) := by
  refine (hp.pairwise_iff ?_).1 (List.pairwise_map.2 hd)
  intro x y h
  cases h' : eqv y x
  · rfl
  · rw [E.symm _ _ h'] at h; cases h

theorem after_key {k : Nat} {a : List Nat} {q : Nat} {b : List Nat}
    (hd : (a ++ q :: b).Pairwise (fun p q => eqv p q = false)) (hp : eqv k q = true) :
    ∀ z ∈ b, eqv k z = false := by
  intro z hz
  have h1 := (List.pairwise_cons.1 (List.pairwise_append.1 hd).2.1).1 z hz
  cases h : eqv k z
  · rfl
  · rw [E.trans _ _ _ (E.symm _ _ hp) h] at h1; cases h1

end

theorem map_off {α : Type} (l : List α) (c : α → Bool) (f : α → α) (h : ∀ x ∈ l, c x = false) :
    l.map (fun x => if c x then f x else x) = l := by
  induction l with
  | nil => rfl
  | cons x l ih => rw [List.map_cons, h x (by simp), ih fun y hy => h y (by simp [hy])]; simp

theorem filter_off {α : Type} (l : List α) (c : α → Bool) (h : ∀ x ∈ l, c x = false) :
    l.filter (fun x => !c x) = l := by
  rw [List.filter_eq_self]
  intro x hx; rw [h x hx]; rfl

theorem Wf.pts {eqv : Nat → Nat → Bool} {s : Spec} {m : Nat} {c : MapC} (w : Wf eqv s m c) {k : Nat}
    (hk : k ∈ c.order) : Pts s.kids m k := by
  refine ⟨.rc, by simp, ?_⟩
  rw [w.kids, MapC.flat, List.mem_append]
  left
  exact List.mem_map.2 ⟨k, hk, rfl⟩

theorem readable_of {eqv : Nat → Nat → Bool} {X : SM} {H : MHeap} {h : RHeap} {m k : Nat}
    (w : Wf eqv X.s m (X.maps m)) (hM : H.maps = X.maps) (R : Rel X.s H.h) (hl : h.live = H.h.live)
    (hm : m ∈ X.s.D) (hk : k ∈ X.s.D) : readable { H with h := h } m k = true := by
  have ho : ∀ q ∈ (X.maps m).order, H.h.live q = true := fun q hq =>
    (R.live q).2 (R.tgt m hm q (w.pts hq))
  have hp : ∀ p ∈ (X.maps m).pairs, H.h.live p.1 = true := fun p hp =>
    ho p.1 (w.perm.mem_iff.1 (List.mem_map.2 ⟨p, hp, rfl⟩))
  simp only [readable, hM, hl, (R.live m).2 hm, (R.live k).2 hk, Bool.true_and, Bool.true_or, Bool.and_eq_true,
    List.all_eq_true, Bool.or_eq_true]
  exact ⟨fun p h => .inl (hp p h), fun q h => .inl (ho q h)⟩

/-- the pointers of a map with one more pair -/
theorem flat_append (c : MapC) (k : Nat) (v : Ptr) :
    (c.flat ++ [(c.kp, some k)] ++ [(c.vp, v)] ++ [(Policy.rc, some k)]).Perm
      ({ c with order := c.order ++ [k], pairs := c.pairs ++ [(k, v)] } : MapC).flat := by
  simp only [MapC.flat, List.map_append, List.map_cons, List.map_nil, List.flatMap_append, List.flatMap_cons,
    List.flatMap_nil, List.append_assoc, List.append_nil]
  rw [List.perm_iff_count]
  intro e
  simp only [List.count_append, List.count_cons, List.count_nil]
  omega

/-- the pointers of a map when a value is replaced -/
theorem flat_replace (c : MapC) (a b : List (Nat × Ptr)) (p : Nat × Ptr) (v : Ptr) (h : c.pairs = a ++ p :: b) :
    (c.flat ++ [(c.vp, v)]).Perm ((c.vp, p.2) :: ({ c with pairs := a ++ (p.1, v) :: b } : MapC).flat) := by
  simp only [MapC.flat, h, List.flatMap_append, List.flatMap_cons, List.append_assoc, List.cons_append,
    List.nil_append]
  rw [List.perm_iff_count]
  intro e
  simp only [List.count_append, List.count_cons, List.count_nil]
  omega

/-- the pointers of a map when a pair is removed -/
theorem flat_remove (c : MapC) (a b : List (Nat × Ptr)) (p : Nat × Ptr) (h : c.pairs = a ++ p :: b) :
    c.flat.Perm ((c.kp, some p.1) :: (c.vp, p.2) :: ({ c with pairs := a ++ b } : MapC).flat) := by
  simp only [MapC.flat, h, List.flatMap_append, List.flatMap_cons, List.append_assoc, List.cons_append,
    List.nil_append]
  rw [List.perm_iff_count]
  intro e
  simp only [List.count_append, List.count_cons]
  omega

theorem flat_order (c : MapC) (a b : List Nat) (q : Nat) (h : c.order = a ++ q :: b) :
    c.flat.Perm ((.rc, some q) :: ({ c with order := a ++ b } : MapC).flat) := by
  simp only [MapC.flat, h, List.map_append, List.map_cons, List.append_assoc, List.cons_append]
  rw [List.perm_iff_count]
  intro e
  simp only [List.count_append, List.count_cons]
  omega

/-! ### frames -/

theorem put_D (X : SM) (m : Nat) (c : MapC) : (X.put m c).s.D = X.s.D := rfl

theorem Wf.frame {eqv : Nat → Nat → Bool} {s s' : Spec} {m : Nat} {c : MapC} (w : Wf eqv s m c)
    (h : s'.kids m = s.kids m) : Wf eqv s' m c := ⟨h.trans w.kids, w.kp, w.vals, w.perm, w.dist⟩

theorem Good.put {eqv : Nat → Nat → Bool} {X : SM} {H : MHeap} (G : Good eqv X H) {m : Nat} {c : MapC} {h : RHeap}
    (R : Rel (X.put m c).s h) (hk : c.kp ≠ .del) (hv : ∀ p ∈ c.pairs, c.vp = .noop ∨ p.2 ≠ none)
    (hp : (c.pairs.map (·.1)).Perm c.order) (hd : c.pairs.Pairwise (fun p q => eqv p.1 q.1 = false)) :
    Good eqv (X.put m c) { H with h := h, maps := upd H.maps m c } := by
  refine ⟨R, by rw [G.maps]; rfl, ?_⟩
  intro z hz hzm
  by_cases h : z = m
  · subst h
    have e : (X.put z c).maps z = c := by simp [SM.put, upd]
    rw [e]
    exact ⟨by simp [SM.put, upd], hk, hv, hp, hd⟩
  · have e : (X.put m c).maps z = X.maps z := by simp [SM.put, upd, h]
    rw [e]
    exact (G.wf z hz hzm).frame (by simp [SM.put, upd, h])

/-- `Rel` after the pointers have been written -/
theorem W.put {X : SM} {h : RHeap} {m : Nat} {c : MapC} {K : Nat → List Edge} (w : W (X.put m c).s h)
    (hK : h.kids = K) (h2 : K = upd X.s.kids m c.flat) : Rel (X.put m c).s h :=
  w.to (by rw [hK, h2]; rfl)

section
variable {eqv : Nat → Nat → Bool} (E : Eqv eqv)
include E

theorem put_fresh {X : SM} {H : MHeap} (G : Good eqv X H) {m k : Nat} {v : Ptr} (hm : m ∈ X.s.D) (hM : X.isMap m = true)
    (hk : k ∈ X.s.D) (hn : look eqv (X.maps m) k = none) (hv : (X.maps m).vp = .noop ∨ v ≠ none) {h2 : RHeap}
    (w2 : W (addEdge (addEdge X.s m ((X.maps m).kp, some k)) m ((X.maps m).vp, v)) h2)
    (o3 : OkEdge (addEdge (addEdge X.s m ((X.maps m).kp, some k)) m ((X.maps m).vp, v)) (.rc, some k))
    (hK2 : h2.kids = H.h.kids) (hL2 : h2.live = H.h.live) (fuel : Nat) (merge : Option (Ptr → Ptr → Ptr)) :
    ∃ H', mapPut eqv fuel { H with h := h2 } m k v merge = .ok (some (H', none)) ∧ Good eqv (stepAdd eqv X m k v) H' := by
  have wf := G.wf m hm hM
  obtain ⟨h3, e3, w3⟩ := w2.incr (y := m) hm o3
  have f3 := incr_frame e3
  have hf : findPair eqv k (X.maps m).pairs = none := by
    rw [findPair_none]; simpa [look] using hn
  have hrd : readable { H with h := h2 } m k = true :=
    readable_of wf G.maps G.rel hL2 hm hk
  generalize hc' : ({ X.maps m with order := (X.maps m).order ++ [k], pairs := (X.maps m).pairs ++ [(k, v)] } : MapC) = c'
  have hstep : stepAdd eqv X m k v = X.put m c' := by
    rw [← hc']; simp [stepAdd, hn]
  have e3' := incrIndegree_kids e3 (upd H.h.kids m c'.flat)
  have hK : (upd h2.kids m c'.flat) = upd H.h.kids m c'.flat := by rw [hK2]
  refine ⟨{ H with h := { h3 with kids := upd H.h.kids m c'.flat }, maps := upd H.maps m c' }, ?_, ?_⟩
  · simp only [mapPut, G.maps]
    rw [G.maps] at hrd
    rw [if_pos hrd, hf]
    simp only [hc', MHeap.put, hK, e3', Res.map_ok']
  · rw [hstep]
    have hw := w3.perm (y := m) (es := c'.flat) (by
      have := flat_append (X.maps m) k v
      rw [hc'] at this
      simpa [addEdge, upd, wf.kids] using this)
    have hR : Rel (X.put m c').s { h3 with kids := upd H.h.kids m c'.flat } := by
      have e : (⟨X.s.D, upd X.s.kids m c'.flat, X.s.ext⟩ : Spec) =
          { addEdge (addEdge (addEdge X.s m ((X.maps m).kp, some k)) m ((X.maps m).vp, v)) m (.rc, some k) with
            kids := upd (addEdge (addEdge (addEdge X.s m ((X.maps m).kp, some k)) m ((X.maps m).vp, v)) m
              (.rc, some k)).kids m c'.flat } := by
        simp only [addEdge, upd_upd]
      show Rel ⟨X.s.D, upd X.s.kids m c'.flat, X.s.ext⟩ _
      rw [G.rel.kids, e]
      have := hw
      rw [W] at this
      simp only [addEdge, upd_upd] at this ⊢
      exact this
    refine G.put hR ?_ ?_ ?_ ?_
    · rw [← hc']; exact wf.kp
    · rw [← hc']
      intro p hp
      rcases List.mem_append.1 hp with hp | hp
      · exact wf.vals p hp
      · rw [List.mem_singleton] at hp
        subst hp
        exact hv
    · rw [← hc']
      simpa using wf.perm.append_right [k]
    · rw [← hc']
      refine List.pairwise_append.2 ⟨wf.dist, List.pairwise_singleton _ _, ?_⟩
      intro p hp q hq
      rw [List.mem_singleton] at hq
      subst hq
      have h1 : (X.maps m).pairs.find? (fun p => eqv k p.1) = none := by simpa [look] using hn
      have h0 := List.find?_eq_none.1 h1 p hp
      cases h : eqv p.1 k
      · rfl
      · exact absurd (E.symm _ _ h) (by simpa using h0)

omit E in
theorem edge_val {s : Spec} {pol : Policy} {v : Ptr} (o : OkEdge s (pol, v)) : pol = .noop ∨ v ≠ none := by
  cases pol
  · right; rintro rfl; exact o
  · right; rintro rfl; exact o
  · left; rfl

theorem add_fresh {X : SM} {H : MHeap} (G : Good eqv X H) {m k : Nat} {v : Ptr} (ok : OkAdd eqv X m k v)
    (hn : look eqv (X.maps m) k = none) (fuel : Nat) (merge : Option (Ptr → Ptr → Ptr)) :
    ∃ H', mapAddE eqv fuel H m (some k) v merge = .ok (some (H', none)) ∧ Good eqv (stepAdd eqv X m k v) H' := by
  obtain ⟨hm, hM, hk, ok⟩ := ok
  rw [hn] at ok
  obtain ⟨o1, o2, o3, -⟩ := ok
  obtain ⟨h1, e1, w1⟩ := (W.of G.rel).incr hm o1
  obtain ⟨h2, e2, w2⟩ := w1.incr (y := m) hm o2
  have f1 := incr_frame e1
  have f2 := incr_frame e2
  obtain ⟨H', e, G'⟩ := put_fresh E G hm hM hk hn (edge_val o2) w2 o3 (by rw [f2.1, f1.1]) (by rw [f2.2, f1.2]) fuel merge
  refine ⟨H', ?_, G'⟩
  simp only [mapAddE, (G.rel.live m).2 hm, if_true, G.maps, e1, Res.bind_ok, e2]
  rw [G.maps] at e
  exact e

/-- the contents after a value is replaced, by the loop and by the search -/
theorem replaced {l a b : List (Nat × Ptr)} {p : Nat × Ptr} {k : Nat} (v : Ptr) (hl : l = a ++ p :: b)
    (hp : eqv k p.1 = true) (ha : ∀ q ∈ a, eqv k q.1 = false)
    (hd : l.Pairwise (fun p q => eqv p.1 q.1 = false)) :
    l.map (fun p => if eqv k p.1 then (p.1, v) else p) = a ++ (p.1, v) :: b := by
  subst hl
  have hb := after_pair E hd hp
  rw [List.map_append, List.map_cons, hp, map_off a (fun p => eqv k p.1) (fun p => (p.1, v)) ha,
    map_off b (fun p => eqv k p.1) (fun p => (p.1, v)) hb]
  simp

theorem removed {l a b : List (Nat × Ptr)} {p : Nat × Ptr} {k : Nat} (hl : l = a ++ p :: b)
    (hp : eqv k p.1 = true) (ha : ∀ q ∈ a, eqv k q.1 = false)
    (hd : l.Pairwise (fun p q => eqv p.1 q.1 = false)) :
    l.filter (fun p => !eqv k p.1) = a ++ b := by
  subst hl
  have hb := after_pair E hd hp
  rw [List.filter_append, List.filter_cons, hp, filter_off a (fun p => eqv k p.1) ha,
    filter_off b (fun p => eqv k p.1) hb]
  simp

theorem removed_key {l a b : List Nat} {q : Nat} {k : Nat} (hl : l = a ++ q :: b)
    (hp : eqv k q = true) (ha : ∀ q ∈ a, eqv k q = false) (hd : l.Pairwise (fun p q => eqv p q = false)) :
    l.filter (fun p => !eqv k p) = a ++ b := by
  subst hl
  have hb := after_key E hd hp
  rw [List.filter_append, List.filter_cons, hp, filter_off a (fun p => eqv k p) ha,
    filter_off b (fun p => eqv k p) hb]
  simp

theorem look_some {c : MapC} {k : Nat} {v0 : Ptr} (h : look eqv c k = some v0) :
    ∃ a p b, findPair eqv k c.pairs = some (a, p, b) ∧ p.2 = v0 := by
  cases hf : findPair eqv k c.pairs with
  | none => rw [look, findPair_none.1 hf] at h; cases h
  | some r =>
    obtain ⟨a, p, b⟩ := r
    refine ⟨a, p, b, rfl, ?_⟩
    rw [look, (findPair_some hf).2.2.2] at h
    simpa using h

/-- dropping the pointer of the new tuple to the key given -/
theorem letGo_spec {s : Spec} {h : RHeap} {k : Nat} (w : W { s with ext := upd s.ext k (s.ext k + 1) } h)
    (hk : k ∈ s.D) (hK : h.kids = s.kids) {fuel : Nat} (hf : s.D.length ≤ fuel) :
    ∃ h', delRefWith (traceDel fuel) h (some k) = .ok (some h') ∧ Rel (letGo s k) h' := by
  have R : Rel { s with ext := upd s.ext k (s.ext k + 1) } h := w.to hK
  obtain ⟨h', e, R'⟩ := (drop_spec R (a := k) hk hf).1 (by simp [upd])
  refine ⟨h', e, ?_⟩
  have : ({ s with ext := upd s.ext k (s.ext k + 1) } : Spec).drop k = letGo s k := by
    have e : upd (upd s.ext k (s.ext k + 1)) k (upd s.ext k (s.ext k + 1) k - 1) = s.ext := by
      rw [upd_upd]; simp [upd_self, show upd s.ext k (s.ext k + 1) k = s.ext k + 1 by simp [upd]]
    have key : ∀ x : Nat → Nat, x = s.ext → open Classical in
        ({ s with D := s.D.filter (fun y => ¬ Unref s.kids s.D x k y), ext := x } : Spec) = letGo s k := by
      rintro _ rfl; rfl
    exact key _ e
  rw [← this]; exact R'

/-- the blocks while the new tuple holds the key -/
def held (X : SM) (m k : Nat) : Spec :=
  if (X.maps m).kp = .rc then { X.s with ext := upd X.s.ext k (X.s.ext k + 1) } else X.s

theorem put_over {X : SM} {H : MHeap} (G : Good eqv X H) {m k : Nat} {v v0 : Ptr} (hm : m ∈ X.s.D) (hM : X.isMap m = true)
    (hk : k ∈ X.s.D) (hn : look eqv (X.maps m) k = some v0) (hval : (X.maps m).vp = .noop ∨ v ≠ none) {h2 : RHeap}
    (w2 : W (addEdge (held X m k) m ((X.maps m).vp, v)) h2) (w1 : v = v0 → W (held X m k) h2)
    (hK2 : h2.kids = H.h.kids) (hL2 : h2.live = H.h.live) {fuel : Nat} (hf : X.s.D.length ≤ fuel) :
    ∃ H', mapPut eqv fuel { H with h := h2 } m k v none = .ok (some (H', v0)) ∧ Good eqv (stepAdd eqv X m k v) H' := by
  have wf := G.wf m hm hM
  obtain ⟨a, p, b, hfp, rfl⟩ := look_some E hn
  obtain ⟨hl, hkp, ha, hfd⟩ := findPair_some hfp
  obtain ⟨s1, hs1⟩ : ∃ s1 : Spec, s1 = held X m k := ⟨_, rfl⟩
  rw [← hs1] at w1 w2
  rw [held] at hs1
  generalize hc : X.maps m = c at *
  generalize hc' : ({ c with pairs := a ++ (p.1, v) :: b } : MapC) = c'
  have hkp' : c'.kp = c.kp := by rw [← hc']
  have hstep : stepAdd eqv X m k v =
      if c.kp = .rc then { X.put m c' with s := letGo (X.put m c').s k } else X.put m c' := by
    simp only [stepAdd, hc, hn, Option.isSome_some, if_true, replaced E v hl hkp ha wf.dist, hc']
  have hs1D : s1.D = X.s.D := by rw [hs1]; split <;> rfl
  have hs1K : s1.kids = X.s.kids := by rw [hs1]; split <;> rfl
  have hrd : readable { H with h := h2 } m k = true :=
    readable_of (by rw [hc]; exact wf) G.maps G.rel hL2 hm hk
  -- the value is replaced
  obtain ⟨H3, e3, w3, k3, m3⟩ : ∃ H3 : MHeap, (if v ≠ p.2 then
      (decrIndegree ((MHeap.put { H with h := h2 } m c').h) (c.vp, p.2)).map
        fun h => { MHeap.put { H with h := h2 } m c' with h := h }
      else .ok { H with h := h2 }) = .ok H3 ∧ W { s1 with kids := upd s1.kids m c'.flat } H3.h ∧
      H3.h.kids = upd X.s.kids m c'.flat ∧ H3 = { H with h := H3.h, maps := upd X.maps m c' } := by
    by_cases hv : v = p.2
    · have w1 := w1 hv
      have hcc : c' = c := by
        rw [← hc', hv]
        show ({ c with pairs := a ++ p :: b } : MapC) = c
        rw [← hl]
      have hkk : upd s1.kids m c'.flat = s1.kids := by
        rw [hcc, ← wf.kids, ← hs1K, upd_self]
      refine ⟨{ H with h := h2 }, by rw [if_neg (by simp [hv])], ?_, ?_, ?_⟩
      · rw [hkk]; exact w1
      · show h2.kids = _
        rw [hK2, G.rel.kids, ← hs1K, hkk]
      · rw [hcc, ← hc, upd_self, ← G.maps]
    · have hp2 : c.vp = .noop ∨ p.2 ≠ none := wf.vals p (by rw [hl]; simp)
      obtain ⟨h3, e3, w3⟩ := w2.decr (y := m) (by rw [show (addEdge s1 m (c.vp, v)).D = s1.D from rfl, hs1D]; exact hm)
        (e := (c.vp, p.2)) (es := c'.flat) (by
          have := flat_replace c a b p v hl
          rw [hc'] at this
          simpa [addEdge, upd, hs1K, wf.kids] using this) hp2
      have e3' := decrIndegree_kids e3 (upd h2.kids m c'.flat)
      refine ⟨{ H with h := { h3 with kids := upd h2.kids m c'.flat }, maps := upd H.maps m c' }, ?_, ?_, ?_, ?_⟩
      · rw [if_pos hv]
        simp only [MHeap.put, e3', Res.map_ok']
      · have := w3
        rw [W] at this ⊢
        simp only [addEdge, upd_upd] at this
        exact this
      · show upd h2.kids m c'.flat = _
        rw [hK2, G.rel.kids]
      · rw [G.maps]
  have hwf : c'.kp ≠ .del ∧ (∀ p ∈ c'.pairs, c'.vp = .noop ∨ p.2 ≠ none) ∧ (c'.pairs.map (·.1)).Perm c'.order ∧
      c'.pairs.Pairwise (fun p q => eqv p.1 q.1 = false) := by
    have hkeys : (a ++ (p.1, v) :: b).map (·.1) = c.pairs.map (·.1) := by rw [hl]; simp
    rw [← hc']
    refine ⟨wf.kp, ?_, ?_, ?_⟩
    · intro q hq
      rcases List.mem_append.1 hq with hq | hq
      · exact wf.vals q (by rw [hl]; simp [hq])
      · rcases List.mem_cons.1 hq with rfl | hq
        · exact hval
        · exact wf.vals q (by rw [hl]; simp [hq])
    · show ((a ++ (p.1, v) :: b).map (·.1)).Perm c.order
      rw [hkeys]; exact wf.perm
    · have h0 : (c.pairs.map (·.1)).Pairwise (fun x y => eqv x y = false) := List.pairwise_map.2 wf.dist
      rw [← hkeys] at h0
      exact List.pairwise_map.1 h0
  -- the key goes
  obtain ⟨h4, e4, G4⟩ : ∃ h4, delE (traceDel fuel) H3.h (c.kp, some k) = .ok (some h4) ∧
      Good eqv (stepAdd eqv X m k v) { H3 with h := h4 } := by
    have hH3 : ∀ h4, ({ H3 with h := h4 } : MHeap) = { H with h := h4, maps := upd H.maps m c' } := by
      intro h4; rw [G.maps, m3]
    cases hcp : c.kp with
    | rc =>
      have w4 : W { (X.put m c').s with ext := upd (X.put m c').s.ext k ((X.put m c').s.ext k + 1) } H3.h := by
        have := w3
        rw [hs1, hcp] at this
        exact this
      obtain ⟨h4, e4, R4⟩ := letGo_spec E w4 hk k3 (fuel := fuel) hf
      refine ⟨h4, e4, ?_⟩
      rw [hstep, hcp, if_pos rfl, hH3]
      refine ⟨R4, by rw [G.maps]; rfl, ?_⟩
      intro z hz hzm
      have hz' : z ∈ X.s.D := (List.mem_filter.1 hz).1
      by_cases h : z = m
      · subst h
        have e : (X.put z c').maps z = c' := by simp [SM.put, upd]
        show Wf eqv _ z ((X.put z c').maps z)
        rw [e]
        exact ⟨by simp [letGo, SM.put, upd], hwf.1, hwf.2.1, hwf.2.2.1, hwf.2.2.2⟩
      · have e : (X.put m c').maps z = X.maps z := by simp [SM.put, upd, h]
        show Wf eqv _ z ((X.put m c').maps z)
        rw [e]
        exact (G.wf z hz' hzm).frame (by simp [letGo, SM.put, upd, h])
    | del => exact absurd hcp wf.kp
    | noop =>
      refine ⟨H3.h, rfl, ?_⟩
      rw [hstep, hcp, if_neg (by simp), hH3]
      refine G.put ?_ hwf.1 hwf.2.1 hwf.2.2.1 hwf.2.2.2
      have := w3
      rw [hs1, hcp] at this
      exact W.to (s := (X.put m c').s) this k3
  refine ⟨{ H3 with h := h4 }, ?_, G4⟩
  simp only [mapPut, G.maps, hc]
  rw [G.maps] at hrd e3
  rw [if_pos hrd, hfp]
  simp only [mapOver, hc, hc']
  simp only [hc'] at e3
  rw [e3, Res.bind_ok]
  simp only [e4]

theorem add_over {X : SM} {H : MHeap} (G : Good eqv X H) {m k : Nat} {v v0 : Ptr} (ok : OkAdd eqv X m k v)
    (hn : look eqv (X.maps m) k = some v0) {fuel : Nat} (hf : X.s.D.length ≤ fuel) :
    ∃ H', mapAdd eqv fuel H m (some k) v = .ok (some (H', v0)) ∧ Good eqv (stepAdd eqv X m k v) H' := by
  obtain ⟨hm, hM, hk, ok⟩ := ok
  rw [hn] at ok
  obtain ⟨o1, o2, o3⟩ := ok
  have wf := G.wf m hm hM
  have hD : (held X m k).D = X.s.D := by rw [held]; split <;> rfl
  obtain ⟨h1, e1, w1⟩ : ∃ h1, incrIndegree H.h ((X.maps m).kp, some k) = .ok h1 ∧ W (held X m k) h1 := by
    cases hcp : (X.maps m).kp with
    | rc =>
      rw [hcp] at o1
      obtain ⟨h1, e1, w1⟩ := (W.of G.rel).hold hk o1.2.1 o1.2.2
      exact ⟨h1, e1, by rw [held, hcp, if_pos rfl]; exact w1⟩
    | del => exact absurd hcp wf.kp
    | noop => exact ⟨H.h, rfl, by rw [held, hcp, if_neg (by simp)]; exact W.of G.rel⟩
  obtain ⟨h2, e2, w2⟩ := w1.incr (y := m) (by rw [hD]; exact hm) o2
  have f1 := incr_frame e1
  have f2 := incr_frame e2
  obtain ⟨H', e, G'⟩ := put_over E G hm hM hk hn (edge_val o2) w2 (fun hv => by
    have hvp : (X.maps m).vp = .noop := o3.resolve_right fun h => h hv
    rw [hvp] at e2
    cases e2; exact w1) (by rw [f2.1, f1.1]) (by rw [f2.2, f1.2]) hf
  refine ⟨H', ?_, G'⟩
  simp only [mapAdd, mapAddE, (G.rel.live m).2 hm, if_true, G.maps, e1, Res.bind_ok, e2]
  rw [G.maps] at e
  exact e

theorem add_spec {X : SM} {H : MHeap} (G : Good eqv X H) {m k : Nat} {v : Ptr} (ok : OkAdd eqv X m k v)
    {fuel : Nat} (hf : X.s.D.length ≤ fuel) :
    ∃ H', mapAdd eqv fuel H m (some k) v = .ok (some (H', (look eqv (X.maps m) k).getD none)) ∧
      Good eqv (stepAdd eqv X m k v) H' := by
  cases hn : look eqv (X.maps m) k with
  | none => exact add_fresh E G ok hn fuel none
  | some v0 => exact add_over E G ok hn hf

theorem rem_spec {X : SM} {H : MHeap} (G : Good eqv X H) {m k : Nat} (ok : OkRemove X m k) :
    ∃ H', mapRemove eqv H m (some k) = .ok (H', (look eqv (X.maps m) k).getD none) ∧
      Good eqv (stepRemove eqv X m k) H' := by
  obtain ⟨hm, hM, hk⟩ := ok
  have wf := G.wf m hm hM
  have hrd : readable H m k = true := readable_of (h := H.h) wf G.maps G.rel rfl hm hk
  cases hn : look eqv (X.maps m) k with
  | none =>
    refine ⟨H, ?_, by simpa [stepRemove, hn] using G⟩
    have hf : findPair eqv k (X.maps m).pairs = none := by
      rw [findPair_none]; simpa [look] using hn
    simp only [mapRemove, hrd, if_true, G.maps, hf]
    rfl
  | some v0 =>
    obtain ⟨a, p, b, hfp, rfl⟩ := look_some E hn
    obtain ⟨hl, hkp, ha, hfd⟩ := findPair_some hfp
    generalize hc : X.maps m = c at *
    have hod := order_dist E wf.perm wf.dist
    have hp1 : p.1 ∈ c.order := wf.perm.mem_iff.1 (by rw [hl]; simp)
    obtain ⟨a', q, b', hfk, hlo, hkq, ha'⟩ := findKey_spec (l := c.order) ⟨p.1, hp1, hkp⟩
    generalize hc1 : ({ c with pairs := a ++ b } : MapC) = c1
    generalize hc2 : ({ c1 with order := a' ++ b' } : MapC) = c2
    have hstep : stepRemove eqv X m k = X.put m c2 := by
      simp only [stepRemove, hc, hn, Option.isSome_some, if_true, removed E hl hkp ha wf.dist,
        removed_key E hlo hkq ha' hod]
      rw [← hc2, ← hc1]
    obtain ⟨h1, e1, w1⟩ := (W.of G.rel).decr hm (e := (c.kp, some p.1)) (es := (c.vp, p.2) :: c1.flat) (by
      rw [wf.kids, ← hc1]; exact flat_remove c a b p hl) (.inr (by simp))
    obtain ⟨h2, e2, w2⟩ := w1.decr (y := m) hm (e := (c.vp, p.2)) (es := c1.flat) (by simp [upd])
      (wf.vals p (by rw [hl]; simp))
    obtain ⟨h3, e3, w3⟩ := w2.decr (y := m) hm (e := (.rc, some q)) (es := c2.flat) (by
      have := flat_order c1 a' b' q (by rw [← hc1]; exact hlo)
      rw [hc2] at this
      simpa [upd] using this) (.inr (by simp))
    have f1 := decr_frame e1
    have f2 := decr_frame e2
    have f3 := decr_frame e3
    have e1' := decrIndegree_kids e1 (upd H.h.kids m c1.flat)
    have e2' := decrIndegree_kids e2 (upd H.h.kids m c1.flat)
    have e3' := decrIndegree_kids e3 (upd H.h.kids m c2.flat)
    refine ⟨{ H with h := { h3 with kids := upd H.h.kids m c2.flat }, maps := upd H.maps m c2 }, ?_, ?_⟩
    · have hc2' : (⟨c.kp, c.vp, a' ++ b', a ++ b⟩ : MapC) = c2 := by rw [← hc2, ← hc1]
      simp only [mapRemove, hrd, if_true, G.maps, hc, hfp, hc1, MHeap.put, e1', Res.bind_ok, e2', hfk, hc2',
        upd_upd, e3', Res.map_ok']
      rfl
    · rw [hstep]
      refine G.put ?_ ?_ ?_ ?_ ?_
      · have := w3
        rw [W] at this
        simp only [upd_upd] at this
        show Rel ⟨X.s.D, upd X.s.kids m c2.flat, X.s.ext⟩ _
        rw [G.rel.kids]
        exact this
      · rw [← hc2, ← hc1]; exact wf.kp
      · rw [← hc2, ← hc1]
        intro z hz
        refine wf.vals z ?_
        rw [hl]
        rcases List.mem_append.1 hz with h | h <;> simp [h]
      · have h1 := (wf.perm.filter (fun x => !eqv k x))
        rw [removed_key E hlo hkq ha' hod, List.filter_map] at h1
        have h2 := removed E hl hkp ha wf.dist
        rw [show (List.filter ((fun x => !eqv k x) ∘ fun x => x.fst) c.pairs) = a ++ b from h2] at h1
        rw [← hc2, ← hc1]; exact h1
      · rw [← hc2, ← hc1]
        have := wf.dist
        rw [hl] at this
        exact this.sublist (List.Sublist.append_left (List.sublist_cons_self _ _) _)

theorem letGo_length (s : Spec) (k : Nat) : (letGo s k).D.length ≤ s.D.length := by
  unfold letGo; exact List.length_filter_le _ _

theorem stepRemove_D (X : SM) (m k : Nat) : (stepRemove eqv X m k).s.D = X.s.D := by
  unfold stepRemove; dsimp only; split <;> rfl

theorem stepAdd_length (X : SM) (m k : Nat) (v : Ptr) : (stepAdd eqv X m k v).s.D.length ≤ X.s.D.length := by
  unfold stepAdd; dsimp only
  split
  · split
    · exact letGo_length E _ _
    · exact Nat.le_refl _
  · exact Nat.le_refl _

theorem rename_spec {X : SM} {H : MHeap} (G : Good eqv X H) {m k k' : Nat} (ok : MOk eqv X (.rename m k k'))
    {fuel : Nat} (hf : X.s.D.length ≤ fuel) :
    ∃ H', mapRename eqv fuel H m (some k) (some k') = .ok (some (H', ((look eqv (X.maps m) k).getD none).isSome)) ∧
      Good eqv (mstep eqv X (.rename m k k')) H' := by
  obtain ⟨o1, o2⟩ := ok
  obtain ⟨H1, e1, G1⟩ := rem_spec E G o1
  rw [mapRename, if_neg (by simp), e1, Res.bind_ok]
  rw [mstep]
  cases hn : look eqv (X.maps m) k with
  | none => exact ⟨H1, rfl, G1⟩
  | some v0 =>
    cases v0 with
    | none => exact ⟨H1, rfl, G1⟩
    | some v =>
      rw [hn] at o2
      obtain ⟨H2, e2, G2⟩ := add_spec E G1 o2 (fuel := fuel) (by rw [stepRemove_D E]; exact hf)
      refine ⟨H2, ?_, G2⟩
      simp only [Option.getD_some, e2, Res.map_ok', Option.map_some, Option.isSome_some]

theorem drop_kids (s : Spec) (a : Nat) : (s.drop a).kids = s.kids := rfl

/-- one operation -/
theorem mexec_spec {X : SM} {H : MHeap} (G : Good eqv X H) (op : MOp) (ok : MOk eqv X op) {fuel : Nat}
    (hf : X.s.D.length ≤ fuel) : ∃ H', mexec eqv fuel H op = .ok (some H') ∧ Good eqv (mstep eqv X op) H' := by
  cases op with
  | add m k v =>
    obtain ⟨H', e, G'⟩ := add_spec E G ok hf
    exact ⟨H', by rw [mexec, e]; rfl, G'⟩
  | remove m k =>
    obtain ⟨H', e, G'⟩ := rem_spec E G ok
    exact ⟨H', by rw [mexec, e]; rfl, G'⟩
  | rename m k k' =>
    obtain ⟨H', e, G'⟩ := rename_spec E G ok hf
    exact ⟨H', by rw [mexec, e]; rfl, G'⟩
  | mkMap x kp vp =>
    refine ⟨_, rfl, mk_spec G.rel ok.1, by simp only [mapMk, mstep, G.maps], ?_⟩
    intro z hz hzm
    by_cases h : z = x
    · subst h
      have e : (mstep eqv X (.mkMap z kp vp)).maps z = ⟨kp, vp, [], []⟩ := by simp [mstep, upd]
      rw [e]
      exact ⟨by simp [mstep, mkBlock, upd, MapC.flat], ok.2, by simp, by simp, by simp⟩
    · have e : (mstep eqv X (.mkMap x kp vp)).maps z = X.maps z := by simp [mstep, upd, h]
      have hz' : z ∈ X.s.D := by simpa [mstep, mkBlock, h] using hz
      have hzm' : X.isMap z = true := by simpa [mstep, upd, h] using hzm
      rw [e]
      exact (G.wf z hz' hzm').frame (by simp [mstep, mkBlock, upd, h])
  | plain op =>
    obtain ⟨h', e, R'⟩ := exec_spec G.rel op ok.1 hf
    refine ⟨{ H with h := h' }, by rw [mexec, e]; rfl, R', G.maps, ?_⟩
    intro z hz hzm
    show Wf eqv (specStep X.s op) z (X.maps z)
    have hfr : z ∈ X.s.D ∧ X.isMap z = true ∧ (specStep X.s op).kids z = X.s.kids z := by
      replace hz : z ∈ (specStep X.s op).D := hz
      cases op with
      | mk x =>
        by_cases h : z = x
        · subst h; simp [mstep, upd] at hzm
        · exact ⟨by simpa [specStep, mkBlock, h] using hz, by simpa [mstep, upd, h] using hzm,
            by simp [specStep, mkBlock, upd, h]⟩
      | mkTuple x es =>
        by_cases h : z = x
        · subst h; simp [mstep, upd] at hzm
        · refine ⟨?_, by simpa [mstep, upd, h] using hzm, ?_⟩
          · simpa [specStep, addEdges_D, mkBlock, h] using hz
          · have : ∀ (es : List Edge) (s : Spec), (addEdges s x es).kids z = s.kids z := by
              intro es
              induction es with
              | nil => intro s; rfl
              | cons e es ih => intro s; rw [addEdges, ih]; simp [addEdge, upd, h]
            rw [specStep, this]; simp [mkBlock, upd, h]
      | append y e =>
        have h : z ≠ y := by
          rintro rfl
          have h1 : X.isMap z = true := hzm
          rw [show X.isMap z = false from ok.2] at h1; cases h1
        exact ⟨hz, hzm, by simp [specStep, addEdge, upd, h]⟩
      | remove y i =>
        have h : z ≠ y := by
          rintro rfl
          have h1 : X.isMap z = true := hzm
          rw [show X.isMap z = false from ok.2] at h1; cases h1
        exact ⟨hz, hzm, by simp [specStep, upd, h]⟩
      | incr p => cases p <;> exact ⟨hz, hzm, rfl⟩
      | delRef p =>
        cases p with
        | none => exact ⟨hz, hzm, rfl⟩
        | some a => exact ⟨(List.mem_filter.1 hz).1, hzm, rfl⟩
      | del p =>
        cases p with
        | none => exact ⟨hz, hzm, rfl⟩
        | some a => exact ⟨(List.mem_filter.1 hz).1, hzm, rfl⟩
    exact (G.wf z hfr.1 hfr.2.1).frame hfr.2.2

theorem mstep_length (X : SM) (op : MOp) : (mstep eqv X op).s.D.length ≤ X.s.D.length + 1 := by
  cases op with
  | plain op => exact step_length X.s op
  | mkMap x kp vp => simp [mstep, mkBlock]
  | add m k v => exact Nat.le_succ_of_le (stepAdd_length E X m k v)
  | remove m k => rw [mstep, stepRemove_D E]; omega
  | rename m k k' =>
    rw [mstep]
    split
    · rename_i v _
      have := stepAdd_length E (stepRemove eqv X m k) m k' (some v)
      rw [stepRemove_D E] at this
      exact Nat.le_succ_of_le (this)
    · rw [stepRemove_D E]; omega

theorem mexecAll_spec (ops : List MOp) {X : SM} {H : MHeap} (G : Good eqv X H) (hl : MLegal eqv X ops)
    {fuel : Nat} (hf : X.s.D.length + ops.length ≤ fuel) :
    ∃ H', mexecAll eqv fuel H ops = .ok (some H') ∧ Good eqv (mrun eqv X ops) H' := by
  induction ops generalizing X H with
  | nil => exact ⟨H, rfl, G⟩
  | cons op ops ih =>
    obtain ⟨H1, e1, G1⟩ := mexec_spec E G op hl.1 (fuel := fuel) (by simp at hf; omega)
    have h1 := mstep_length E X op
    obtain ⟨H2, e2, G2⟩ := ih G1 hl.2 (by simp at hf; omega)
    exact ⟨H2, by rw [mexecAll, e1]; exact e2, G2⟩

end

/-! ## C102 -/

def emptyM : MHeap := { h := empty, maps := fun _ => ⟨.rc, .rc, [], []⟩ }
def specEmptyM : SM := ⟨specEmpty, fun _ => false, fun _ => ⟨.rc, .rc, [], []⟩⟩

theorem good_empty (eqv : Nat → Nat → Bool) : Good eqv specEmptyM emptyM :=
  ⟨rel_empty, rfl, by intro m hm; simp [specEmptyM, specEmpty] at hm⟩

/-- **C102**, for programs that keep to the rules (`MOk`): keys are counted or not looked after (not owned), a live
block is given as key and value, and the value that a key has is not given for this key again.  Every such program,
whatever it does with maps, tuples and lists, runs without undefined behaviour; the blocks in memory are then
exactly those of the specification, which frees a block with its last reference; the count of every block is the
number of references to it, where a map counts each of its keys for the list of keys and again for the tuple, and
each of its values once; and a map holds exactly its contents.  Missing: see the theorems `C102_…_false`. -/
theorem C102_partial {eqv : Nat → Nat → Bool} (E : Eqv eqv) (ops : List MOp) (hl : MLegal eqv specEmptyM ops) :
    ∃ H, mexecAll eqv ops.length emptyM ops = .ok (some H) ∧
      (∀ x, H.h.live x = true ↔ x ∈ (mrun eqv specEmptyM ops).s.D) ∧
      (∀ x, H.h.live x = true → H.h.deg x =
        refs H.h.kids (mrun eqv specEmptyM ops).s.D .rc x + (mrun eqv specEmptyM ops).s.ext x) ∧
      (∀ x, H.h.live x = true →
        refs H.h.kids (mrun eqv specEmptyM ops).s.D .del x = if H.h.ret x then 1 else 0) ∧
      ∀ m, H.h.live m = true → (mrun eqv specEmptyM ops).isMap m = true →
        H.maps m = (mrun eqv specEmptyM ops).maps m ∧
        H.h.kids m = (H.maps m).order.map (fun k => (.rc, some k)) ++
          (H.maps m).pairs.flatMap (fun p => [((H.maps m).kp, some p.1), ((H.maps m).vp, p.2)]) := by
  obtain ⟨H, e, G⟩ := mexecAll_spec E ops (good_empty eqv) hl (fuel := ops.length) (by simp [specEmptyM, specEmpty])
  refine ⟨H, e, G.rel.live, ?_, ?_, ?_⟩
  · intro x hx
    rw [G.rel.kids]; exact G.rel.deg x ((G.rel.live x).1 hx)
  · intro x hx
    rw [G.rel.kids]; exact G.rel.own x ((G.rel.live x).1 hx)
  · intro m hm hM
    refine ⟨by rw [G.maps], ?_⟩
    rw [G.rel.kids, (G.wf m ((G.rel.live m).1 hm) hM).kids, G.maps]; rfl

/-- **C102**: the keys of a map are in memory as long as the map is, and so are its values, unless they are not
looked after; and their counts are not 0 (or they are marked as owned). -/
theorem C102_contents_live {eqv : Nat → Nat → Bool} (E : Eqv eqv) (ops : List MOp) (hl : MLegal eqv specEmptyM ops) :
    ∃ H, mexecAll eqv ops.length emptyM ops = .ok (some H) ∧
      ∀ m, H.h.live m = true → (mrun eqv specEmptyM ops).isMap m = true → ∀ p ∈ (H.maps m).pairs,
        (H.h.live p.1 = true ∧ 1 ≤ H.h.deg p.1) ∧
        ((H.maps m).vp ≠ .noop → ∃ v, p.2 = some v ∧ H.h.live v = true ∧ (1 ≤ H.h.deg v ∨ H.h.ret v = true)) := by
  obtain ⟨H, e, G⟩ := mexecAll_spec E ops (good_empty eqv) hl (fuel := ops.length) (by simp [specEmptyM, specEmpty])
  refine ⟨H, e, ?_⟩
  intro m hm hM p hp
  have hmD := (G.rel.live m).1 hm
  have wf := G.wf m hmD hM
  rw [G.maps] at hp ⊢
  have h1 : p.1 ∈ ((mrun eqv specEmptyM ops).maps m).order := wf.perm.mem_iff.1 (List.mem_map.2 ⟨p, hp, rfl⟩)
  have h2 : p.1 ∈ (mrun eqv specEmptyM ops).s.D := G.rel.tgt m hmD _ (wf.pts h1)
  refine ⟨⟨(G.rel.live _).2 h2, ?_⟩, ?_⟩
  · rw [G.rel.deg _ h2]
    have := refs_pos (kids := (mrun eqv specEmptyM ops).s.kids) (pol := .rc) (x := p.1) hmD (by
      rw [wf.kids, MapC.flat]; exact List.mem_append_left _ (List.mem_map.2 ⟨_, h1, rfl⟩))
    rw [Spec.rc]; omega
  · intro hv
    obtain ⟨v, hpv⟩ : ∃ v, p.2 = some v := by
      rcases wf.vals p hp with h | h
      · exact absurd h hv
      · exact Option.ne_none_iff_exists'.1 h
    have hmem : (((mrun eqv specEmptyM ops).maps m).vp, some v) ∈ (mrun eqv specEmptyM ops).s.kids m := by
      rw [wf.kids, MapC.flat]
      refine List.mem_append_right _ (List.mem_flatMap.2 ⟨p, hp, ?_⟩)
      rw [hpv]; simp
    have h3 : v ∈ (mrun eqv specEmptyM ops).s.D := G.rel.tgt m hmD _ ⟨_, hv, hmem⟩
    have h4 := refs_pos hmD hmem
    refine ⟨v, hpv, (G.rel.live _).2 h3, ?_⟩
    cases hc : ((mrun eqv specEmptyM ops).maps m).vp with
    | rc => left; rw [G.rel.deg _ h3, Spec.rc]; rw [hc] at h4; omega
    | del =>
      right
      rw [hc] at h4
      have h5 := G.rel.own v h3
      rw [Spec.own] at h5
      cases hr : H.h.ret v
      · rw [hr] at h5; simp at h5; omega
      · rfl
    | noop => exact absurd hc hv

/-- **C102**: what `cee_map_add` and `cee_map_remove` return, from any memory with correct counts; adding frees
what only the given key kept, and only if the key was there already; removing frees nothing. -/
theorem C102_results {eqv : Nat → Nat → Bool} (E : Eqv eqv) {X : SM} {H : MHeap} (G : Good eqv X H) (m k : Nat)
    (v : Ptr) :
    (OkAdd eqv X m k v → ∃ H', mapAdd eqv X.s.D.length H m (some k) v =
        .ok (some (H', (look eqv (X.maps m) k).getD none)) ∧
      (look eqv (X.maps m) k = none → H'.h.live = H.h.live) ∧
      ∀ x, H'.h.live x = true → H.h.live x = true) ∧
    (OkRemove X m k → ∃ H', mapRemove eqv H m (some k) = .ok (H', (look eqv (X.maps m) k).getD none) ∧
      H'.h.live = H.h.live) := by
  have liveEq : ∀ (a b : Nat → Bool), (∀ x, a x = true ↔ b x = true) → a = b := by
    intro a b h
    funext x
    have := h x
    cases ha : a x <;> cases hb : b x <;> simp_all
  constructor
  · intro ok
    obtain ⟨H', e, G'⟩ := add_spec E G ok (Nat.le_refl _)
    refine ⟨H', e, ?_, ?_⟩
    · intro hn
      refine liveEq _ _ fun x => ?_
      rw [G'.rel.live, G.rel.live]
      simp [stepAdd, hn, SM.put]
    · intro x hx
      rw [G'.rel.live] at hx
      rw [G.rel.live]
      unfold stepAdd at hx
      dsimp only at hx
      split at hx
      · split at hx
        · exact (List.mem_filter.1 hx).1
        · exact hx
      · exact hx
  · intro ok
    obtain ⟨H', e, G'⟩ := rem_spec E G ok
    refine ⟨H', e, liveEq _ _ fun x => ?_⟩
    rw [G'.rel.live, G.rel.live, stepRemove_D E]

/-- **C102**: deleting a map that nothing refers to, or the last reference to it, from any memory with correct
counts: it frees exactly the blocks that lose their last reference, and the counts are correct again. -/
theorem C102_delete {eqv : Nat → Nat → Bool} (E : Eqv eqv) {X : SM} {H : MHeap} (G : Good eqv X H) (m : Nat)
    (hm : m ∈ X.s.D) (hok : 0 < X.s.ext m ∨ X.s.Floating m) :
    ∃ H', mexec eqv X.s.D.length H (.plain (.delRef (some m))) = .ok (some H') ∧
      (∀ x, H'.h.live x = true ↔ H.h.live x = true ∧
        ¬ Unref X.s.kids X.s.D (upd X.s.ext m (X.s.ext m - 1)) m x) ∧
      Good eqv (mstep eqv X (.plain (.delRef (some m)))) H' := by
  classical
  obtain ⟨H', e, G'⟩ := mexec_spec E G (.plain (.delRef (some m))) ⟨⟨hm, hok⟩, trivial⟩ (Nat.le_refl _)
  refine ⟨H', e, ?_, G'⟩
  intro x
  rw [G'.rel.live, G.rel.live]
  simp [mstep, specStep, Spec.drop]

theorem put_put (X : SM) (m : Nat) (c c' : MapC) : (X.put m c).put m c' = X.put m c' := by
  simp only [SM.put, upd_upd]

/-- the references after a pair is added to a map that owns nothing -/
theorem put_refs {X : SM} (hnd : X.s.D.Nodup) {m : Nat} (hm : m ∈ X.s.D) (hk : X.s.kids m = (X.maps m).flat)
    (k : Nat) (v : Ptr) (hkp : (X.maps m).kp ≠ .del) (hvp : (X.maps m).vp ≠ .del) (z : Nat) :
    let c' : MapC := { X.maps m with order := (X.maps m).order ++ [k], pairs := (X.maps m).pairs ++ [(k, v)] }
    (X.put m c').s.own z = X.s.own z ∧ (X.put m c').s.rc z ≤ X.s.rc z + 3 := by
  intro c'
  have h := fun pol => refs_upd (kids := X.s.kids) hnd hm c'.flat pol z
  have h2 := fun e => (flat_append (X.maps m) k v).count_eq e
  simp only [List.count_append, List.count_cons, List.count_nil] at h2
  constructor
  · have h1 := h .del
    rw [hk, ← h2 (.del, some z)] at h1
    have e1 : ((X.maps m).kp, some k) ≠ (Policy.del, some z) := fun e => hkp (congrArg Prod.fst e)
    have e2 : ((X.maps m).vp, v) ≠ (Policy.del, some z) := fun e => hvp (congrArg Prod.fst e)
    have e3 : (Policy.rc, some k) ≠ (Policy.del, some z) := by simp
    simp only [beq_eq_false_iff_ne.2 e1, beq_eq_false_iff_ne.2 e2, beq_eq_false_iff_ne.2 e3] at h1
    simp only [Spec.own]
    show refs (upd X.s.kids m c'.flat) X.s.D .del z = _
    simp at h1
    exact h1
  · have h1 := h .rc
    rw [hk, ← h2 (.rc, some z)] at h1
    simp only [Spec.rc]
    show refs (upd X.s.kids m c'.flat) X.s.D .rc z + X.s.ext z ≤ _
    have e : ∀ b : Bool, (if b = true then 1 else 0) ≤ 1 := by decide
    have e1 := e (((X.maps m).kp, some k) == (Policy.rc, some z))
    have e2 := e (((X.maps m).vp, v) == (Policy.rc, some z))
    have e3 := e ((Policy.rc, some k) == (Policy.rc, some z))
    omega

theorem addEdge_own {s : Spec} (hnd : s.D.Nodup) {y : Nat} (hy : y ∈ s.D) {e : Edge} (he : e.1 ≠ .del) (z : Nat) :
    (addEdge s y e).own z = s.own z ∧ (addEdge s y e).rc z ≤ s.rc z + 1 := by
  have h := fun pol => addEdge_refs hnd hy e pol z
  have h1 := h .del
  have h2 := h .rc
  rw [if_neg (by rintro rfl; exact he rfl)] at h1
  refine ⟨h1, ?_⟩
  simp only [Spec.rc]
  show refs (addEdge s y e).kids s.D .rc z + s.ext z ≤ _
  rw [h2]
  split <;> omega

theorem addAll_spec {eqv : Nat → Nat → Bool} (E : Eqv eqv) (fuel x : Nat) (l : List (Nat × Ptr)) :
    ∀ {X : SM} {H : MHeap}, Good eqv X H → x ∈ X.s.D → X.isMap x = true → (X.maps x).vp ≠ .del →
      (∀ p ∈ l, (p.1 ∈ X.s.D ∧ X.s.own p.1 = 0) ∧
        ((X.maps x).vp = .noop ∨ ∃ v, p.2 = some v ∧ v ∈ X.s.D ∧ X.s.own v = 0)) →
      (∀ z, X.s.rc z + 3 * l.length < 65536) →
      ((X.maps x).pairs ++ l).Pairwise (fun p q => eqv p.1 q.1 = false) →
      ∃ H', mapAddAll eqv fuel none x H l = .ok (some H') ∧
        Good eqv (X.put x { X.maps x with
          order := (X.maps x).order ++ l.map (·.1), pairs := (X.maps x).pairs ++ l }) H' := by
  induction l with
  | nil =>
    intro X H G hx hM _ _ _ _
    refine ⟨H, rfl, ?_⟩
    have : X.put x { X.maps x with
        order := (X.maps x).order ++ [].map (fun p : Nat × Ptr => p.1), pairs := (X.maps x).pairs ++ [] } = X := by
      simp only [List.map_nil, List.append_nil, SM.put, upd_self, ← (G.wf x hx hM).kids]
    rw [this]; exact G
  | cons p l ih =>
    intro X H G hx hM hvp hl hrc hd
    have wf := G.wf x hx hM
    obtain ⟨⟨p1, p2⟩, p3⟩ := hl p (by simp)
    have hlen : ∀ z, X.s.rc z + 3 * l.length + 3 < 65536 := by
      intro z; have := hrc z; simp at this; omega
    have hlook : look eqv (X.maps x) p.1 = none := by
      rw [look, List.find?_eq_none.2]
      · rfl
      · intro q hq
        have h1 := (List.pairwise_append.1 hd).2.2 q hq p (by simp)
        intro h
        rw [E.symm _ _ h] at h1; cases h1
    have o1 : OkEdge X.s ((X.maps x).kp, some p.1) := by
      cases hc : (X.maps x).kp with
      | rc => exact ⟨p1, p2, by have := hlen p.1; omega⟩
      | del => exact absurd hc wf.kp
      | noop => trivial
    have A1 := addEdge_own (s := X.s) G.rel.nodup hx (e := ((X.maps x).kp, some p.1)) wf.kp
    have o2 : OkEdge (addEdge X.s x ((X.maps x).kp, some p.1)) ((X.maps x).vp, p.2) := by
      rcases p3 with h | ⟨v, hv, v1, v2⟩
      · rw [h]; trivial
      · rw [hv]
        cases hc : (X.maps x).vp with
        | rc => exact ⟨v1, by rw [(A1 v).1]; exact v2, by have := (A1 v).2; have := hlen v; omega⟩
        | del => exact absurd hc hvp
        | noop => trivial
    have A2 := addEdge_own (s := addEdge X.s x ((X.maps x).kp, some p.1)) (y := x) G.rel.nodup hx
      (e := ((X.maps x).vp, p.2)) hvp
    have ok : OkAdd eqv X x p.1 p.2 := by
      refine ⟨hx, hM, p1, ?_⟩
      rw [hlook]
      refine ⟨o1, o2, ⟨p1, ?_, ?_⟩, trivial⟩
      · rw [(A2 _).1, (A1 _).1]; exact p2
      · have := (A2 p.1).2; have := (A1 p.1).2; have := hlen p.1; omega
    obtain ⟨H1, e1, G1⟩ := add_fresh E G ok hlook fuel none
    generalize hc' : ({ X.maps x with order := (X.maps x).order ++ [p.1], pairs := (X.maps x).pairs ++ [(p.1, p.2)] } :
      MapC) = c'
    have hs : stepAdd eqv X x p.1 p.2 = X.put x c' := by rw [← hc']; simp [stepAdd, hlook]
    rw [hs] at G1
    have hr := fun z => put_refs (X := X) G.rel.nodup hx wf.kids p.1 p.2 wf.kp hvp z
    simp only [hc'] at hr
    have hm' : (X.put x c').maps x = c' := by simp [SM.put, upd]
    have hvp' : c'.vp = (X.maps x).vp := by rw [← hc']
    obtain ⟨H2, e2, G2⟩ := ih G1 hx hM (by rw [hm', hvp']; exact hvp)
      (by
        intro q hq
        obtain ⟨⟨q1, q2⟩, q3⟩ := hl q (by simp [hq])
        refine ⟨⟨q1, by rw [(hr _).1]; exact q2⟩, ?_⟩
        rw [hm', hvp']
        rcases q3 with h | ⟨v, hv, v1, v2⟩
        · exact .inl h
        · exact .inr ⟨v, hv, v1, by rw [(hr _).1]; exact v2⟩)
      (by intro z; have := (hr z).2; have := hlen z; omega)
      (by rw [hm', ← hc']; simpa using hd)
    refine ⟨H2, by rw [mapAddAll, e1]; exact e2, ?_⟩
    rw [put_put, hm'] at G2
    have : ({ c' with order := c'.order ++ l.map (·.1), pairs := c'.pairs ++ l } : MapC) =
        { X.maps x with order := (X.maps x).order ++ (p :: l).map (·.1), pairs := (X.maps x).pairs ++ p :: l } := by
      rw [← hc']; simp
    rw [this] at G2
    exact G2

/-- **C102**: the clone of a map that does not own its values, from any memory with correct counts (fewer than 65536
references to any block, also afterwards): the counts are correct again, with the clone holding the keys and values
of the map as well. -/
theorem C102_clone {eqv : Nat → Nat → Bool} (E : Eqv eqv) {X : SM} {H : MHeap} (G : Good eqv X H) (x src fuel : Nat)
    (hs : src ∈ X.s.D) (hM : X.isMap src = true) (hx : x ∉ X.s.D) (hv : (X.maps src).vp = .rc)
    (hr : ∀ z, X.s.rc z + 3 * (X.maps src).pairs.length < 65536) :
    ∃ H', mapClone eqv fuel H x src = .ok (some H') ∧
      Good eqv ((mstep eqv X (.mkMap x (X.maps src).kp .rc)).put x
        { X.maps src with order := (X.maps src).pairs.map (·.1) }) H' := by
  have wf := G.wf src hs hM
  have hne : src ≠ x := by rintro rfl; exact hx hs
  obtain ⟨H1, e1, G1⟩ := mexec_spec E G (.mkMap x (X.maps src).kp .rc) ⟨hx, wf.kp⟩ (Nat.le_refl _)
  rw [mexec] at e1
  have eH : mapMk H x (X.maps src).kp .rc = H1 := by cases e1; rfl
  generalize hX1 : mstep eqv X (.mkMap x (X.maps src).kp .rc) = X1 at *
  have m1 : X1.maps x = ⟨(X.maps src).kp, .rc, [], []⟩ := by rw [← hX1]; simp [mstep, upd]
  have m2 : X1.maps src = X.maps src := by rw [← hX1]; simp [mstep, upd, hne]
  have D1 : X1.s.D = X.s.D ++ [x] := by rw [← hX1]; rfl
  have hrefs : ∀ pol z, refs X1.s.kids X1.s.D pol z = refs X.s.kids X.s.D pol z := by
    intro pol z
    rw [← hX1]
    simp only [mstep, mkBlock, refs, List.map_append, List.map_cons, List.map_nil, List.sum_append]
    have : X.s.D.map (fun y => (upd X.s.kids x [] y).count (pol, some z)) =
        X.s.D.map (fun y => (X.s.kids y).count (pol, some z)) := by
      apply List.map_congr_left
      intro y hy
      have : y ≠ x := by rintro rfl; exact hx hy
      simp [upd, this]
    rw [this]
    simp [upd]
  have hrc : ∀ z, X1.s.rc z = X.s.rc z := by
    intro z; simp only [Spec.rc, hrefs]; rw [← hX1]; rfl
  have hown : ∀ z, X1.s.own z = X.s.own z := by intro z; simp only [Spec.own, hrefs]
  have own0 : ∀ z, Pts X.s.kids src z → (.rc, some z) ∈ X.s.kids src → z ∈ X.s.D ∧ X.s.own z = 0 := by
    intro z hp hz
    have hzD := G.rel.tgt src hs z hp
    refine ⟨hzD, ?_⟩
    have h1 := G.rel.own z hzD
    cases hr : H.h.ret z
    · rw [hr] at h1; simpa using h1
    · have h2 := G.rel.excl z hzD hr
      have h3 := refs_pos hs hz
      rw [Spec.rc] at h2; omega
  obtain ⟨H2, e2, G2⟩ := addAll_spec E fuel x (X.maps src).pairs (X := X1) (H := H1) G1 (by rw [D1]; simp)
    (by rw [← hX1]; simp [mstep, upd]) (by rw [m1]; simp)
    (by
      intro p hp
      have k1 : (.rc, some p.1) ∈ X.s.kids src := by
        rw [wf.kids, MapC.flat]
        exact List.mem_append_left _ (List.mem_map.2 ⟨p.1, wf.perm.mem_iff.1 (List.mem_map.2 ⟨p, hp, rfl⟩), rfl⟩)
      have k2 := own0 p.1 ⟨.rc, by simp, k1⟩ k1
      refine ⟨⟨by rw [D1]; simp [k2.1], by rw [hown]; exact k2.2⟩, .inr ?_⟩
      obtain ⟨v, hpv⟩ : ∃ v, p.2 = some v := by
        rcases wf.vals p hp with h | h
        · rw [hv] at h; cases h
        · exact Option.ne_none_iff_exists'.1 h
      have k3 : (.rc, some v) ∈ X.s.kids src := by
        rw [wf.kids, MapC.flat]
        refine List.mem_append_right _ (List.mem_flatMap.2 ⟨p, hp, ?_⟩)
        rw [hpv, hv]; simp
      have k4 := own0 v ⟨.rc, by simp, k3⟩ k3
      exact ⟨v, hpv, by rw [D1]; simp [k4.1], by rw [hown]; exact k4.2⟩)
    (by intro z; rw [hrc]; exact hr z) (by rw [m1]; simpa using wf.dist)
  refine ⟨H2, ?_, ?_⟩
  · have l1 : H.h.live src = true := (G.rel.live src).2 hs
    have l2 : H1.h.live src = true := (G1.rel.live src).2 (by rw [D1]; simp [hs])
    rw [mapClone, if_pos l1, G.maps, hv, eH, mapMerge, if_pos l2, G1.maps, m2]
    exact e2
  · rw [m1] at G2
    have : (X.maps src).vp = .rc := hv
    simp only [List.nil_append] at G2
    rw [← hv] at G2
    exact G2

/-- keys that are equal if their last two digits are -/
def eq2 (a b : Nat) : Bool := a % 100 == b % 100

theorem eq2_eqv : Eqv eq2 :=
  ⟨fun a => by simp [eq2], fun a b h => by simp [eq2] at *; omega, fun a b c h h' => by simp [eq2] at *; omega⟩

/-- a key 1 with the value 2; then renamed to 5; then the equal key 105 with the value 3 -/
def demoM : List MOp :=
  [.plain (.mk 1), .plain (.mk 2), .mkMap 10 .rc .rc, .add 10 1 (some 2), .plain (.mk 5), .rename 10 1 5,
   .plain (.mk 105), .plain (.mk 3), .add 10 105 (some 3)]

/-- the hypotheses of C102 are met; the key 105 was freed, the map has the key 5 with the value 3, 1 and 2 are in
memory without references -/
example : MLegal eq2 specEmptyM demoM ∧ ∃ H, mexecAll eq2 9 emptyM demoM = .ok (some H) ∧
    H.h.live 105 = false ∧ H.h.deg 5 = 2 ∧ H.h.deg 3 = 1 ∧ H.h.live 1 = true ∧ H.h.deg 1 = 0 ∧ H.h.live 2 = true ∧
    H.h.deg 2 = 0 ∧ (H.maps 10).order = [5] ∧ (H.maps 10).pairs = [(5, some 3)] := by
  refine ⟨?_, _, rfl, by decide, by decide, by decide, by decide, by decide, by decide, by decide, by decide, by decide⟩
  simp [demoM, MLegal, MOk, OkOp, OkAdd, OkRemove, OkEdges, OkEdge, mstep, specStep, mkBlock, addEdge, Spec.rc,
    Spec.own, Spec.Floating, refs, upd, specEmpty, specEmptyM, look, stepAdd, stepRemove, SM.put, MapC.flat, eq2]

/-- a memory with correct counts and a map in it, as `C102_results` and `C102_delete` need -/
example : ∃ X H, Good eq2 X H ∧ OkAdd eq2 X 10 5 (some 6) ∧ OkRemove X 10 1 ∧ 10 ∈ X.s.D ∧ X.s.Floating 10 := by
  obtain ⟨H, -, G⟩ := mexecAll_spec eq2_eqv
    [.plain (.mk 1), .plain (.mk 2), .mkMap 10 .rc .rc, .add 10 1 (some 2), .plain (.mk 5), .plain (.mk 6)]
    (good_empty eq2) (by
      simp [MLegal, MOk, OkOp, OkAdd, OkEdges, OkEdge, mstep, specStep, mkBlock, addEdge, Spec.rc,
        Spec.own, refs, upd, specEmpty, specEmptyM, look, stepAdd, SM.put, MapC.flat]) (fuel := 6)
      (by simp [specEmptyM, specEmpty])
  refine ⟨_, H, G, ?_, ?_, ?_, ?_⟩ <;>
  simp [mrun, OkAdd, OkRemove, OkEdges, OkEdge, mstep, specStep, mkBlock, addEdge, Spec.rc,
    Spec.own, Spec.Floating, refs, upd, specEmpty, specEmptyM, look, stepAdd, SM.put, MapC.flat, eq2]

/-- the same memory can be cloned from, and the key 1 is held by the map only -/
example : ∃ X H, Good eq2 X H ∧ OkRemove X 10 1 ∧ X.isMap 10 = true ∧ 11 ∉ X.s.D ∧ (X.maps 10).vp = .rc ∧
    (X.maps 10).kp = .rc ∧ (X.maps 10).pairs.find? (fun p => eq2 1 p.1) = some (1, some 2) ∧ H.h.deg 1 = 2 ∧
    (∀ z, X.s.rc z + 3 * (X.maps 10).pairs.length < 65536) := by
  obtain ⟨H, -, G⟩ := mexecAll_spec eq2_eqv
    [.plain (.mk 1), .plain (.mk 2), .mkMap 10 .rc .rc, .add 10 1 (some 2)]
    (good_empty eq2) (by
      simp [MLegal, MOk, OkOp, OkAdd, OkEdges, OkEdge, mstep, specStep, mkBlock, addEdge, Spec.rc,
        Spec.own, refs, upd, specEmpty, specEmptyM, look, stepAdd, SM.put, MapC.flat]) (fuel := 4)
      (by simp [specEmptyM, specEmpty])
  refine ⟨_, H, G, ?_, ?_, ?_, ?_, ?_, ?_, ?_, ?_⟩
  case refine_7 =>
    rw [G.rel.deg 1 (by
      simp [mrun, mstep, specStep, mkBlock, specEmpty, specEmptyM, look, stepAdd, SM.put, upd])]
    simp [mrun, mstep, specStep, mkBlock, Spec.rc, refs, upd, specEmpty, specEmptyM, look, stepAdd, SM.put, MapC.flat]
  case refine_8 =>
    intro z
    have : ∀ (p : Prop) [Decidable p], (if p then 1 else 0) ≤ 1 := by intro p _; split <;> omega
    simp [mrun, mstep, specStep, mkBlock, Spec.rc, refs, upd, specEmpty, specEmptyM, look, stepAdd, SM.put, MapC.flat,
      List.count_cons]
    have h1 := this (1 = z)
    have h2 := this (2 = z)
    omega
  all_goals
    simp [mrun, OkRemove, mstep, specStep, mkBlock, upd, specEmpty, specEmptyM, look, stepAdd, SM.put, eq2]

/-! ### where the claim fails -/

/-- **C102 is false** when a key is given the value it has: the value is counted again, but held once.  It is not
freed with the map (nor ever, before the state is deleted), although nothing refers to it. -/
theorem C102_same_value_false : ∃ H H', mexecAll eq2 9 emptyM
      [.plain (.mk 1), .plain (.mk 2), .mkMap 10 .rc .rc, .add 10 1 (some 2), .add 10 1 (some 2)] = .ok (some H) ∧
    H.h.kids 10 = [(.rc, some 1), (.rc, some 1), (.rc, some 2)] ∧ H.h.deg 1 = 2 ∧ H.h.deg 2 = 2 ∧
    mexec eq2 9 H (.plain (.delRef (some 10))) = .ok (some H') ∧ H'.h.live 10 = false ∧ H'.h.live 1 = false ∧
    H'.h.live 2 = true ∧ H'.h.deg 2 = 1 :=
  ⟨_, _, rfl, by decide, by decide, by decide, rfl, by decide, by decide, by decide, by decide⟩

/-- the memory of the next two theorems: the map 10 has the value 2 for the key 1, and the list 20 holds 4 -/
def mergeOps : List MOp :=
  [.plain (.mk 1), .plain (.mk 2), .plain (.mk 3), .plain (.mk 4), .mkMap 10 .rc .rc, .add 10 1 (some 2),
   .plain (.mk 20), .plain (.append 20 (.rc, some 4))]

/-- **C102 is false** when the function given to `cee_map_add_e` or `cee_map_merge` returns the old value (having
merged the new one into it, as that of `cee_json_merge` does): the new value 3 is counted, though the map does not
hold it, and will never be freed. -/
theorem C102_merge_old_false : ∃ H H', mexecAll eq2 9 emptyM mergeOps = .ok (some H) ∧
    mapAddE eq2 9 H 10 (some 1) (some 3) (some fun old _ => old) = .ok (some (H', some 2)) ∧
    (H'.maps 10).pairs = [(1, some 2)] ∧ H'.h.deg 3 = 1 ∧ H'.h.deg 2 = 1 ∧
    ∃ H'', mexec eq2 9 H' (.plain (.delRef (some 10))) = .ok (some H'') ∧ H''.h.live 2 = false ∧
      H''.h.live 3 = true ∧ H''.h.deg 3 = 1 :=
  ⟨_, _, rfl, rfl, by decide, by decide, by decide, _, rfl, by decide, by decide, by decide⟩

/-- **C102 is false** when that function returns a third object: it is stored without being counted.  When the list
20 that holds it is deleted, it is freed, while the map still holds it; deleting the map is then undefined
behaviour. -/
theorem C102_merge_new_false : ∃ H H' H'', mexecAll eq2 9 emptyM mergeOps = .ok (some H) ∧
    mapAddE eq2 9 H 10 (some 1) (some 3) (some fun _ _ => some 4) = .ok (some (H', some 2)) ∧
    (H'.maps 10).pairs = [(1, some 4)] ∧ H'.h.deg 4 = 1 ∧
    mexec eq2 9 H' (.plain (.delRef (some 20))) = .ok (some H'') ∧ H''.h.live 4 = false ∧
    (H''.maps 10).pairs = [(1, some 4)] ∧ mexec eq2 9 H'' (.plain (.delRef (some 10))) = .ub :=
  ⟨_, _, _, rfl, rfl, by decide, by decide, rfl, by decide, by decide, rfl⟩

theorem mapRemove_dead {H : MHeap} {m : Nat} {p : Nat × Ptr} (eqv : Nat → Nat → Bool) (k : Nat)
    (h : p ∈ (H.maps m).pairs) (hl : H.h.live p.1 = false) (ho : H.other p.1 = false) :
    mapRemove eqv H m (some k) = .ub := by
  rw [mapRemove, if_neg]
  simp only [readable, Bool.and_eq_true, List.all_eq_true, not_and]
  intro h1
  have := h1.2 p h
  simp [hl, ho] at this

/-- **C102 is false** for a map that owns its keys (`CEE_DP_DEL`): giving a key of the map again, to change its
value, frees the key, which is still in the map; the next search is undefined behaviour. -/
theorem C102_owned_key_false : ∃ H, mexecAll eq2 9 emptyM
      [.plain (.mk 1), .plain (.mk 2), .plain (.mk 3), .mkMap 10 .del .rc, .add 10 1 (some 2), .add 10 1 (some 3)] =
        .ok (some H) ∧
    (H.maps 10).pairs = [(1, some 3)] ∧ H.h.live 1 = false ∧
    (∀ k, mapRemove eq2 H 10 (some k) = .ub) := by
  refine ⟨_, rfl, by decide, by decide, fun k => ?_⟩
  exact mapRemove_dead (p := (1, some 3)) eq2 k (by decide) (by decide) (by decide)

/-- **C102 is false** for keys that are not blocks of the library, which `CEE_DP_NOOP` is for: whatever the map, a
new key that is no block is undefined behaviour, since the list of keys counts its keys. -/
theorem C102_foreign_key_false (eqv : Nat → Nat → Bool) (fuel : Nat) (H : MHeap) (m k : Nat) (v : Ptr)
    (hk : H.h.live k = false) (hp : (H.maps m).kp = .noop) (hv : (H.maps m).vp = .noop)
    (hf : ∀ p ∈ (H.maps m).pairs, eqv k p.1 = false) : mapAdd eqv fuel H m (some k) v = .ub := by
  have hf' : findPair eqv k (H.maps m).pairs = none := by
    rw [findPair_none, List.find?_eq_none]
    intro p h; rw [hf p h]; simp
  simp only [mapAdd, mapAddE, mapPut, hp, hv, incrIndegree, Res.bind_ok, hf']
  split
  · split
    · simp only [MHeap.put, incrRc, hk, Bool.false_eq_true, if_false]; rfl
    · rfl
  · rfl

/-- a map without deletion policies, and a string literal at 7 that can be read -/
example : ∃ H : MHeap, H.h.live 10 = true ∧ H.h.live 7 = false ∧ (H.maps 10).kp = .noop ∧ (H.maps 10).vp = .noop ∧
    readable H 10 7 = true ∧ ∀ p ∈ (H.maps 10).pairs, eq2 7 p.1 = false :=
  ⟨{ mapMk emptyM 10 .noop .noop with other := fun x => x == 7 }, by decide, by decide, by decide, by decide,
    by decide, by decide⟩

/-- **C102 is false** for clones of a map that owns its values: both own them, and deleting both is undefined
behaviour. -/
theorem C102_clone_owned_false : ∃ H H' H'', mexecAll eq2 9 emptyM
      [.plain (.mk 1), .plain (.mk 2), .mkMap 10 .rc .del, .add 10 1 (some 2)] = .ok (some H) ∧
    mapClone eq2 9 H 11 10 = .ok (some H') ∧ (H'.maps 11).pairs = [(1, some 2)] ∧
    mexec eq2 9 H' (.plain (.delRef (some 10))) = .ok (some H'') ∧ H''.h.live 2 = false ∧
    mexec eq2 9 H'' (.plain (.delRef (some 11))) = .ub :=
  ⟨_, _, _, rfl, rfl, by decide, rfl, by decide, rfl⟩

/-- **C102 is false** for a removed key: `cee_map_remove` lets go of the key and the value without freeing them, and
only the value is returned.  From any memory with correct counts, a key that only the map held is in memory
afterwards, without any reference. -/
theorem C102_removed_key_false {eqv : Nat → Nat → Bool} (E : Eqv eqv) {X : SM} {H : MHeap} (G : Good eqv X H)
    (m k : Nat) (ok : OkRemove X m k) (hk : (X.maps m).kp = .rc) (p : Nat × Ptr)
    (hp : (X.maps m).pairs.find? (fun p => eqv k p.1) = some p) (hd : H.h.deg p.1 = 2) :
    ∃ H', mapRemove eqv H m (some k) = .ok (H', p.2) ∧ H'.h.live p.1 = true ∧ H'.h.deg p.1 = 0 := by
  obtain ⟨H', e, G'⟩ := rem_spec E G ok
  have hlk : look eqv (X.maps m) k = some p.2 := by rw [look, hp]; rfl
  rw [hlk] at e
  obtain ⟨hm, hM, -⟩ := ok
  have wf := G.wf m hm hM
  have hpm : p ∈ (X.maps m).pairs := List.mem_of_find?_eq_some hp
  have hkp : eqv k p.1 = true := by simpa using List.find?_some hp
  have h1 : p.1 ∈ (X.maps m).order := wf.perm.mem_iff.1 (List.mem_map.2 ⟨p, hpm, rfl⟩)
  have h2 : p.1 ∈ X.s.D := G.rel.tgt m hm _ (wf.pts h1)
  have h3 : p.1 ∈ (stepRemove eqv X m k).s.D := by rw [stepRemove_D E]; exact h2
  refine ⟨H', e, (G'.rel.live _).2 h3, ?_⟩
  have d0 := G.rel.deg _ h2
  have d1 := G'.rel.deg _ h3
  -- the map held the key twice, and does not hold it any more
  generalize hc' : ({ X.maps m with
      order := (X.maps m).order.filter (fun q => !eqv k q)
      pairs := (X.maps m).pairs.filter (fun p => !eqv k p.1) } : MapC) = c'
  have hs : stepRemove eqv X m k = X.put m c' := by
    simp [stepRemove, hlk, ← hc']
  have hr := refs_upd (kids := X.s.kids) G.rel.nodup hm c'.flat .rc p.1
  have c0 : c'.flat.count (.rc, some p.1) + 2 ≤ (X.s.kids m).count (.rc, some p.1) := by
    obtain ⟨a, p', b, hfp, -⟩ := look_some E hlk
    obtain ⟨hl, hkp', ha, hfd⟩ := findPair_some hfp
    have hpp : p' = p := by rw [hp] at hfd; exact (Option.some.inj hfd).symm
    subst hpp
    have hod := order_dist E wf.perm wf.dist
    obtain ⟨a', q, b', hfk, hlo, hkq, ha'⟩ := findKey_spec (l := (X.maps m).order) ⟨p'.1, h1, hkp⟩
    have hq : q = p'.1 := by
      have hq' : p'.1 ∈ a' ++ q :: b' := by rw [← hlo]; exact h1
      rcases List.mem_append.1 hq' with h | h
      · rw [ha' _ h] at hkp; cases hkp
      · rcases List.mem_cons.1 h with h | h
        · exact h.symm
        · rw [hlo] at hod
          rw [after_key E hod hkq _ h] at hkp; cases hkp
    have f1 := (flat_remove (X.maps m) a b p' hl).count_eq (.rc, some p'.1)
    have f2 := (flat_order { X.maps m with pairs := a ++ b } a' b' q hlo).count_eq (.rc, some p'.1)
    rw [removed E hl hkp ha wf.dist, removed_key E hlo hkq ha' hod] at hc'
    rw [hc'] at f2
    rw [wf.kids, f1]
    simp only [List.count_cons, hq] at f2 ⊢
    rw [f2, hk]
    simp
  rw [hs] at d1
  rw [d1]
  rw [hd] at d0
  simp only [Spec.rc] at d0 ⊢
  have : refs (X.put m c').s.kids (X.put m c').s.D .rc p.1 = refs (upd X.s.kids m c'.flat) X.s.D .rc p.1 := rfl
  rw [this]
  have hext : (X.put m c').s.ext = X.s.ext := rfl
  rw [hext]
  have hle : (X.s.kids m).count (.rc, some p.1) ≤ refs X.s.kids X.s.D .rc p.1 := by
    rw [refs_erase X.s.kids hm]; omega
  omega

end Verif.Rc.MapProps
