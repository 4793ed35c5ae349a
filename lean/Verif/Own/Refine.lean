import Verif.Own.Trees

/-! # Containers and their private memory: the invariant -/

namespace Verif.Own

open Verif.Chain (upd)

/-- a binding of a map: key, value and the tuple that holds them -/
structure Bind where
  key : Nat
  val : Nat
  tup : Nat

/-- What a block of the chain is for its user: nothing of interest; a list, with the dictionary or map it belongs to, if
any; a dictionary with its lists of keys and values, and what was added to it; a tuple of a map; a set with its members; a map with its list
of keys and its bindings; a block that is just being made or deleted; a container that is left alone, with its private memory (for proofs that calls
on other containers do leave it alone). -/
inductive SObj where
  | plain
  | gone
  | list (owner : Option Nat) (xs : List (Option Nat))
  | dict (pol : Policy) (k v : Nat) (adds : List (Nat × Nat))
  | pair (owner key val : Nat)
  | set (pol : Policy) (cmp : Nat → Nat → Int) (xs : List Nat)
  | map (kp vp : Policy) (cmp : Nat → Nat → Int) (k : Nat) (es : List Bind)
  | frozen (o : Obj) (f : Nat → Option Blk)

/-- what a program can have: not a block just being made or deleted, nor one left alone -/
def SObj.real : SObj → Prop
  | .gone => False
  | .frozen .. => False
  | _ => True

abbrev Abs := Nat → Option SObj

variable {al : Malloc} {text : Nat → Hash.Key}

/-- the history of additions for `Hash.Props.firstWrite` -/
def hist (text : Nat → Hash.Key) (adds : List (Nat × Nat)) : List (Hash.Key × Ent) := adds.map fun x => (text x.1, x)

/-- the key of a tuple -/
def keyIn (es : List Bind) (t : Nat) : Nat :=
  match es.find? (fun e => e.tup = t) with
  | some e => e.key
  | none => 0

/-- the block `p` and its private memory; `G` says to which block each private block belongs -/
def Holds (text : Nat → Hash.Key) (s : St) (G : Nat → Option Nat) (p : Nat) : SObj → Prop
  | .plain => s.obj p = .plain ∧ ∀ b, G b ≠ some p
  | .gone => ∀ b, G b ≠ some p
  | .frozen o f => s.obj p = o ∧ ∀ b, (G b = some p ↔ f b ≠ none) ∧ (f b ≠ none → s.mem b = f b)
  | .list _ xs => ∃ size cap a cs, s.obj p = .list size cap a ∧ s.mem a = some (.cells cs) ∧
      CList.Props.Rel ⟨cs, size, cap, .rc⟩ xs ∧ ∀ b, G b = some p ↔ b = a
  | .dict pol k v adds => ∃ t e m u es, s.obj p = .dict pol k v t ∧ s.mem t = some (.tab e m u) ∧
      s.mem e = some (.ents es) ∧ es.length = m + 1 ∧
      (∃ B, Hash.TabInv ⟨es.map (absE text), m, u⟩ B ∧ Hash.Props.Agrees B (hist text adds)) ∧
      ∀ b, G b = some p ↔ b = t ∨ b = e
  | .pair _ k v => s.obj p = .pair k v ∧ ∀ b, G b ≠ some p
  | .set pol cmp xs => Map.Spec.IsOrd cmp ∧ xs.length ≤ 2 ^ 31 ∧ ∃ root, s.obj p = .set pol cmp root ∧
      TreeIn (nodes s.mem) root id cmp xs (fun b => G b = some p)
  | .map kp vp cmp k es => Map.Spec.IsOrd cmp ∧ es.length ≤ 2 ^ 31 ∧ ∃ root, s.obj p = .map kp vp cmp k root ∧
      TreeIn (nodes s.mem) root (keyIn es) cmp (es.map Bind.tup) (fun b => G b = some p)

structure Inv (text : Nat → Hash.Key) (s : St) (L : List Nat) (A : Abs) (G : Nat → Option Nat) : Prop where
  chain : ∃ c, Chain.Props.Inv s.ch L c
  dom : ∀ p, A p ≠ none ↔ p ∈ L
  own : ∀ b, s.mem b ≠ none ↔ G b ≠ none
  ownL : ∀ b p, G b = some p → p ∈ L
  sep : ∀ b, s.mem b ≠ none → s.ch.live b = false
  fin : ∃ l : List Nat, ∀ b, s.mem b ≠ none → b ∈ l
  holds : ∀ p x, A p = some x → Holds text s G p x

/-- the blocks of the chain that belong to another: the lists of a dictionary, the list of keys and the tuples of a map -/
def deps (p : Nat) : SObj → List (Nat × SObj)
  | .dict _ k v adds => [(k, .list (some p) (adds.map fun x => some x.1)), (v, .list (some p) (adds.map fun x => some x.2))]
  | .map _ _ _ k es => (k, .list (some p) (es.map fun e => some e.key)) :: es.map fun e => (e.tup, .pair p e.key e.val)
  | _ => []

/-- the block another belongs to -/
def ownerOf : SObj → Option Nat
  | .list o _ => o
  | .pair o _ _ => some o
  | _ => none

/-- what belongs to a dictionary or a map is there, and holds what was added -/
def Links (A : Abs) : Prop := ∀ p x, A p = some x →
  ((deps p x).map Prod.fst).Nodup ∧ ∀ d ∈ deps p x, A d.1 = some d.2

theorem deps_owner {p : Nat} {x : SObj} {d : Nat × SObj} (h : d ∈ deps p x) : ownerOf d.2 = some p := by
  cases x with
  | dict pol k v adds =>
    simp only [deps, List.mem_cons, List.not_mem_nil, or_false] at h
    rcases h with rfl | rfl <;> rfl
  | map kp vp cmp k es =>
    simp only [deps, List.mem_cons, List.mem_map] at h
    rcases h with rfl | ⟨e, _, rfl⟩ <;> rfl
  | plain => simp [deps] at h
  | gone => simp [deps] at h
  | frozen o f => simp [deps] at h
  | list o xs => simp [deps] at h
  | pair o k v => simp [deps] at h
  | set pol cmp xs => simp [deps] at h

theorem Links.dict {A : Abs} (K : Links A) {p : Nat} {pol : Policy} {k v : Nat} {adds : List (Nat × Nat)}
    (h : A p = some (.dict pol k v adds)) : A k = some (.list (some p) (adds.map fun x => some x.1)) ∧
    A v = some (.list (some p) (adds.map fun x => some x.2)) ∧ k ≠ v := by
  obtain ⟨h1, h2⟩ := K p _ h
  exact ⟨h2 (k, _) (by simp [deps]), h2 (v, _) (by simp [deps]), by simpa [deps] using h1⟩

theorem Links.map {A : Abs} (K : Links A) {p : Nat} {kp vp : Policy} {cmp : Nat → Nat → Int} {k : Nat} {es : List Bind}
    (h : A p = some (.map kp vp cmp k es)) : A k = some (.list (some p) (es.map fun e => some e.key)) ∧
    (∀ e ∈ es, A e.tup = some (.pair p e.key e.val)) ∧ (es.map Bind.tup).Nodup := by
  obtain ⟨h1, h2⟩ := K p _ h
  refine ⟨h2 (k, _) (by simp [deps]), fun e he => h2 (e.tup, _) ?_, ?_⟩
  · simp only [deps, List.mem_cons, List.mem_map]
    exact .inr ⟨e, he, rfl⟩
  · simp only [deps, List.map_cons, List.map_map, List.nodup_cons] at h1
    exact h1.2

/-- a change at the addresses `D` -/
theorem Links.of {A A' : Abs} (K : Links A) (D : List Nat) (hoff : ∀ q, q ∉ D → A' q = A q)
    (hown : ∀ q ∈ D, ∀ x o, A q = some x → ownerOf x = some o → o ∈ D)
    (hin : ∀ p ∈ D, ∀ x, A' p = some x → ((deps p x).map Prod.fst).Nodup ∧ ∀ d ∈ deps p x, A' d.1 = some d.2) : Links A' := by
  intro p x hp
  by_cases hD : p ∈ D
  · exact hin p hD x hp
  · rw [hoff p hD] at hp
    obtain ⟨h1, h2⟩ := K p x hp
    refine ⟨h1, fun d hd => ?_⟩
    by_cases hd' : d.1 ∈ D
    · exact absurd (hown d.1 hd' d.2 p (h2 d hd) (deps_owner hd)) hD
    · rw [hoff d.1 hd']; exact h2 d hd

theorem Inv.live {s : St} {L : List Nat} {A : Abs} {G : Nat → Option Nat} (I : Inv text s L A G) (x : Nat) :
    s.ch.live x = true ↔ x = 0 ∨ x ∈ L := I.chain.elim fun _ h => h.live x

theorem Inv.finite {s : St} {L : List Nat} {A : Abs} {G : Nat → Option Nat} (I : Inv text s L A G) : Finite s := by
  obtain ⟨l, hl⟩ := I.fin
  refine ⟨0 :: L ++ l, fun p hp => ?_⟩
  simp only [used, Bool.or_eq_true, Option.isSome_iff_ne_none] at hp
  rcases hp with hp | hp
  · rcases (I.live p).1 hp with h | h <;> simp [h]
  · simp [hl p hp]

theorem Inv.ne0 {s : St} {L : List Nat} {A : Abs} {G : Nat → Option Nat} (I : Inv text s L A G) {b : Nat}
    (h : s.mem b ≠ none) : b ≠ 0 := by
  rintro rfl
  have := I.sep 0 h
  rw [(I.live 0).2 (.inl rfl)] at this
  simp at this

theorem Inv.mem {s : St} {L : List Nat} {A : Abs} {G : Nat → Option Nat} (I : Inv text s L A G) {p : Nat} {x : SObj}
    (h : A p = some x) : p ∈ L := (I.dom p).1 (by simp [h])

theorem Inv.liveOf {s : St} {L : List Nat} {A : Abs} {G : Nat → Option Nat} (I : Inv text s L A G) {p : Nat} {x : SObj}
    (h : A p = some x) : s.ch.live p = true := (I.live p).2 (.inr (I.mem h))

theorem Inv.getObj {s : St} {L : List Nat} {A : Abs} {G : Nat → Option Nat} (I : Inv text s L A G) {p : Nat} {x : SObj}
    (h : A p = some x) : getObj s p = .ok (s.obj p) := by simp only [Own.getObj, I.liveOf h, if_true]

theorem Inv.free_none {s : St} {L : List Nat} {A : Abs} {G : Nat → Option Nat} (I : Inv text s L A G) {b : Nat}
    (h : s.mem b = none) : G b = none := by
  cases hg : G b with
  | none => rfl
  | some p => exact absurd h ((I.own b).2 (by simp [hg]))

theorem Holds.frame {s s' : St} {G G' : Nat → Option Nat} {p : Nat} {x : SObj} (h : Holds text s G p x)
    (ho : s'.obj p = s.obj p) (hm : ∀ b, G b = some p → s'.mem b = s.mem b)
    (hg : ∀ b, G' b = some p ↔ G b = some p) : Holds text s' G' p x := by
  cases x with
  | plain =>
    obtain ⟨h1, h2⟩ := h
    exact ⟨by rw [ho]; exact h1, fun b hb => h2 b ((hg b).1 hb)⟩
  | gone => exact fun b hb => h b ((hg b).1 hb)
  | frozen o f =>
    obtain ⟨h1, h2⟩ := h
    exact ⟨by rw [ho]; exact h1, fun b => ⟨(hg b).trans (h2 b).1, fun hf => by rw [hm b ((h2 b).1.2 hf)]; exact (h2 b).2 hf⟩⟩
  | list o xs =>
    obtain ⟨size, cap, a, cs, h1, h2, h3, h4⟩ := h
    exact ⟨size, cap, a, cs, by rw [ho]; exact h1, by rw [hm a ((h4 a).2 rfl)]; exact h2, h3,
      fun b => (hg b).trans (h4 b)⟩
  | dict pol k v adds =>
    obtain ⟨t, e, m, u, es, h1, h2, h3, h4, h5, h6⟩ := h
    exact ⟨t, e, m, u, es, by rw [ho]; exact h1, by rw [hm t ((h6 t).2 (.inl rfl))]; exact h2,
      by rw [hm e ((h6 e).2 (.inr rfl))]; exact h3, h4, h5, fun b => (hg b).trans (h6 b)⟩
  | pair o k v =>
    obtain ⟨h1, h2⟩ := h
    exact ⟨by rw [ho]; exact h1, fun b hb => h2 b ((hg b).1 hb)⟩
  | set pol cmp xs =>
    obtain ⟨h1, h2, root, h3, h4⟩ := h
    exact ⟨h1, h2, root, by rw [ho]; exact h3, h4.congr (fun b hb => by simp only [nodes, hm b hb]) (fun _ _ => rfl) hg⟩
  | map kp vp cmp k es =>
    obtain ⟨h1, h2, root, h3, h4⟩ := h
    exact ⟨h1, h2, root, by rw [ho]; exact h3, h4.congr (fun b hb => by simp only [nodes, hm b hb]) (fun _ _ => rfl) hg⟩

/-! ## One container changes -/

/-- The object at `l` gets other contents and its private memory is changed; what belongs to other objects stays. -/
theorem Inv.change {s s' : St} {L : List Nat} {A : Abs} {G G' : Nat → Option Nat} (I : Inv text s L A G) {l : Nat}
    {x x' : SObj} (hl : A l = some x) (hch : s'.ch = s.ch) (hobj : ∀ p, p ≠ l → s'.obj p = s.obj p)
    (hmem : ∀ b, G b ≠ some l → s.mem b ≠ none → s'.mem b = s.mem b)
    (hG : ∀ b p, p ≠ l → (G' b = some p ↔ G b = some p))
    (hown : ∀ b, s'.mem b ≠ none ↔ G' b ≠ none)
    (hnew : ∀ b, G' b = some l → s'.ch.live b = false)
    (hfin : ∃ f : List Nat, ∀ b, G' b = some l → b ∈ f)
    (hx : Holds text s' G' l x') : Inv text s' L (upd A l (some x')) G' := by
  refine ⟨by rw [hch]; exact I.chain, fun p => ?_, hown, fun b p hb => ?_, fun b hb => ?_, ?_, fun p y hp => ?_⟩
  · by_cases h : p = l
    · subst h; simp [upd_same, I.mem hl]
    · rw [upd_ne _ _ h]; exact I.dom p
  · by_cases h : p = l
    · subst h; exact I.mem hl
    · exact I.ownL b p ((hG b p h).1 hb)
  · have hg := (hown b).1 hb
    obtain ⟨p, hp⟩ := Option.ne_none_iff_exists'.1 hg
    by_cases h : p = l
    · subst h; exact hnew b hp
    · rw [hch]
      exact I.sep b ((I.own b).2 (by rw [(hG b p h).1 hp]; simp))
  · obtain ⟨f, hf⟩ := I.fin
    obtain ⟨f', hf'⟩ := hfin
    refine ⟨f ++ f', fun b hb => ?_⟩
    obtain ⟨p, hp⟩ := Option.ne_none_iff_exists'.1 ((hown b).1 hb)
    by_cases h : p = l
    · subst h; exact List.mem_append_right _ (hf' b hp)
    · exact List.mem_append_left _ (hf b ((I.own b).2 (by rw [(hG b p h).1 hp]; simp)))
  · by_cases h : p = l
    · subst h
      rw [upd_same, Option.some.injEq] at hp
      exact hp ▸ hx
    · rw [upd_ne _ _ h] at hp
      refine (I.holds p y hp).frame (hobj p h) (fun b hb => ?_) (fun b => hG b p h)
      exact hmem b (by rw [hb]; simpa using h) ((I.own b).2 (by simp [hb]))

/-- a list after an operation on it -/
theorem Inv.list {s s' : St} {L : List Nat} {A : Abs} {G : Nat → Option Nat} (I : Inv text s L A G) {l : Nat}
    {o : Option Nat} {xs xs' : List (Option Nat)} (hl : A l = some (.list o xs)) {size cap a : Nat}
    (hobj : s.obj l = .list size cap a) {size' cap' a' : Nat} {cs' : List (CList.Cell Nat)}
    (hch : s'.ch = s.ch) (ho : s'.obj = upd s.obj l (.list size' cap' a'))
    (hm : s'.mem = upd (upd s.mem a none) a' (some (.cells cs'))) (ha : a' = a ∨ Fresh s a')
    (hr : CList.Props.Rel ⟨cs', size', cap', .rc⟩ xs') (o' : Option Nat) :
    ∃ G', Inv text s' L (upd A l (some (.list o' xs'))) G' := by
  obtain ⟨size0, cap0, a0, cs0, h1, h2, h3, h4⟩ := I.holds l _ hl
  rw [hobj] at h1
  cases h1
  have ha' : G a' = some l ∨ G a' = none := by
    rcases ha with rfl | ha
    · exact .inl ((h4 _).2 rfl)
    · exact .inr (I.free_none ha.2.2)
  have hGl : ∀ b, upd (upd G a none) a' (some l) b = some l ↔ b = a' := by
    intro b
    simp only [upd]
    by_cases h : b = a'
    · simp [h]
    · simp only [h, if_false]
      by_cases h' : b = a
      · simp [h']
      · simp only [h', if_false, iff_false]
        exact fun hb => h' ((h4 b).1 hb)
  refine ⟨upd (upd G a none) a' (some l), I.change hl hch (fun p hp => by rw [ho, upd_ne _ _ hp]) (fun b hb _ => ?_)
    (fun b p hp => ?_) (fun b => ?_) (fun b hb => ?_) ⟨[a'], fun b hb => by simpa using (hGl b).1 hb⟩ ?_⟩
  · have hba : b ≠ a := fun h => hb ((h4 b).2 h)
    have hba' : b ≠ a' := by
      rcases ha with rfl | ha
      · exact hba
      · rintro rfl
        exact absurd ha.2.2 (by assumption)
    rw [hm, upd_ne _ _ hba', upd_ne _ _ hba]
  · simp only [upd]
    by_cases h : b = a'
    · subst h
      simp only [if_true, Option.some.injEq]
      constructor
      · exact fun e => absurd e.symm hp
      · intro e; rcases ha' with h | h <;> rw [h] at e <;> simp at e; exact absurd e.symm hp
    · simp only [h, if_false]
      by_cases h' : b = a
      · subst h'
        have : G b = some l := (h4 b).2 rfl
        simp only [if_true, this, Option.some.injEq]
        simpa using fun e => hp e.symm
      · simp [h']
  · rw [hm]
    simp only [upd]
    by_cases h : b = a'
    · simp [h]
    · simp only [h, if_false]
      by_cases h' : b = a
      · simp [h']
      · simp only [h', if_false]; exact I.own b
  · rw [(hGl b).1 hb, hch]
    rcases ha with rfl | ha
    · exact I.sep _ (by rw [h2]; simp)
    · exact ha.2.1
  · exact ⟨size', cap', a', cs', by rw [ho, upd_same], by rw [hm, upd_same], hr, hGl⟩

/-- a dictionary after an operation on its table -/
theorem Inv.dict {s s' : St} {L : List Nat} {A : Abs} {G : Nat → Option Nat} (I : Inv text s L A G) {d : Nat}
    {pol : Policy} {k v : Nat} {adds adds' : List (Nat × Nat)} (hd : A d = some (.dict pol k v adds))
    {t e m u : Nat} (hobj : s.obj d = .dict pol k v t) (ht : s.mem t = some (.tab e m u)) {e' m' u' : Nat} {es' : List Ent}
    (hch : s'.ch = s.ch) (ho : s'.obj = s.obj)
    (hm : s'.mem = upd (upd (upd s.mem e none) e' (some (.ents es'))) t (some (.tab e' m' u')))
    (he' : e' = e ∨ Fresh s e') (hlen : es'.length = m' + 1)
    (hB : ∃ B, Hash.TabInv ⟨es'.map (absE text), m', u'⟩ B ∧ Hash.Props.Agrees B (hist text adds')) :
    ∃ G', Inv text s' L (upd A d (some (.dict pol k v adds'))) G' := by
  obtain ⟨t0, e0, m0, u0, es0, h1, h2, h3, h4, h5, h6⟩ := I.holds d _ hd
  rw [hobj] at h1
  cases h1
  rw [ht] at h2
  cases h2
  have hte : t ≠ e := by rintro rfl; rw [h3] at ht; simp at ht
  have hte' : t ≠ e' := by
    rcases he' with rfl | h
    · exact hte
    · rintro rfl; rw [h.2.2] at ht; simp at ht
  have hGt : G t = some d := (h6 t).2 (.inl rfl)
  have hGe' : G e' = some d ∨ G e' = none := by
    rcases he' with rfl | h
    · exact .inl ((h6 _).2 (.inr rfl))
    · exact .inr (I.free_none h.2.2)
  have hGl : ∀ b, upd (upd G e none) e' (some d) b = some d ↔ b = t ∨ b = e' := by
    intro b
    simp only [upd]
    by_cases h : b = e'
    · simp [h]
    · simp only [h, if_false]
      by_cases h' : b = e
      · subst h'; simp [hte.symm]
      · simp only [h', if_false, or_false]
        rw [h6 b]; simp [h']
  refine ⟨upd (upd G e none) e' (some d), I.change hd hch (fun p hp => by rw [ho]) (fun b hb hb' => ?_)
    (fun b p hp => ?_) (fun b => ?_) (fun b hb => ?_) ⟨[t, e'], fun b hb => by simpa using (hGl b).1 hb⟩ ?_⟩
  · have hbt : b ≠ t := fun h => hb ((h6 b).2 (.inl h))
    have hbe : b ≠ e := fun h => hb ((h6 b).2 (.inr h))
    have hbe' : b ≠ e' := by
      rcases he' with rfl | h
      · exact hbe
      · rintro rfl; exact hb' h.2.2
    rw [hm, upd_ne _ _ hbt, upd_ne _ _ hbe', upd_ne _ _ hbe]
  · simp only [upd]
    by_cases h : b = e'
    · subst h
      simp only [if_true, Option.some.injEq]
      constructor
      · exact fun e => absurd e.symm hp
      · intro e; rcases hGe' with h | h <;> rw [h] at e <;> simp at e; exact absurd e.symm hp
    · simp only [h, if_false]
      by_cases h' : b = e
      · subst h'
        have : G b = some d := (h6 b).2 (.inr rfl)
        simp only [if_true, this, Option.some.injEq]
        simpa using fun e => hp e.symm
      · simp [h']
  · rw [hm]
    simp only [upd]
    by_cases h0 : b = t
    · subst h0; simp [hte', hte, hGt]
    · simp only [h0, if_false]
      by_cases h : b = e'
      · simp [h]
      · simp only [h, if_false]
        by_cases h' : b = e
        · simp [h']
        · simp only [h', if_false]; exact I.own b
  · rw [hch]
    rcases (hGl b).1 hb with rfl | rfl
    · exact I.sep _ (by rw [ht]; simp)
    · rcases he' with rfl | h
      · exact I.sep _ (by rw [h3]; simp)
      · exact h.2.1
  · refine ⟨t, e', m', u', es', by rw [ho]; exact hobj, by rw [hm, upd_same], ?_, hlen, hB, hGl⟩
    rw [hm, upd_ne _ _ hte'.symm, upd_same]

open Classical in
/-- a container whose tree has become `h'`, with nodes at the addresses `own'` -/
theorem Inv.tree {s : St} {L : List Nat} {A : Abs} {G : Nat → Option Nat} (I : Inv text s L A G) {l : Nat}
    {x x' : SObj} (hl : A l = some x) {h' : Nat → Option (TreeMem.TNode Nat)} {own' : Nat → Prop} {o : Obj} {n : Nat}
    (hold : ∀ b, G b = some l → nodes s.mem b ≠ none) (hoff : ∀ b, G b ≠ some l → ¬ own' b → h' b = nodes s.mem b)
    (hnew : ∀ b, own' b → G b = some l ∨ Fresh s b) (hsome : ∀ b, own' b → h' b ≠ none)
    (hnone : ∀ b, G b = some l → ¬ own' b → h' b = none) (hfin : ∃ f : List Nat, ∀ b, own' b → b ∈ f)
    (hx : ∀ G', (∀ b, G' b = some l ↔ own' b) → Holds text ⟨s.ch, upd s.obj l o, setNodes s.mem h', n⟩ G' l x') :
    ∃ G', Inv text ⟨s.ch, upd s.obj l o, setNodes s.mem h', n⟩ L (upd A l (some x')) G' := by
  have hGl : ∀ b, (if own' b then some l else if G b = some l then none else G b) = some l ↔ own' b := by
    intro b
    by_cases h : own' b
    · simp [h]
    · by_cases h2 : G b = some l <;> simp [h, h2]
  refine ⟨fun b => if own' b then some l else if G b = some l then none else G b, I.change hl rfl
    (fun p hp => by simp only [upd_ne _ _ hp]) (fun b hb hb' => ?_) (fun b p hp => ?_) (fun b => ?_) (fun b hb => ?_) ?_ (hx _ hGl)⟩
  · have : ¬ own' b := fun h => (hnew b h).elim hb (fun h => hb' h.2.2)
    exact setNodes_same (hoff b hb this)
  · by_cases h : own' b
    · simp only [h, if_true, Option.some.injEq]
      constructor
      · exact fun e => absurd e.symm hp
      · intro e
        rcases hnew b h with h | h
        · rw [h] at e; simp at e; exact absurd e.symm hp
        · rw [I.free_none h.2.2] at e; simp at e
    · by_cases h2 : G b = some l
      · simp [h, h2, Ne.symm hp]
      · simp [h, h2]
  · by_cases h : own' b
    · obtain ⟨v, hv⟩ := Option.ne_none_iff_exists'.1 (hsome b h)
      simp [h, setNodes, hv]
    · by_cases h2 : G b = some l
      · simp [h, h2, setNodes_none (hnone b h2 h) (.inl (hold b h2))]
      · simp only [h, h2, if_false, setNodes_same (hoff b h2 h)]
        exact I.own b
  · rcases hnew b ((hGl b).1 hb) with h | h
    · exact I.sep b ((I.own b).2 (by simp [h]))
    · exact h.2.1
  · obtain ⟨f, hf⟩ := hfin
    exact ⟨f, fun b hb => hf b ((hGl b).1 hb)⟩

/-- a new block of the chain -/
theorem mkObj_ok (hal : al.Sound) {s : St} {L : List Nat} {A : Abs} {G : Nat → Option Nat} (I : Inv text s L A G)
    (o : Obj) : ∃ s' r, mkObj al s o = .ok (s', r) ∧ r ≠ 0 ∧ r ∉ L ∧ A r = none ∧ (∃ c, Chain.Props.Inv s'.ch (L ++ [r]) c) ∧
      s'.obj = upd s.obj r o ∧ s'.mem = s.mem ∧ s.mem r = none := by
  obtain ⟨r0, rl, rm⟩ := fresh hal I.finite
  obtain ⟨c, hc⟩ := I.chain
  have hrL : al.addr s.n (used s) ∉ L := fun h => by
    rw [(I.live _).2 (.inr h)] at rl; simp at rl
  obtain ⟨h', e, I'⟩ := Chain.Props.exec_spec hc (.alloc (al.addr s.n (used s))) ⟨r0, hrL⟩
  refine ⟨⟨h', upd s.obj (al.addr s.n (used s)) o, s.mem, s.n + 1⟩, al.addr s.n (used s), ?_, r0, hrL, ?_, ⟨_, I'⟩, rfl, rfl, rm⟩
  · have : Chain.alloc s.ch (al.addr s.n (used s)) = .ok h' := e
    simp only [mkObj, this, Res.bind_ok]
  · by_contra h
    exact hrL ((I.dom _).1 h)

/-- the invariant after a new block, with its private memory -/
theorem Inv.add {s s' : St} {L : List Nat} {A : Abs} {G G' : Nat → Option Nat} (I : Inv text s L A G) {r : Nat}
    (hr : r ∉ L) (hc : ∃ c, Chain.Props.Inv s'.ch (L ++ [r]) c) (ho : ∀ p, p ≠ r → s'.obj p = s.obj p)
    (hrm : s'.mem r = none)
    (hmem : ∀ b, s.mem b ≠ none → s'.mem b = s.mem b)
    (hG : ∀ b p, p ≠ r → (G' b = some p ↔ G b = some p))
    (hown : ∀ b, s'.mem b ≠ none ↔ G' b ≠ none)
    (hnew : ∀ b, G' b = some r → s.ch.live b = false)
    (hfin : ∃ f : List Nat, ∀ b, G' b = some r → b ∈ f)
    {x : SObj} (hx : Holds text s' G' r x) : Inv text s' (L ++ [r]) (upd A r (some x)) G' := by
  have hlive : ∀ y, s'.ch.live y = true ↔ y = 0 ∨ y ∈ L ++ [r] := fun y => hc.elim fun _ h => h.live y
  have hnone : ∀ b, s.mem b ≠ none → b ≠ r := by
    rintro b hb rfl
    have := hmem b hb
    rw [hrm] at this
    exact hb this.symm
  refine ⟨hc, fun p => ?_, hown, fun b p hb => ?_, fun b hb => ?_, ?_, fun p y hp => ?_⟩
  · by_cases h : p = r
    · subst h; simp [upd_same]
    · rw [upd_ne _ _ h, I.dom p]; simp [h]
  · by_cases h : p = r
    · subst h; simp
    · exact List.mem_append_left _ (I.ownL b p ((hG b p h).1 hb))
  · obtain ⟨p, hp⟩ := Option.ne_none_iff_exists'.1 ((hown b).1 hb)
    have hbr : b ≠ r := by rintro rfl; exact hb hrm
    have hbl : s.ch.live b = false := by
      by_cases h : p = r
      · subst h; exact hnew b hp
      · exact I.sep b ((I.own b).2 (by rw [(hG b p h).1 hp]; simp))
    cases hv : s'.ch.live b with
    | false => rfl
    | true =>
      have := (hlive b).1 hv
      simp only [List.mem_append, List.mem_singleton, hbr, or_false] at this
      rw [(I.live b).2 this] at hbl
      simp at hbl
  · obtain ⟨f, hf⟩ := I.fin
    obtain ⟨f', hf'⟩ := hfin
    refine ⟨f ++ f', fun b hb => ?_⟩
    obtain ⟨p, hp⟩ := Option.ne_none_iff_exists'.1 ((hown b).1 hb)
    by_cases h : p = r
    · subst h; exact List.mem_append_right _ (hf' b hp)
    · exact List.mem_append_left _ (hf b ((I.own b).2 (by rw [(hG b p h).1 hp]; simp)))
  · by_cases h : p = r
    · subst h
      rw [upd_same, Option.some.injEq] at hp
      exact hp ▸ hx
    · rw [upd_ne _ _ h] at hp
      refine (I.holds p y hp).frame (ho p h) (fun b hb => ?_) (fun b => hG b p h)
      exact hmem b ((I.own b).2 (by simp [hb]))

/-- a block leaves, with its private memory -/
theorem Inv.drop {s s' : St} {L : List Nat} {A : Abs} {G G' : Nat → Option Nat} (I : Inv text s L A G) {r : Nat}
    (hc : ∃ c, Chain.Props.Inv s'.ch (L.erase r) c) (ho : s'.obj = s.obj)
    (hG : ∀ b, G' b = if G b = some r then none else G b)
    (hm : ∀ b, s'.mem b = if G b = some r then none else s.mem b) :
    Inv text s' (L.erase r) (upd A r none) G' := by
  have hnd : L.Nodup := I.chain.elim fun _ h => h.nodup
  have hlive : ∀ y, s'.ch.live y = true ↔ y = 0 ∨ y ∈ L.erase r := fun y => hc.elim fun _ h => h.live y
  have hGi : ∀ b p, p ≠ r → (G' b = some p ↔ G b = some p) := by
    intro b p hp
    rw [hG]
    split
    · next h => simp [h, hp.symm]
    · rfl
  have hsub : ∀ b, s'.mem b ≠ none → s.mem b ≠ none := by
    intro b hb
    rw [hm] at hb
    split at hb <;> simp_all
  refine ⟨hc, fun p => ?_, fun b => ?_, fun b p hb => ?_, fun b hb => ?_, ?_, fun p y hp => ?_⟩
  · by_cases h : p = r
    · subst h; simp [upd_same, hnd.not_mem_erase]
    · rw [upd_ne _ _ h, I.dom p, List.mem_erase_of_ne h]
  · rw [hm, hG]
    split
    · simp
    · exact I.own b
  · rw [hG] at hb
    split at hb
    · simp at hb
    · next h =>
      have : p ≠ r := by rintro rfl; exact h hb
      rw [List.mem_erase_of_ne this]
      exact I.ownL b p hb
  · have h1 := I.sep b (hsub b hb)
    cases hv : s'.ch.live b with
    | false => rfl
    | true =>
      have h2 := (hlive b).1 hv
      have : s.ch.live b = true := (I.live b).2 (h2.imp id List.mem_of_mem_erase)
      rw [this] at h1; simp at h1
  · obtain ⟨f, hf⟩ := I.fin
    exact ⟨f, fun b hb => hf b (hsub b hb)⟩
  · have h : p ≠ r := by rintro rfl; simp [upd_same] at hp
    rw [upd_ne _ _ h] at hp
    refine (I.holds p y hp).frame (by rw [ho]) (fun b hb => ?_) (fun b => hGi b p h)
    rw [hm, if_neg (by rw [hb]; simpa using h)]

end Verif.Own
