import Verif.Chain.Model
import Mathlib.Data.List.Nodup

/-! # Properties of the trace chain (C16, C17) -/

namespace Verif.Chain.Props

/-! ## Specification: the list of live blocks, oldest chain position first -/

inductive Op where
  | alloc (a : Nat)
  | del (a : Nat)
  | resizeR (a b : Nat)
  | resizeM (a b : Nat)
  deriving DecidableEq

/-- the allocator returns an address that is not in use (`realloc` may return the same one); only
live blocks are deleted or resized -/
def OkOp (L : List Nat) : Op → Prop
  | .alloc a => a ≠ 0 ∧ a ∉ L
  | .del a => a ∈ L
  | .resizeR a b => a ∈ L ∧ b ≠ 0 ∧ (b = a ∨ b ∉ L)
  | .resizeM a b => a ∈ L ∧ b ≠ 0 ∧ b ∉ L

instance (L : List Nat) (op : Op) : Decidable (OkOp L op) := by
  cases op <;> unfold OkOp <;> infer_instance

def specStep (L : List Nat) : Op → List Nat
  | .alloc a => L ++ [a]
  | .del a => L.erase a
  | .resizeR a b => L.erase a ++ [b]
  | .resizeM _ b => L ++ [b]

def specRun (L : List Nat) : List Op → List Nat
  | [] => L
  | op :: ops => specRun (specStep L op) ops

def Legal (L : List Nat) : List Op → Prop
  | [] => True
  | op :: ops => OkOp L op ∧ Legal (specStep L op) ops

instance decLegal : (L : List Nat) → (ops : List Op) → Decidable (Legal L ops)
  | _, [] => .isTrue trivial
  | L, op :: ops => by
    unfold Legal
    have := decLegal (specStep L op) ops
    infer_instance

/-- does the last block of the chain have a NULL `trace_next`?  An allocation and the deletion of
the last block establish it; resizing the last block keeps what it was; resizing any other block
destroys it; other deletions keep it. -/
def cleanStep (L : List Nat) (c : Bool) : Op → Bool
  | .alloc _ => true
  | .del a => if L.getLast? = some a then true else c
  | .resizeR a _ => if L.getLast? = some a then c else false
  | .resizeM a _ => if L.getLast? = some a then c else false

def cleanRun (L : List Nat) (c : Bool) : List Op → Bool
  | [] => c
  | op :: ops => cleanRun (specStep L op) (cleanStep L c op) ops

/-- execution on the model -/
def exec (h : Heap) : Op → Res Heap
  | .alloc a => alloc h a
  | .del a => del h a
  | .resizeR a b => resizeRealloc h a b
  | .resizeM a b => resizeMalloc h a b

def execAll (h : Heap) : List Op → Res Heap
  | [] => .ok h
  | op :: ops => (exec h op).bind (fun h' => execAll h' ops)

/-! ## Invariant -/

/-- neighbours in the list point at each other -/
def Linked (h : Heap) : List Nat → Prop
  | [] => True
  | [_] => True
  | x :: y :: r => h.next x = some y ∧ h.prev y = some x ∧ Linked h (y :: r)

theorem Linked_append (h : Heap) (A : List Nat) (p n : Nat) (B : List Nat) :
    Linked h (A ++ p :: n :: B) ↔
      Linked h (A ++ [p]) ∧ (h.next p = some n ∧ h.prev n = some p) ∧ Linked h (n :: B) := by
  induction A with
  | nil => simp [Linked, and_assoc]
  | cons x A ih =>
    cases A with
    | nil =>
      simp only [List.nil_append, List.cons_append, Linked] at ih ⊢
      tauto
    | cons y A =>
      simp only [List.cons_append, Linked] at ih ⊢
      rw [ih]
      tauto

theorem Linked_congr {h h' : Heap} : ∀ {l : List Nat},
    (∀ x ∈ l.dropLast, h'.next x = h.next x) → (∀ y ∈ l.tail, h'.prev y = h.prev y) →
    Linked h l → Linked h' l
  | [], _, _, _ => trivial
  | [_], _, _, _ => trivial
  | x :: y :: r, h1, h2, h3 => by
    refine ⟨?_, ?_, ?_⟩
    · rw [h1 x (by simp)]; exact h3.1
    · rw [h2 y (by simp)]; exact h3.2.1
    · apply Linked_congr _ _ h3.2.2
      · intro z hz; exact h1 z (by simp [List.dropLast_cons_of_ne_nil, hz])
      · intro z hz; exact h2 z (by simp at hz ⊢; exact .inr hz)

theorem mem_dropLast' {l : List Nat} {a : Nat} (h : a ∈ l.dropLast) : a ∈ l :=
  (List.dropLast_sublist l).subset h

theorem getLast?_app (A : List Nat) (x : Nat) (B : List Nat) :
    (A ++ x :: B).getLast? = (x :: B).getLast? := by
  rw [List.getLast?_append]
  cases hx : (x :: B).getLast? with
  | none => simp at hx
  | some z => simp

/-- link invariant of the chain `M` (state first) -/
structure LInv (h : Heap) (M : List Nat) (c : Bool) : Prop where
  nodup : M.Nodup
  linked : Linked h M
  tail : M.getLast? = some h.tail
  clean : h.next h.tail = none ↔ c = true

theorem getLast?_mem {l : List Nat} {a : Nat} (h : l.getLast? = some a) : a ∈ l :=
  List.mem_of_getLast? h

theorem eq_snoc {M : List Nat} {t : Nat} (h : M.getLast? = some t) : ∃ A, M = A ++ [t] := by
  obtain ⟨A, hA⟩ := List.getLast?_eq_some_iff.1 h
  exact ⟨A, hA⟩

theorem chain_spec {h : Heap} {M : List Nat} {c : Bool} (I : LInv h M c) {a : Nat} (ha : a ∉ M)
    (hl : h.live a = true) (ht : h.live h.tail = true) :
    ∃ h', chain h a = .ok h' ∧ h'.live = h.live ∧ LInv h' (M ++ [a]) (h.next a).isNone := by
  have hta : a ≠ h.tail := fun e => ha (e ▸ getLast?_mem I.tail)
  obtain ⟨A, rfl⟩ := eq_snoc I.tail
  refine ⟨⟨h.live, upd h.next h.tail (some a), upd h.prev a (some h.tail), a⟩, ?_, rfl, ?_⟩
  · simp [chain, setPrev, setNext, hl, ht]
  · refine ⟨?_, ?_, by simp, ?_⟩
    · rw [List.nodup_append]
      refine ⟨I.nodup, by simp, ?_⟩
      intro x hx y hy
      simp only [List.mem_singleton] at hy
      rintro rfl; exact ha (hy ▸ hx)
    · have : A ++ [h.tail] ++ [a] = A ++ h.tail :: a :: [] := by simp
      rw [this, Linked_append]
      refine ⟨?_, ⟨by simp [upd], by simp [upd]⟩, trivial⟩
      apply Linked_congr _ _ I.linked
      · intro x hx
        simp only [List.dropLast_concat] at hx
        have hnd := I.nodup
        rw [List.nodup_append] at hnd
        have : x ≠ h.tail := fun e => hnd.2.2 x hx h.tail (by simp) e
        simp [upd, this]
      · intro y hy
        have hy' : y ∈ A ++ [h.tail] := List.mem_of_mem_tail hy
        have : y ≠ a := fun e => ha (e ▸ hy')
        simp [upd, this]
    · simp only [upd]
      rw [if_neg hta]
      simp

theorem deChain_spec {h : Heap} {A : List Nat} {p a : Nat} {B : List Nat} {c : Bool}
    (I : LInv h (A ++ p :: a :: B) c) (hlive : ∀ x ∈ A ++ p :: a :: B, h.live x = true) :
    ∃ h', deChain h a = .ok h' ∧ h'.live = h.live ∧ h'.next a = h.next a ∧
      LInv h' (A ++ p :: B) (if B = [] then true else c) := by
  have hL := (Linked_append h A p a B).1 I.linked
  obtain ⟨hA, ⟨hpa, hap⟩, hB⟩ := hL
  have hnd := I.nodup
  have hsub : (A ++ p :: B).Nodup := by
    have : (A ++ p :: B).Sublist (A ++ p :: a :: B) :=
      List.Sublist.append (List.Sublist.refl _) ((List.sublist_cons_self a B).cons_cons p)
    exact hnd.sublist this
  have hap_ne : a ≠ p := by
    rintro rfl
    rw [List.nodup_append] at hnd
    simp at hnd
  have hpA : p ∉ A := by
    rw [List.nodup_append] at hnd
    exact fun hx => hnd.2.2 p hx p (by simp) rfl
  have hla : h.live a = true := hlive a (by simp)
  have hlp : h.live p = true := hlive p (by simp)
  cases B with
  | nil =>
    have htail : h.tail = a := by
      have := I.tail
      simp at this
      exact this.symm
    refine ⟨{ h with next := upd h.next p none, tail := p }, ?_, rfl, ?_, hsub, ?_, by simp, ?_⟩
    · simp [deChain, hla, hap, htail, setNext, hlp]
    · simp [upd, hap_ne]
    · apply Linked_congr _ _ hA
      · intro x hx
        simp only [List.dropLast_concat] at hx
        have : x ≠ p := fun e => hpA (e ▸ hx)
        simp [upd, this]
      · intro y _; rfl
    · simp [upd]
  | cons n B =>
    have htail : h.tail ≠ a := by
      intro e
      have ht := I.tail
      rw [e] at ht
      have hm : a ∈ n :: B := by
        have h2 : (A ++ p :: a :: n :: B).getLast? = (n :: B).getLast? := by
          have : A ++ p :: a :: n :: B = (A ++ [p, a]) ++ (n :: B) := by simp
          rw [this, getLast?_app]
        rw [h2] at ht
        exact getLast?_mem ht
      rw [List.nodup_append] at hnd
      simp only [List.nodup_cons] at hnd
      exact hnd.2.1.2.1 hm
    have han : h.next a = some n := hB.1
    have hln : h.live n = true := hlive n (by simp)
    have htl : (n :: B).getLast? = some h.tail := by
      have ht := I.tail
      have h2 : (A ++ p :: a :: n :: B).getLast? = (n :: B).getLast? := by
        have : A ++ p :: a :: n :: B = (A ++ [p, a]) ++ (n :: B) := by simp
        rw [this, getLast?_app]
      rw [← h2]; exact ht
    have hpt : h.tail ≠ p := by
      intro e
      have hm : p ∈ n :: B := e ▸ getLast?_mem htl
      rw [List.nodup_append] at hsub
      simp only [List.nodup_cons] at hsub
      exact hsub.2.1.1 hm
    have hpnB : p ∉ n :: B := by
      rw [List.nodup_append] at hsub
      simp only [List.nodup_cons] at hsub
      exact hsub.2.1.1
    have hnB : n ∉ B := by
      rw [List.nodup_append] at hsub
      simp only [List.nodup_cons] at hsub
      exact hsub.2.1.2.1
    refine ⟨{ h with next := upd h.next p (some n), prev := upd h.prev n (some p) }, ?_, rfl, ?_,
      hsub, ?_, ?_, ?_⟩
    · simp [deChain, hla, hap, htail, han, setNext, setPrev, hlp, hln]
    · simp [upd, hap_ne]
    · rw [Linked_append]
      refine ⟨?_, ⟨by simp [upd], by simp [upd]⟩, ?_⟩
      · apply Linked_congr _ _ hA
        · intro x hx
          simp only [List.dropLast_concat] at hx
          have : x ≠ p := fun e => hpA (e ▸ hx)
          simp [upd, this]
        · intro y hy
          have hy' : y ∈ A ++ [p] := List.mem_of_mem_tail hy
          have : y ≠ n := by
            rintro rfl
            rw [List.nodup_append] at hsub
            simp only [List.mem_append, List.mem_singleton] at hy'
            rcases hy' with h1 | h1
            · exact hsub.2.2 y h1 y (by simp) rfl
            · exact hpnB (h1 ▸ List.mem_cons_self ..)
          simp [upd, this]
      · apply Linked_congr _ _ hB.2.2
        · intro x hx
          have hx' : x ∈ n :: B := mem_dropLast' hx
          have : x ≠ p := fun e => hpnB (e ▸ hx')
          simp [upd, this]
        · intro y hy
          simp only [List.tail_cons] at hy
          have : y ≠ n := fun e => hnB (e ▸ hy)
          simp [upd, this]
    · have h2 : (A ++ p :: n :: B).getLast? = (n :: B).getLast? := by
        have : A ++ p :: n :: B = (A ++ [p]) ++ (n :: B) := by simp
        rw [this, getLast?_app]
      rw [h2]; exact htl
    · simp only [upd]
      rw [if_neg hpt]
      simpa using I.clean

/-- full invariant: the chain is the state followed by `L`, and exactly these blocks are live -/
structure Inv (h : Heap) (L : List Nat) (c : Bool) : Prop where
  links : LInv h (0 :: L) c
  live : ∀ x, h.live x = true ↔ x = 0 ∨ x ∈ L

theorem Inv_mk : Inv stateMk [] true :=
  ⟨⟨by simp, trivial, rfl, by simp [stateMk]⟩, by intro x; simp [stateMk, upd]⟩

theorem Inv.zero_notMem {h : Heap} {L : List Nat} {c : Bool} (I : Inv h L c) : 0 ∉ L :=
  (List.nodup_cons.1 I.links.nodup).1

theorem Inv.nodup {h : Heap} {L : List Nat} {c : Bool} (I : Inv h L c) : L.Nodup :=
  (List.nodup_cons.1 I.links.nodup).2

/-- split of the chain at a live block -/
theorem split_at {L : List Nat} {a : Nat} (ha : a ∈ L) (hnd : L.Nodup) :
    ∃ A p B, 0 :: L = A ++ p :: a :: B ∧ 0 :: L.erase a = A ++ p :: B ∧
      (B = [] ↔ L.getLast? = some a) := by
  obtain ⟨P, B, rfl⟩ := List.append_of_mem ha
  have haP : a ∉ P := by
    rw [List.nodup_append] at hnd
    exact fun hx => hnd.2.2 a hx a (by simp) rfl
  have haB : a ∉ B := by
    rw [List.nodup_append] at hnd
    simp only [List.nodup_cons] at hnd
    exact hnd.2.1.1
  have her : (P ++ a :: B).erase a = P ++ B := by
    rw [List.erase_append_right _ haP]; simp
  have hlast : B = [] ↔ (P ++ a :: B).getLast? = some a := by
    constructor
    · rintro rfl; simp
    · intro hl
      cases B with
      | nil => rfl
      | cons b B =>
        exfalso
        have : (P ++ a :: b :: B).getLast? = (b :: B).getLast? := by
          have : P ++ a :: b :: B = (P ++ [a]) ++ (b :: B) := by simp
          rw [this, getLast?_app]
        rw [this] at hl
        exact haB (getLast?_mem hl)
  rw [her]
  rcases List.eq_nil_or_concat P with rfl | ⟨P', p, rfl⟩
  · exact ⟨[], 0, B, by simp, by simp, hlast⟩
  · exact ⟨0 :: P', p, B, by simp, by simp, hlast⟩

theorem exec_spec {h : Heap} {L : List Nat} {c : Bool} (I : Inv h L c) (op : Op) (ok : OkOp L op) :
    ∃ h', exec h op = .ok h' ∧ Inv h' (specStep L op) (cleanStep L c op) := by
  have h0L := I.zero_notMem
  have htl : h.live h.tail = true := by
    have := getLast?_mem I.links.tail
    exact (I.live _).2 (by simpa using this)
  cases op with
  | alloc a =>
    obtain ⟨ha0, haL⟩ := ok
    have haM : a ∉ 0 :: L := by simp [ha0, haL]
    have hta : h.tail ≠ a := fun e => haM (e ▸ getLast?_mem I.links.tail)
    have I1 : LInv { h with live := upd h.live a true, next := upd h.next a none,
                            prev := upd h.prev a none } (0 :: L) c := by
      refine ⟨I.links.nodup, ?_, I.links.tail, ?_⟩
      · apply Linked_congr _ _ I.links.linked
        · intro x hx
          have : x ≠ a := fun e => haM (e ▸ mem_dropLast' hx)
          simp [upd, this]
        · intro y hy
          have : y ≠ a := fun e => haM (e ▸ List.mem_of_mem_tail hy)
          simp [upd, this]
      · simp only [upd]
        rw [if_neg hta]
        exact I.links.clean
    obtain ⟨h', e, hl, I2⟩ := chain_spec I1 haM (by simp [upd]) (by simp [upd, hta, htl])
    refine ⟨h', e, ⟨by simpa [specStep, cleanStep, upd] using I2, ?_⟩⟩
    intro x
    rw [hl]
    simp only [upd, specStep, List.mem_append, List.mem_singleton]
    by_cases hx : x = a
    · simp [hx]
    · simp [hx, I.live]
  | del a =>
    have haL : a ∈ L := ok
    obtain ⟨A, p, B, hs, he, hB⟩ := split_at haL I.nodup
    have hlive : ∀ x ∈ A ++ p :: a :: B, h.live x = true := by
      intro x hx; rw [← hs] at hx; exact (I.live x).2 (by simpa using hx)
    obtain ⟨h1, e1, hl1, _, I1⟩ := deChain_spec (c := c) (hs ▸ I.links) hlive
    have ha0 : a ≠ 0 := fun e => h0L (e ▸ haL)
    refine ⟨{ h1 with live := upd h1.live a false }, ?_, ⟨?_, ?_⟩⟩
    · simp only [exec, del, e1, Res.ok_bind, free, hl1, (I.live a).2 (.inr haL), if_true]
    · rw [specStep, he]
      have hc : cleanStep L c (.del a) = if B = [] then true else c := by
        simp only [cleanStep, hB]
      rw [hc]
      exact ⟨I1.nodup, Linked_congr (h := h1) (fun _ _ => rfl) (fun _ _ => rfl) I1.linked, I1.tail, I1.clean⟩
    · intro x
      simp only [upd, hl1, specStep]
      rw [I.nodup.mem_erase_iff]
      by_cases hx : x = a
      · simp [hx, ha0]
      · simp [hx, I.live]
  | resizeR a b =>
    obtain ⟨haL, hb0, hb⟩ := ok
    obtain ⟨A, p, B, hs, he, hB⟩ := split_at haL I.nodup
    have hlive : ∀ x ∈ A ++ p :: a :: B, h.live x = true := by
      intro x hx; rw [← hs] at hx; exact (I.live x).2 (by simpa using hx)
    obtain ⟨h1, e1, hl1, hn1, I1⟩ := deChain_spec (c := c) (hs ▸ I.links) hlive
    have ha0 : a ≠ 0 := fun e => h0L (e ▸ haL)
    have hbM : b ∉ A ++ p :: B := by
      rw [← he]
      simp only [List.mem_cons, not_or]
      refine ⟨hb0, ?_⟩
      rw [I.nodup.mem_erase_iff]
      rcases hb with rfl | hb
      · simp
      · exact fun h => hb h.2
    have htb : h1.tail ≠ b := fun e => hbM (e ▸ getLast?_mem I1.tail)
    have hta : h1.tail ≠ a := by
      intro e
      have := getLast?_mem I1.tail
      rw [← he, e] at this
      simp [ha0, I.nodup.mem_erase_iff] at this
    have I2 : LInv { h1 with live := upd (upd h1.live a false) b true,
                             next := upd h1.next b (h1.next a),
                             prev := upd h1.prev b (h1.prev a) } (A ++ p :: B)
        (if B = [] then true else c) := by
      refine ⟨I1.nodup, ?_, I1.tail, ?_⟩
      · apply Linked_congr _ _ I1.linked
        · intro x hx
          have : x ≠ b := fun e => hbM (e ▸ mem_dropLast' hx)
          simp [upd, this]
        · intro y hy
          have : y ≠ b := fun e => hbM (e ▸ List.mem_of_mem_tail hy)
          simp [upd, this]
      · simp only [upd]
        rw [if_neg htb]
        exact I1.clean
    have ht1 : h1.live h1.tail = true := by
      rw [hl1]
      have := getLast?_mem I1.tail
      rw [← he] at this
      simp only [List.mem_cons] at this
      exact (I.live _).2 (this.imp id (fun h => List.mem_of_mem_erase h))
    obtain ⟨h', e, hl, I3⟩ := chain_spec I2 hbM (by simp [upd]) (by simp [upd, htb, hta, ht1])
    refine ⟨h', ?_, ⟨?_, ?_⟩⟩
    · simp only [exec, resizeRealloc, e1, Res.ok_bind, free]
      rw [if_pos (by rw [hl1]; exact (I.live a).2 (.inr haL))]
      exact e
    · have hcs : cleanStep L c (.resizeR a b) = (h.next a).isNone := by
        simp only [cleanStep, ← hB]
        by_cases hBn : B = []
        · rw [if_pos hBn]
          have hta' : h.tail = a := by
            have := I.links.tail
            rw [hs, hBn] at this
            simp at this
            exact this.symm
          have hcl := I.links.clean
          rw [hta'] at hcl
          cases hnx : h.next a <;> cases c <;> simp_all
        · rw [if_neg hBn]
          obtain ⟨n, B', rfl⟩ := List.exists_cons_of_ne_nil hBn
          have hlk := I.links.linked
          rw [hs] at hlk
          have := ((Linked_append h A p a (n :: B')).1 hlk).2.2.1
          simp [this]
      rw [hcs]
      have e2 : (0 :: specStep L (.resizeR a b)) = (A ++ p :: B) ++ [b] := by
        rw [← he]; simp [specStep]
      rw [e2]
      have e3 : (upd h1.next b (h1.next a) b) = h.next a := by simp [upd, hn1]
      simp only [e3] at I3
      exact I3
    · intro x
      rw [hl]
      simp only [upd, hl1, specStep, List.mem_append, List.mem_singleton]
      rw [I.nodup.mem_erase_iff]
      by_cases hxb : x = b
      · simp [hxb]
      · by_cases hx : x = a
        · subst hx; simp [ha0, hxb]
        · simp [hx, hxb, I.live]
  | resizeM a b =>
    obtain ⟨haL, hb0, hbL⟩ := ok
    have hbM : b ∉ 0 :: L := by simp [hb0, hbL]
    have htb : h.tail ≠ b := fun e => hbM (e ▸ getLast?_mem I.links.tail)
    have I1 : LInv { h with live := upd h.live b true, next := upd h.next b (h.next a),
                            prev := upd h.prev b (h.prev a) } (0 :: L) c := by
      refine ⟨I.links.nodup, ?_, I.links.tail, ?_⟩
      · apply Linked_congr _ _ I.links.linked
        · intro x hx
          have : x ≠ b := fun e => hbM (e ▸ mem_dropLast' hx)
          simp [upd, this]
        · intro y hy
          have : y ≠ b := fun e => hbM (e ▸ List.mem_of_mem_tail hy)
          simp [upd, this]
      · simp only [upd]
        rw [if_neg htb]
        exact I.links.clean
    obtain ⟨h', e, hl, I2⟩ := chain_spec I1 hbM (by simp [upd]) (by simp [upd, htb, htl])
    refine ⟨h', ?_, ⟨?_, ?_⟩⟩
    · simp only [exec, resizeMalloc]
      rw [if_pos ((I.live a).2 (.inr haL))]
      exact e
    · have hcs : cleanStep L c (.resizeM a b) = (h.next a).isNone := by
        obtain ⟨A, p, B, hs, he, hB⟩ := split_at haL I.nodup
        simp only [cleanStep, ← hB]
        by_cases hBn : B = []
        · rw [if_pos hBn]
          have hta' : h.tail = a := by
            have := I.links.tail
            rw [hs, hBn] at this
            simp at this
            exact this.symm
          have hcl := I.links.clean
          rw [hta'] at hcl
          cases hnx : h.next a <;> cases c <;> simp_all
        · rw [if_neg hBn]
          obtain ⟨n, B', rfl⟩ := List.exists_cons_of_ne_nil hBn
          have hlk := I.links.linked
          rw [hs] at hlk
          have := ((Linked_append h A p a (n :: B')).1 hlk).2.2.1
          simp [this]
      rw [hcs]
      have e3 : (upd h.next b (h.next a) b) = h.next a := by simp [upd]
      simp only [e3] at I2
      exact I2
    · intro x
      rw [hl]
      simp only [upd, specStep, List.mem_append, List.mem_singleton]
      by_cases hx : x = b
      · simp [hx]
      · simp [hx, I.live]

theorem execAll_spec (ops : List Op) {h : Heap} {L : List Nat} {c : Bool} (I : Inv h L c)
    (hl : Legal L ops) :
    ∃ h', execAll h ops = .ok h' ∧ Inv h' (specRun L ops) (cleanRun L c ops) := by
  induction ops generalizing h L c with
  | nil => exact ⟨h, rfl, I⟩
  | cons op ops ih =>
    obtain ⟨h1, e1, I1⟩ := exec_spec I op hl.1
    obtain ⟨h2, e2, I2⟩ := ih I1 hl.2
    exact ⟨h2, by simp only [execAll, e1, Res.bind, e2], I2⟩

theorem delState_spec (L : List Nat) {h : Heap} {c : Bool} (I : Inv h L c) :
    ∃ h', delState (L.length + 1) h = .ok (some (L.reverse ++ [0], h')) ∧
      ∀ x, h'.live x = false := by
  induction hn : L.length generalizing L h c with
  | zero =>
    have : L = [] := List.eq_nil_of_length_eq_zero hn
    subst this
    have ht : h.tail = 0 := by have := I.links.tail; simp at this; exact this.symm
    refine ⟨{ h with live := upd h.live 0 false }, ?_, ?_⟩
    · simp [delState, ht, free, (I.live 0).2 (.inl rfl)]
    · intro x
      simp only [upd]
      split
      · rfl
      · next hx =>
        cases hv : h.live x with
        | false => rfl
        | true => exact absurd ((I.live x).1 hv) (by simp [hx])
  | succ n ih =>
    have hne : L ≠ [] := by intro h; rw [h] at hn; simp at hn
    obtain ⟨L', t, rfl⟩ : ∃ L' t, L = L' ++ [t] :=
      ⟨L.dropLast, L.getLast hne, (List.dropLast_concat_getLast hne).symm⟩
    have ht : h.tail = t := by
      have := I.links.tail
      rw [← List.cons_append, getLast?_app] at this
      simpa using this.symm
    have ht0 : t ≠ 0 := by
      rintro rfl; exact I.zero_notMem (by simp)
    obtain ⟨h1, e1, I1⟩ := exec_spec I (.del t) (by simp [OkOp])
    have her : (L' ++ [t]).erase t = L' := by
      have := I.nodup
      rw [List.nodup_append] at this
      have hx : t ∉ L' := fun hx => this.2.2 t hx t (by simp) rfl
      rw [List.erase_append_right _ hx]; simp
    simp only [specStep, her] at I1
    obtain ⟨h2, e2, hf⟩ := ih L' I1 (by simpa using hn)
    refine ⟨h2, ?_, hf⟩
    have e1' : del h t = .ok h1 := e1
    unfold delState
    rw [if_neg (by rw [ht]; exact ht0)]
    simp only [ht, e1', Res.ok_bind, e2, Res.pure_eq, Option.map_some, List.reverse_append,
      List.reverse_cons, List.reverse_nil, List.nil_append, List.cons_append]

/-- **C16.**  After every legal history of allocations, deletions and resizes (both methods, any
addresses handed out by the allocator, including reuse), executed without undefined behaviour,
`cee_del(state)` terminates after one round per live block plus one, frees exactly the live blocks,
each once, in reverse chain order, and the state last; nothing is live afterwards. -/
theorem C16_state_delete (ops : List Op) (hl : Legal [] ops) :
    ∃ h h', execAll stateMk ops = .ok h ∧
      delState ((specRun [] ops).length + 1) h = .ok (some ((specRun [] ops).reverse ++ [0], h')) ∧
      ((specRun [] ops).reverse ++ [0]).Nodup ∧
      (∀ x, h.live x = true ↔ x ∈ (specRun [] ops).reverse ++ [0]) ∧
      (∀ x, h'.live x = false) := by
  obtain ⟨h, e, I⟩ := execAll_spec ops Inv_mk hl
  obtain ⟨h', e', hf⟩ := delState_spec _ I
  refine ⟨h, h', e, e', ?_, ?_, hf⟩
  · have := I.links.nodup
    rw [← List.nodup_reverse] at this
    simpa using this
  · intro x
    rw [I.live]
    simp [or_comm]

/-- a history with both kinds of resize, reuse of an address and resizing in place -/
def demoOps : List Op :=
  [.alloc 10, .alloc 20, .alloc 30, .resizeR 10 40, .alloc 10, .del 20, .resizeM 10 50,
   .resizeR 30 30, .alloc 20, .del 50]

example : Legal [] demoOps ∧ specRun [] demoOps = [40, 10, 30, 20] := by decide

/-! ## Walking forward -/

theorem forward_prefix (h : Heap) (L : List Nat) (x t : Nat) (hL : Linked h (x :: L))
    (ht : (x :: L).getLast? = some t) (hlive : ∀ y ∈ x :: L, h.live y = true) (fuel : Nat) :
    forward h (L.length + 1 + fuel) (some x) =
      (match forward h fuel (h.next t) with
       | .ok r => .ok (r.map ((x :: L) ++ ·))
       | .ub => .ub
       | .segv => .segv) := by
  induction L generalizing x with
  | nil =>
    simp only [List.getLast?_singleton, Option.some.injEq] at ht
    subst ht
    have e : (List.length ([] : List Nat) + 1 + fuel) = fuel + 1 := by simp; omega
    rw [e]
    simp only [forward, hlive x (by simp), if_true]
    cases forward h fuel (h.next x) <;> simp
  | cons y L ih =>
    have e : (List.length (y :: L) + 1 + fuel) = (L.length + 1 + fuel) + 1 := by simp; omega
    rw [e]
    have hn : h.next x = some y := hL.1
    simp only [forward, hlive x (by simp), if_true, hn]
    rw [ih y hL.2.2 (by simpa using ht) (fun z hz => hlive z (List.mem_cons_of_mem _ hz))]
    cases hf : forward h fuel (h.next t) with
    | ok r => cases r <;> simp
    | ub => simp
    | segv => simp

/-- with more fuel a finished walk stays the same -/
theorem forward_mono (h : Heap) (f : Nat) (x : Option Nat) (r : List Nat)
    (hr : forward h f x = .ok (some r)) : forward h (f + 1) x = .ok (some r) := by
  induction f generalizing x r with
  | zero =>
    cases x with
    | none => simpa [forward] using hr
    | some a => simp [forward] at hr
  | succ f ih =>
    cases x with
    | none => simpa [forward] using hr
    | some a =>
      rw [forward] at hr ⊢
      split at hr
      · next hl =>
        rw [if_pos hl]
        cases hf : forward h f (h.next a) with
        | ok o =>
          rw [hf] at hr
          simp only [Res.ok_bind, Res.pure_eq, Res.ok.injEq] at hr
          cases o with
          | none => simp at hr
          | some r' =>
            rw [ih _ _ hf]
            simpa using hr
        | ub => rw [hf] at hr; simp at hr
        | segv => rw [hf] at hr; simp at hr
      · simp at hr

theorem forward_mono' (h : Heap) (f g : Nat) (x : Option Nat) (r : List Nat)
    (hr : forward h f x = .ok (some r)) : forward h (f + g) x = .ok (some r) := by
  induction g with
  | zero => exact hr
  | succ g ih => exact forward_mono h _ x r ih

/-- a block on the chain reaches the tail -/
theorem linked_suffix {h : Heap} {M : List Nat} (hL : Linked h M) {a : Nat} (ha : a ∈ M) :
    ∃ L, Linked h (a :: L) ∧ (a :: L).getLast? = M.getLast? ∧ ∀ y ∈ a :: L, y ∈ M := by
  obtain ⟨P, B, rfl⟩ := List.append_of_mem ha
  refine ⟨B, ?_, ?_, ?_⟩
  · rcases List.eq_nil_or_concat P with rfl | ⟨P', p, rfl⟩
    · simpa using hL
    · have e : P' ++ [p] ++ a :: B = P' ++ p :: a :: B := by simp
      rw [List.concat_eq_append, e] at hL
      exact ((Linked_append h P' p a B).1 hL).2.2
  · rw [List.getLast?_append]
    cases hx : (a :: B).getLast? with
    | none => simp at hx
    | some z => simp
  · intro y hy; exact List.mem_append_right _ hy

/-- when the last block's `trace_next` is not NULL the walk never ends normally -/
theorem forward_dirty {h : Heap} {L : List Nat} (I : Inv h L false) :
    ∀ (f : Nat) (a : Nat), ∀ r, forward h f (some a) ≠ .ok (some r) := by
  intro f
  induction f using Nat.strongRecOn with
  | ind f ih =>
    intro a r hr
    have hnx : h.next h.tail ≠ none := by
      intro e
      exact absurd (I.links.clean.1 e) (by simp)
    obtain ⟨b, hb⟩ := Option.ne_none_iff_exists'.1 hnx
    by_cases ha : h.live a = true
    · have haM : a ∈ 0 :: L := by simpa using (I.live a).1 ha
      obtain ⟨L', h1, h2, h3⟩ := linked_suffix I.links.linked haM
      have hf := forward_prefix h L' a h.tail h1 (by rw [h2]; exact I.links.tail)
        (fun y hy => (I.live y).2 (by simpa using h3 y hy)) f
      have hm := forward_mono' h f (L'.length + 1) _ _ hr
      rw [Nat.add_comm] at hm
      rw [hf, hb] at hm
      cases hfb : forward h f (some b) with
      | ok o =>
        rw [hfb] at hm
        cases o with
        | none => simp at hm
        | some r' =>
          -- the walk from `b` also ends; take the smallest fuel that works for the walk from `a`
          have key : ∀ g, g ≤ f → (∃ r, forward h g (some a) = .ok (some r)) → L'.length + 1 ≤ g ∧
              ∃ r', forward h (g - (L'.length + 1)) (some b) = .ok (some r') := by
            intro g _ ⟨r, hg⟩
            have aux : ∀ (K : List Nat) (x : Nat) (g : Nat) (r : List Nat), Linked h (x :: K) →
                (x :: K).getLast? = some h.tail → (∀ y ∈ x :: K, h.live y = true) →
                forward h g (some x) = .ok (some r) → K.length + 1 ≤ g := by
              intro K
              induction K with
              | nil =>
                intro x g r _ _ _ hg
                cases g with
                | zero => simp [forward] at hg
                | succ g => simp
              | cons y K ihK =>
                intro x g r hl ht hlv hg
                cases g with
                | zero => simp [forward] at hg
                | succ g =>
                  rw [forward, if_pos (hlv x (by simp)), hl.1] at hg
                  cases hf' : forward h g (some y) with
                  | ok o =>
                    rw [hf'] at hg
                    cases o with
                    | none => simp at hg
                    | some r2 =>
                      have := ihK y g r2 hl.2.2 (by simpa using ht)
                        (fun z hz => hlv z (List.mem_cons_of_mem _ hz)) hf'
                      simp only [List.length_cons]; omega
                  | ub => rw [hf'] at hg; simp at hg
                  | segv => rw [hf'] at hg; simp at hg
            have hle := aux L' a g r h1 (by rw [h2]; exact I.links.tail)
              (fun y hy => (I.live y).2 (by simpa using h3 y hy)) hg
            refine ⟨hle, ?_⟩
            have hf2 := forward_prefix h L' a h.tail h1 (by rw [h2]; exact I.links.tail)
              (fun y hy => (I.live y).2 (by simpa using h3 y hy)) (g - (L'.length + 1))
            have e : L'.length + 1 + (g - (L'.length + 1)) = g := by omega
            rw [e, hg, hb] at hf2
            cases hfb2 : forward h (g - (L'.length + 1)) (some b) with
            | ok o =>
              rw [hfb2] at hf2
              cases o with
              | none => simp at hf2
              | some r3 => exact ⟨r3, rfl⟩
            | ub => rw [hfb2] at hf2; simp at hf2
            | segv => rw [hfb2] at hf2; simp at hf2
          obtain ⟨hle, r3, hr3⟩ := key f (Nat.le_refl _) ⟨r, hr⟩
          exact ih _ (by omega) b r3 hr3
      | ub => rw [hfb] at hm; simp at hm
      | segv => rw [hfb] at hm; simp at hm
    · cases f with
      | zero => simp [forward] at hr
      | succ f => simp [forward, ha] at hr

/-- **C17 (partial).**  Full statement: at any time, following `trace_next` from the state visits
the state and every live block exactly once, in chain order, and ends at NULL.  This is proved to
hold *exactly* for the histories after which the last block of the chain has a NULL `trace_next`
(`cleanRun`): always after an allocation, and until a block that is not the last one is resized.
Missing (and false, see `C17_forward_false`): the other histories. -/
theorem C17_forward_partial (ops : List Op) (hl : Legal [] ops) :
    ∃ h, execAll stateMk ops = .ok h ∧
      (cleanRun [] true ops = true →
        ∃ fuel, forward h fuel (some 0) = .ok (some (0 :: specRun [] ops))) ∧
      ((∃ fuel r, forward h fuel (some 0) = .ok (some r)) → cleanRun [] true ops = true) := by
  obtain ⟨h, e, I⟩ := execAll_spec ops Inv_mk hl
  refine ⟨h, e, ?_, ?_⟩
  · intro hc
    refine ⟨(specRun [] ops).length + 1 + 0, ?_⟩
    rw [forward_prefix h _ 0 h.tail I.links.linked I.links.tail
      (fun y hy => (I.live y).2 (by simpa using hy)), I.links.clean.2 hc]
    simp [forward]
  · rintro ⟨fuel, r, hr⟩
    cases hc : cleanRun [] true ops with
    | true => rfl
    | false => exact absurd hr (forward_dirty (hc ▸ I) fuel 0 r)

example : Legal [] demoOps ∧ cleanRun [] true demoOps = true := by decide

/-- a string block 1, another block 2, then the string grows (`cee_str_add`, method MALLOC) -/
def badOps : List Op := [.alloc 1, .alloc 2, .resizeM 1 3]

/-- **C17 is false of the code**: after allocating two blocks and resizing the first one, the walk
along `trace_next` never ends normally, whatever the number of steps. -/
theorem C17_forward_false : Legal [] badOps ∧ ∃ h, execAll stateMk badOps = .ok h ∧
    ∀ fuel r, forward h fuel (some 0) ≠ .ok (some r) := by
  have hl : Legal [] badOps := by decide
  refine ⟨hl, ?_⟩
  obtain ⟨h, e, _, h2⟩ := C17_forward_partial badOps hl
  refine ⟨h, e, fun fuel r hr => ?_⟩
  exact absurd (h2 ⟨fuel, r, hr⟩) (by decide)

end Verif.Chain.Props
