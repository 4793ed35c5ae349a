import Verif.Gc.Model
import Verif.Chain.Props

/-! # Properties of the collector (C18, C19, C20) -/

namespace Verif.Gc.Props
open Verif.Chain (Heap upd)
open Verif.Chain.Props (Inv)

/-! ## Specification -/

/-- what the user sees inside an object: elements of lists, stacks, sets and tuples; the bindings
of a map or dictionary; the outer environment and variables of an environment; the environment of a
closure; roots, stack and contexts of a state.  The private ordered-key list of a map is not
visible. -/
def visible : Obj → List Ptr
  | .leaf => []
  | .node es => es
  | .map _ ts => ts
  | .dict ks vs => [ks, vs]
  | .env o v => [o, v]
  | .closure e => [e]
  | .state r s c => [r, s, c]

def isClosure : Obj → Bool
  | .closure _ => true
  | _ => false

theorem follows_eq {o : Obj} (h : ¬ isClosure o) : o.follows = visible o ∧ o.marksSelf = true := by
  cases o <;> first | exact ⟨rfl, rfl⟩ | exact absurd rfl h

/-- reachability along visible pointers -/
inductive Reach (obj : Nat → Obj) : Nat → Nat → Prop where
  | refl (a : Nat) : Reach obj a a
  | step {a b c : Nat} : some b ∈ visible (obj a) → Reach obj b c → Reach obj a c

/-- the graph below the state: every reachable block is live and no closure, and ownership is
acyclic (some rank decreases along pointers, and is below `n`) -/
def Good (h : GHeap) (n : Nat) : Prop :=
  ∃ rank : Nat → Nat, rank 0 < n ∧ ∀ a, Reach h.obj 0 a →
    h.ch.live a = true ∧ ¬ isClosure (h.obj a) ∧
    ∀ b, some b ∈ visible (h.obj a) → rank b < rank a

inductive Op where
  | alloc (a : Nat) (o : Obj)
  | del (a : Nat)
  | store (a : Nat) (o : Obj)
  | resize (a b : Nat) (keep : Bool)

/-- the corresponding operation on the chain -/
def Op.chain : Op → List Chain.Props.Op
  | .alloc a _ => [.alloc a]
  | .del a => [.del a]
  | .store _ _ => []
  | .resize a b true => [.resizeM a b]
  | .resize a b false => [.resizeR a b]

def exec (h : GHeap) : Op → Res GHeap
  | .alloc a o => alloc h a o
  | .del a => del h a
  | .store a o => store h a o
  | .resize a b k => resize h a b k

def execAll (h : GHeap) : List Op → Res GHeap
  | [] => .ok h
  | op :: ops => (exec h op).bind (fun h' => execAll h' ops)

/-- blocks are stored into only while live; the rest as in the chain model -/
def Legal (L : List Nat) : List Op → Prop
  | [] => True
  | op :: ops =>
    (match op with
     | .store a _ => a = 0 ∨ a ∈ L
     | op => ∀ c ∈ op.chain, Chain.Props.OkOp L c) ∧
    Legal (Chain.Props.specRun L op.chain) ops

/-- the blocks of `S` that survive the mutator operations (a resized copy counts as its original) -/
def survives (S : List Nat) : List Op → List Nat
  | [] => S
  | .alloc a _ :: ops => survives (S.filter (· ≠ a)) ops
  | .del a :: ops => survives (S.filter (· ≠ a)) ops
  | .store _ _ :: ops => survives S ops
  | .resize a b keep :: ops =>
    survives ((if keep then S else S.filter (· ≠ a)).filter (· ≠ b) ++
      (if a ∈ S then [b] else [])) ops

/-! ## Marking -/

theorem Reach.trans {obj : Nat → Obj} {a b c : Nat} (h1 : Reach obj a b) (h2 : Reach obj b c) :
    Reach obj a c := by
  induction h1 with
  | refl => exact h2
  | step h _ ih => exact .step h (ih h2)

theorem Reach.inv {obj : Nat → Obj} {a x : Nat} (h : Reach obj a x) :
    x = a ∨ ∃ b, some b ∈ visible (obj a) ∧ Reach obj b x := by
  cases h with
  | refl => exact .inl rfl
  | step h1 h2 => exact .inr ⟨_, h1, h2⟩

theorem trace_spec (h : GHeap) (m : Nat) (rank : Nat → Nat) (fuel : Nat) (a : Nat) (mk : Nat → Nat)
    (hf : rank a < fuel)
    (hg : ∀ x, Reach h.obj a x → h.ch.live x = true ∧ ¬ isClosure (h.obj x) ∧
      ∀ b, some b ∈ visible (h.obj x) → rank b < rank x) :
    ∃ mk', trace h m fuel (some a) mk = .ok (some mk') ∧
      ∀ x, (Reach h.obj a x → mk' x = m) ∧ (¬ Reach h.obj a x → mk' x = mk x) := by
  induction fuel generalizing a mk with
  | zero => omega
  | succ fuel ih =>
    obtain ⟨hl, hs, hr⟩ := hg a (.refl a)
    unfold trace
    rw [if_pos hl, if_pos (follows_eq hs).2, (follows_eq hs).1]
    -- the loop over the pointers
    have loop : ∀ (ps : List Ptr) (mk : Nat → Nat), (∀ b, some b ∈ ps → some b ∈ visible (h.obj a)) →
        ∃ mk' : Nat → Nat, ps.foldl (fun (acc : Res (Option (Nat → Nat))) p =>
          match acc with
          | .ok (some mk) => trace h m fuel p mk
          | r => r) (.ok (some mk)) = .ok (some mk') ∧
        ∀ x, ((∃ b, some b ∈ ps ∧ Reach h.obj b x) → mk' x = m) ∧
          ((¬ ∃ b, some b ∈ ps ∧ Reach h.obj b x) → mk' x = mk x) := by
      intro ps
      induction ps with
      | nil => intro mk _; exact ⟨mk, rfl, fun x => ⟨by rintro ⟨b, hb, _⟩; simp at hb, fun _ => rfl⟩⟩
      | cons p ps ihp =>
        intro mk hsub
        cases p with
        | none =>
          obtain ⟨mk', e, hx⟩ := ihp mk (fun b hb => hsub b (List.mem_cons_of_mem _ hb))
          refine ⟨mk', ?_, fun x => ?_⟩
          · simpa [trace] using e
          · simpa using hx x
        | some b =>
          have hb := hsub b (List.mem_cons_self ..)
          obtain ⟨mk1, e1, h1⟩ := ih b mk (by have := hr b hb; omega)
            (fun x hx => hg x (.step hb hx))
          obtain ⟨mk2, e2, h2⟩ := ihp mk1 (fun b hb => hsub b (List.mem_cons_of_mem _ hb))
          refine ⟨mk2, ?_, fun x => ⟨?_, ?_⟩⟩
          · simp only [List.foldl_cons, e1]; exact e2
          · rintro ⟨c, hc, hcx⟩
            by_cases hex : ∃ b, some b ∈ ps ∧ Reach h.obj b x
            · exact (h2 x).1 hex
            · rw [(h2 x).2 hex]
              simp only [List.mem_cons, Option.some.injEq] at hc
              rcases hc with rfl | hc
              · exact (h1 x).1 hcx
              · exact absurd ⟨c, hc, hcx⟩ hex
          · intro hne
            rw [(h2 x).2 (fun ⟨c, hc, hcx⟩ => hne ⟨c, List.mem_cons_of_mem _ hc, hcx⟩)]
            exact (h1 x).2 (fun hbx => hne ⟨b, List.mem_cons_self .., hbx⟩)
    obtain ⟨mk', e, hx⟩ := loop (visible (h.obj a)) (upd mk a m) (fun _ hb => hb)
    refine ⟨mk', e, fun x => ⟨fun hrx => ?_, fun hnx => ?_⟩⟩
    · by_cases hex : ∃ b, some b ∈ visible (h.obj a) ∧ Reach h.obj b x
      · exact (hx x).1 hex
      · rw [(hx x).2 hex]
        rcases hrx.inv with rfl | h'
        · simp [upd]
        · exact absurd h' hex
    · rw [(hx x).2 (fun ⟨b, hb, hbx⟩ => hnx (.step hb hbx))]
      have : x ≠ a := by rintro rfl; exact hnx (.refl x)
      simp [upd, this]

/-! ## Sweeping -/

theorem next_of_chain {h : Heap} {P : List Nat} {r : Nat} {R : List Nat}
    (I : Inv h (P ++ r :: R) true) : h.next r = R.head? := by
  cases R with
  | nil =>
    have ht : h.tail = r := by
      have := I.links.tail
      rw [← List.cons_append, Chain.Props.getLast?_app] at this
      simpa using this.symm
    have := I.links.clean.2 rfl
    rw [ht] at this
    simpa using this
  | cons n R =>
    have hl := I.links.linked
    have e : 0 :: (P ++ r :: n :: R) = (0 :: P) ++ r :: n :: R := by simp
    rw [e, Chain.Props.Linked_append] at hl
    simpa using hl.2.1.1

theorem next_zero {h : Heap} {L : List Nat} (I : Inv h L true) : h.next 0 = L.head? := by
  cases L with
  | nil =>
    have ht : h.tail = 0 := by have := I.links.tail; simpa using this.symm
    have := I.links.clean.2 rfl
    rw [ht] at this
    simpa using this
  | cons n R => exact I.links.linked.1

theorem sweep_spec (mk : Nat → Nat) (m : Nat) (R P : List Nat) (h : Heap)
    (I : Inv h (P ++ R) true) (fuel : Nat) (hf : R.length ≤ fuel) :
    ∃ h', sweep mk m fuel h R.head? = .ok (some h') ∧
      Inv h' (P ++ R.filter (fun x => mk x = m)) true := by
  induction R generalizing P h fuel with
  | nil => exact ⟨h, by simp [sweep], by simpa using I⟩
  | cons r R ih =>
    cases fuel with
    | zero => simp at hf
    | succ fuel =>
      have hn := next_of_chain I
      have hlive : h.live r = true := (I.live r).2 (by simp)
      simp only [List.head?_cons, sweep, hlive, if_true, hn]
      by_cases hm : mk r = m
      · rw [if_neg (by simp [hm])]
        obtain ⟨h', e, I'⟩ := ih (P ++ [r]) h (by simpa using I) fuel (by simpa using hf)
        exact ⟨h', e, by simpa [List.filter_cons, hm] using I'⟩
      · rw [if_pos hm]
        obtain ⟨h1, e1, I1⟩ := Chain.Props.exec_spec I (.del r) (by simp [Chain.Props.OkOp])
        have e1' : Chain.del h r = .ok h1 := e1
        have her : (P ++ r :: R).erase r = P ++ R := by
          have := I.nodup
          rw [List.nodup_append] at this
          have hx : r ∉ P := fun hx => this.2.2 r hx r (by simp) rfl
          rw [List.erase_append_right _ hx]; simp
        have hcl : Chain.Props.cleanStep (P ++ r :: R) true (.del r) = true := by
          simp [Chain.Props.cleanStep]
        rw [hcl, Chain.Props.specStep, her] at I1
        obtain ⟨h', e, I'⟩ := ih P h1 I1 fuel (by simpa using hf)
        refine ⟨h', by rw [e1']; exact e, by simpa [List.filter_cons, hm] using I'⟩

/-- one collection on a heap with a clean chain and a good graph -/
theorem gc_spec {h : GHeap} {L : List Nat} (I : Inv h.ch L true) {n : Nat} (g : Good h n)
    (steps : Nat) (hs : L.length + 1 ≤ steps) :
    ∃ h', gc n steps h = .ok (some h') ∧
      Inv h'.ch (L.filter (fun x => h'.mark x = h.nextMark)) true ∧
      h'.obj = h.obj ∧ h'.nextMark = (if h.nextMark = 0 then 1 else 0) ∧
      ∀ x, (Reach h.obj 0 x → h'.mark x = h.nextMark) ∧
        (¬ Reach h.obj 0 x → h'.mark x = h.mark x) := by
  obtain ⟨rank, hr, hg⟩ := g
  obtain ⟨mk, e, hmk⟩ := trace_spec h h.nextMark rank n 0 h.mark hr hg
  cases steps with
  | zero => omega
  | succ steps =>
    obtain ⟨h', e', I'⟩ := sweep_spec mk h.nextMark L [] h.ch (by simpa using I) steps (by omega)
    refine ⟨{ h with ch := h', mark := mk, nextMark := if h.nextMark = 0 then 1 else 0 }, ?_,
      by simpa using I', rfl, rfl, hmk⟩
    simp only [gc, e]
    have h0 : h.ch.live 0 = true := (I.live 0).2 (.inl rfl)
    have hm0 : mk 0 = h.nextMark := (hmk 0).1 (.refl 0)
    have : sweep mk h.nextMark (steps + 1) h.ch (some 0) = .ok (some h') := by
      simp only [sweep, h0, if_true, hm0, ne_eq, not_true, if_false, next_zero I]
      exact e'
    rw [this]

/-! ## Mutator operations between collections -/

theorem specRun_append (L : List Nat) (a b : List Chain.Props.Op) :
    Chain.Props.specRun L (a ++ b) = Chain.Props.specRun (Chain.Props.specRun L a) b := by
  induction a generalizing L with
  | nil => rfl
  | cons x a ih => simp [Chain.Props.specRun, ih]

theorem cleanRun_append (L : List Nat) (c : Bool) (a b : List Chain.Props.Op) :
    Chain.Props.cleanRun L c (a ++ b) =
      Chain.Props.cleanRun (Chain.Props.specRun L a) (Chain.Props.cleanRun L c a) b := by
  induction a generalizing L c with
  | nil => rfl
  | cons x a ih => simp [Chain.Props.specRun, Chain.Props.cleanRun, ih]

/-- effect of a mutator history: the chain evolves as in the chain model, the marks of surviving
blocks are unchanged -/
theorem execAll_spec (ops : List Op) {h : GHeap} {L : List Nat} {c : Bool} (I : Inv h.ch L c)
    (hl : Legal L ops) (m : Nat) (S : List Nat) (hS : ∀ x ∈ S, h.mark x = m) :
    ∃ h', execAll h ops = .ok h' ∧ h'.nextMark = h.nextMark ∧
      Inv h'.ch (Chain.Props.specRun L (ops.flatMap Op.chain))
        (Chain.Props.cleanRun L c (ops.flatMap Op.chain)) ∧
      ∀ x ∈ survives S ops, h'.mark x = m := by
  induction ops generalizing h L c S with
  | nil => exact ⟨h, rfl, rfl, I, hS⟩
  | cons op ops ih =>
    have one : ∃ h1, exec h op = .ok h1 ∧ h1.nextMark = h.nextMark ∧
        Inv h1.ch (Chain.Props.specRun L op.chain) (Chain.Props.cleanRun L c op.chain) ∧
        ∃ S1, survives S (op :: ops) = survives S1 ops ∧ ∀ x ∈ S1, h1.mark x = m := by
      cases op with
      | alloc a o =>
        obtain ⟨ch, e, I1⟩ := Chain.Props.exec_spec I (.alloc a) (hl.1 _ (List.mem_cons_self ..))
        have e' : Chain.alloc h.ch a = .ok ch := e
        refine ⟨{ h with ch := ch, obj := upd h.obj a o, mark := upd h.mark a 0 }, ?_, rfl, I1, _, rfl, ?_⟩
        · simp [exec, alloc, e']
        · intro x hx
          simp only [List.mem_filter, decide_eq_true_eq] at hx
          simp [upd, hx.2, hS x hx.1]
      | del a =>
        obtain ⟨ch, e, I1⟩ := Chain.Props.exec_spec I (.del a) (hl.1 _ (List.mem_cons_self ..))
        have e' : Chain.del h.ch a = .ok ch := e
        refine ⟨{ h with ch := ch }, by simp [exec, del, e'], rfl, I1, _, rfl, ?_⟩
        intro x hx
        simp only [List.mem_filter] at hx
        exact hS x hx.1
      | store a o =>
        have : h.ch.live a = true := (I.live a).2 hl.1
        exact ⟨{ h with obj := upd h.obj a o }, by simp [exec, store, this], rfl, I, S, rfl, hS⟩
      | resize a b keep =>
        cases keep with
        | true =>
          obtain ⟨ch, e, I1⟩ := Chain.Props.exec_spec I (.resizeM a b) (hl.1 _ (List.mem_cons_self ..))
          have e' : Chain.resizeMalloc h.ch a b = .ok ch := e
          refine ⟨{ h with ch := ch, obj := upd h.obj b (h.obj a), mark := upd h.mark b (h.mark a) },
            by simp [exec, resize, e'], rfl, I1, _, rfl, ?_⟩
          intro x hx
          simp only [if_true, List.mem_append, List.mem_filter, decide_eq_true_eq] at hx
          rcases hx with hx | hx
          · simp [upd, hx.2, hS x hx.1]
          · split at hx
            · next ha =>
              simp only [List.mem_singleton] at hx
              subst hx
              simp [upd, hS a ha]
            · simp at hx
        | false =>
          obtain ⟨ch, e, I1⟩ := Chain.Props.exec_spec I (.resizeR a b) (hl.1 _ (List.mem_cons_self ..))
          have e' : Chain.resizeRealloc h.ch a b = .ok ch := e
          refine ⟨{ h with ch := ch, obj := upd h.obj b (h.obj a), mark := upd h.mark b (h.mark a) },
            by simp [exec, resize, e'], rfl, I1, _, rfl, ?_⟩
          intro x hx
          simp only [Bool.false_eq_true, if_false, List.mem_append, List.mem_filter,
            decide_eq_true_eq] at hx
          rcases hx with hx | hx
          · simp [upd, hx.2, hS x hx.1.1]
          · split at hx
            · next ha =>
              simp only [List.mem_singleton] at hx
              subst hx
              simp [upd, hS a ha]
            · simp at hx
    obtain ⟨h1, e1, n1, I1, S1, hs1, hS1⟩ := one
    obtain ⟨h2, e2, n2, I2, hS2⟩ := ih I1 hl.2 S1 hS1
    refine ⟨h2, by simp only [execAll, e1, Res.bind, e2], by rw [n2, n1], ?_, ?_⟩
    · rw [List.flatMap_cons, specRun_append, cleanRun_append]; exact I2
    · rw [hs1]; exact hS2

/-! ## Histories of rounds: mutate, collect, mutate, collect, ... -/

/-- state of a program after some rounds: the heap and (for the statement) the chained blocks -/
inductive Rounds (h0 : GHeap) (L0 : List Nat) : GHeap → List Nat → Prop where
  | start : Rounds h0 L0 h0 L0
  | round {h h1 h2 : GHeap} {L : List Nat} {ops : List Op} {n steps : Nat} :
      Rounds h0 L0 h L → Legal L ops → execAll h ops = .ok h1 →
      Chain.Props.cleanRun L true (ops.flatMap Op.chain) = true → Good h1 n →
      gc n steps h1 = .ok (some h2) →
      Rounds h0 L0 h2 ((Chain.Props.specRun L (ops.flatMap Op.chain)).filter
        (fun x => h2.mark x = h1.nextMark))

theorem sweep_fuel_le {mk : Nat → Nat} {m : Nat} (R P : List Nat) (h h2 : Heap)
    (I : Inv h (P ++ R) true) (fuel : Nat) (hr : sweep mk m fuel h R.head? = .ok (some h2)) :
    R.length ≤ fuel := by
  induction R generalizing P h fuel with
  | nil => simp
  | cons r R ih =>
    cases fuel with
    | zero => simp [sweep] at hr
    | succ fuel =>
      have hn := next_of_chain I
      have hlive : h.live r = true := (I.live r).2 (by simp)
      simp only [List.head?_cons, sweep, hlive, if_true, hn] at hr
      by_cases hm : mk r = m
      · rw [if_neg (by simp [hm])] at hr
        have := ih (P ++ [r]) h (by simpa using I) fuel hr
        simp; omega
      · rw [if_pos hm] at hr
        obtain ⟨h1, e1, I1⟩ := Chain.Props.exec_spec I (.del r) (by simp [Chain.Props.OkOp])
        have e1' : Chain.del h r = .ok h1 := e1
        have her : (P ++ r :: R).erase r = P ++ R := by
          have := I.nodup
          rw [List.nodup_append] at this
          have hx : r ∉ P := fun hx => this.2.2 r hx r (by simp) rfl
          rw [List.erase_append_right _ hx]; simp
        have hcl : Chain.Props.cleanStep (P ++ r :: R) true (.del r) = true := by
          simp [Chain.Props.cleanStep]
        rw [hcl, Chain.Props.specStep, her] at I1
        rw [e1'] at hr
        have := ih P h1 I1 fuel hr
        simp; omega

/-- outcome of `gc` is independent of the fuel once it finishes -/
theorem gc_steps {h h2 : GHeap} {L : List Nat} (I : Inv h.ch L true) {n : Nat} (g : Good h n)
    {steps : Nat} (hr : gc n steps h = .ok (some h2)) : L.length + 1 ≤ steps := by
  obtain ⟨rank, hrk, hg⟩ := g
  obtain ⟨mk, e, hmk⟩ := trace_spec h h.nextMark rank n 0 h.mark hrk hg
  simp only [gc, e] at hr
  cases steps with
  | zero => simp [sweep] at hr
  | succ steps =>
    have h0 : h.ch.live 0 = true := (I.live 0).2 (.inl rfl)
    have hm0 : mk 0 = h.nextMark := (hmk 0).1 (.refl 0)
    have hsw : sweep mk h.nextMark (steps + 1) h.ch (some 0) =
        sweep mk h.nextMark steps h.ch L.head? := by
      simp only [sweep, h0, if_true, hm0, ne_eq, not_true, if_false, next_zero I]
    rw [hsw] at hr
    cases hx : sweep mk h.nextMark steps h.ch L.head? with
    | ok o =>
      cases o with
      | none => rw [hx] at hr; simp at hr
      | some h' =>
        have := sweep_fuel_le L [] h.ch h' (by simpa using I) steps hx
        omega
    | ub => rw [hx] at hr; simp at hr
    | segv => rw [hx] at hr; simp at hr

/-- a block of the chain after mutator operations on a heap with all marks 0 has mark 0 -/
theorem execAll_zero (ops : List Op) {h h' : GHeap} {L : List Nat} {c : Bool} (I : Inv h.ch L c)
    (hl : Legal L ops) (he : execAll h ops = .ok h')
    (hz : ∀ x, h.ch.live x = true → h.mark x = 0) :
    ∀ x, h'.ch.live x = true → h'.mark x = 0 := by
  induction ops generalizing h L c with
  | nil => simp only [execAll, Res.ok.injEq] at he; subst he; exact hz
  | cons op ops ih =>
    obtain ⟨h1, e1, _, I1, _⟩ := execAll_spec [op] I ⟨hl.1, trivial⟩ 0 [] (by simp)
    have e1' : exec h op = .ok h1 := by
      simp only [execAll] at e1
      cases hx : exec h op with
      | ok z => rw [hx] at e1; exact e1
      | ub => rw [hx] at e1; simp [Res.bind] at e1
      | segv => rw [hx] at e1; simp [Res.bind] at e1
    simp only [execAll, e1', Res.bind] at he
    simp only [List.flatMap_cons, List.flatMap_nil, List.append_nil] at I1
    refine ih I1 hl.2 he ?_
    have hz' : ∀ x ∈ L, h.mark x = 0 := fun x hx => hz x ((I.live x).2 (.inr hx))
    have hz0 : h.mark 0 = 0 := hz 0 ((I.live 0).2 (.inl rfl))
    intro x hx
    rw [I1.live] at hx
    cases op with
    | alloc a o =>
      obtain ⟨ch, e, -⟩ := Chain.Props.exec_spec I (.alloc a) (hl.1 _ (List.mem_cons_self ..))
      have e' : Chain.alloc h.ch a = .ok ch := e
      simp only [exec, alloc, e', Res.ok_bind, Res.pure_eq, Res.ok.injEq] at e1'
      subst e1'
      by_cases hxa : x = a
      · simp [upd, hxa]
      · simp only [Op.chain, Chain.Props.specRun, Chain.Props.specStep, List.mem_append,
          List.mem_singleton, hxa, or_false] at hx
        simp only [upd, if_neg hxa]
        rcases hx with rfl | hx
        · exact hz0
        · exact hz' x hx
    | del a =>
      obtain ⟨ch, e, -⟩ := Chain.Props.exec_spec I (.del a) (hl.1 _ (List.mem_cons_self ..))
      have e' : Chain.del h.ch a = .ok ch := e
      simp only [exec, del, e', Res.ok_bind, Res.pure_eq, Res.ok.injEq] at e1'
      subst e1'
      rcases hx with rfl | hx
      · exact hz0
      · exact hz' x (List.mem_of_mem_erase hx)
    | store a o =>
      have : h.ch.live a = true := (I.live a).2 hl.1
      simp only [exec, store, this, if_true, Res.ok.injEq] at e1'
      subst e1'
      rcases hx with rfl | hx
      · exact hz0
      · exact hz' x hx
    | resize a b keep =>
      cases keep with
      | true =>
        have hok := hl.1 _ (List.mem_cons_self ..)
        obtain ⟨ch, e, -⟩ := Chain.Props.exec_spec I (.resizeM a b) hok
        have e' : Chain.resizeMalloc h.ch a b = .ok ch := e
        simp only [exec, resize, e', if_true, Res.ok_bind, Res.pure_eq, Res.ok.injEq] at e1'
        subst e1'
        by_cases hxa : x = b
        · simp only [upd, hxa, if_true]; exact hz' a hok.1
        · simp only [Op.chain, Chain.Props.specRun, Chain.Props.specStep, List.mem_append,
            List.mem_singleton, hxa, or_false] at hx
          simp only [upd, if_neg hxa]
          rcases hx with rfl | hx
          · exact hz0
          · exact hz' x hx
      | false =>
        have hok := hl.1 _ (List.mem_cons_self ..)
        obtain ⟨ch, e, -⟩ := Chain.Props.exec_spec I (.resizeR a b) hok
        have e' : Chain.resizeRealloc h.ch a b = .ok ch := e
        simp only [exec, resize, e', Bool.false_eq_true, if_false, Res.ok_bind, Res.pure_eq,
          Res.ok.injEq] at e1'
        subst e1'
        by_cases hxa : x = b
        · simp only [upd, hxa, if_true]; exact hz' a hok.1
        · simp only [Op.chain, Chain.Props.specRun, Chain.Props.specStep, List.mem_append,
            List.mem_singleton, hxa, or_false] at hx
          simp only [upd, if_neg hxa]
          rcases hx with rfl | hx
          · exact hz0
          · exact hz' x (List.mem_of_mem_erase hx)

/-- what holds between rounds: the chain is clean, and every live block carries the mark of the
previous collection, which is not the next one -/
structure RInv (h : GHeap) (L : List Nat) : Prop where
  chain : Inv h.ch L true
  next : h.nextMark ≤ 1
  marks : ∀ x, h.ch.live x = true → h.mark x = 1 - h.nextMark

theorem rounds_inv {h0 : GHeap} {L0 : List Nat} (I0 : RInv h0 L0) {h : GHeap} {L : List Nat}
    (r : Rounds h0 L0 h L) : RInv h L := by
  induction r with
  | start => exact I0
  | @round h h1 h2 L ops n steps _ hl he hc hg hgc ih =>
    obtain ⟨h1', e1, n1, I1, _⟩ := execAll_spec ops ih.chain hl 0 [] (by simp)
    rw [he] at e1
    simp only [Res.ok.injEq] at e1
    subst e1
    rw [hc] at I1
    obtain ⟨h2', e2, I2, _, n2, hm⟩ := gc_spec I1 hg steps (gc_steps I1 hg hgc)
    rw [hgc] at e2
    simp only [Res.ok.injEq, Option.some.injEq] at e2
    subst e2
    have hle := ih.next
    rw [← n1] at hle
    refine ⟨I2, by rw [n2]; split <;> omega, ?_⟩
    intro x hx
    have hxm : h2.mark x = h1.nextMark := by
      rcases (I2.live x).1 hx with rfl | hx
      · exact (hm 0).1 (.refl 0)
      · exact of_decide_eq_true (List.mem_filter.1 hx).2
    rw [hxm, n2]
    split <;> omega

/-- the heap made by `cee_state_mk` -/
theorem stateMk_inv {r s o c : Nat} (hnd : [0, r, s, o, c].Nodup) :
    ∃ h, stateMk r s o c = .ok h ∧ RInv h [r, s, o, c] ∧ h.nextMark = 1 := by
  let hb : GHeap := ⟨Chain.stateMk, fun _ => .leaf, fun _ => 0, 1⟩
  have I : Inv hb.ch [] true := Chain.Props.Inv_mk
  have hb1 : hb.nextMark = 1 := rfl
  let ops : List Op := [.alloc r (.node []), .alloc s (.node []), .alloc o (.node []),
    .alloc c (.map (some o) []), .store 0 (.state (some r) (some s) (some c))]
  have hl : Legal [] ops := by
    simp only [List.nodup_cons, List.mem_cons, List.not_mem_nil, or_false, not_or] at hnd
    obtain ⟨⟨h1, h2, h3, h4⟩, ⟨h5, h6, h7⟩, ⟨h8, h9⟩, h10, -⟩ := hnd
    simp only [ops, Legal, Op.chain, List.mem_singleton, forall_eq, Chain.Props.OkOp,
      Chain.Props.specRun, Chain.Props.specStep, List.nil_append, List.mem_append,
      List.mem_cons, List.not_mem_nil, or_false, not_or, not_false_iff, true_or, and_true,
      true_and]
    refine ⟨Ne.symm h1, ⟨Ne.symm h2, Ne.symm h5⟩, ⟨Ne.symm h3, ⟨Ne.symm h6, Ne.symm h8⟩⟩,
      Ne.symm h4, ⟨Ne.symm h7, Ne.symm h9⟩, Ne.symm h10⟩
  obtain ⟨h, e, n, I', _⟩ := execAll_spec ops I hl 0 [] (by simp)
  have hz := execAll_zero ops I hl e (fun _ _ => rfl)
  refine ⟨h, ?_, ⟨by simpa [ops, Op.chain, Chain.Props.specRun, Chain.Props.specStep,
    Chain.Props.cleanRun, Chain.Props.cleanStep] using I', by rw [n, hb1]; exact Nat.le_refl 1, ?_⟩, n⟩
  · rw [← e]
    have bo : ∀ x : Res GHeap, x.bind (fun h => .ok h) = x := by intro x; cases x <;> rfl
    simp only [stateMk, execAll, exec, ops, hb, bo]
    rfl
  · intro x hx; rw [hz x hx, n, hb1]

/-- **C18.**  Start from `cee_state_mk`, do any number of rounds (mutator operations, then a
collection), then further mutator operations `ops`, such that at each collection the chain can be
walked (C17: `cleanRun`) and the graph below the state is `Good` (live, self-marking, acyclic with
at most `n` levels).  Then the next collection runs without undefined behaviour, marking recursing
at most `n` deep and sweeping in one step per block, and:
* every block reachable from the state (roots, stack, contexts) is live and unchanged;
* every unreachable block that already existed at the previous collection is no longer live;
* at every other collection (the first, third, ...) all unreachable blocks are freed, new ones
  included;
* no dead block comes to life. -/
theorem C18_gc {r s o c : Nat} (hnd : [0, r, s, o, c].Nodup) :
    ∃ h0, stateMk r s o c = .ok h0 ∧ ∀ {hc : GHeap} {L : List Nat}, Rounds h0 [r, s, o, c] hc L →
    ∀ ops, Legal L ops → ∃ h, execAll hc ops = .ok h ∧
    (Chain.Props.cleanRun L true (ops.flatMap Op.chain) = true → ∀ n, Good h n →
    ∃ h', gc n ((Chain.Props.specRun L (ops.flatMap Op.chain)).length + 1) h = .ok (some h') ∧
      (∀ x, Reach h.obj 0 x → h'.ch.live x = true ∧ h'.obj x = h.obj x) ∧
      (∀ x ∈ survives L ops, ¬ Reach h.obj 0 x → h'.ch.live x = false) ∧
      (h.nextMark = 1 → ∀ x, ¬ Reach h.obj 0 x → h'.ch.live x = false) ∧
      (∀ x, h'.ch.live x = true → h.ch.live x = true)) := by
  obtain ⟨h0, e0, R0, _⟩ := stateMk_inv hnd
  refine ⟨h0, e0, ?_⟩
  intro hc L rd ops hl
  have R := rounds_inv R0 rd
  obtain ⟨h, e1, n1, I1, hS1⟩ := execAll_spec ops R.chain hl (1 - hc.nextMark) L
    (fun x hx => R.marks x ((R.chain.live x).2 (.inr hx)))
  refine ⟨h, e1, fun hcl n g => ?_⟩
  rw [hcl] at I1
  obtain ⟨h', e', I', ho, _, hmk⟩ := gc_spec I1 g _ (Nat.le_refl _)
  have dead : ∀ x, ¬ Reach h.obj 0 x → (h.ch.live x = true → h.mark x ≠ h.nextMark) →
      h'.ch.live x = false := by
    intro x hnr hm
    cases hv : h'.ch.live x with
    | false => rfl
    | true =>
      exfalso
      rcases (I'.live x).1 hv with hx | hx
      · subst hx; exact hnr (.refl 0)
      · rw [List.mem_filter] at hx
        have h2 := of_decide_eq_true hx.2
        rw [(hmk x).2 hnr] at h2
        exact hm ((I1.live x).2 (.inr hx.1)) h2
  have hle := R.next
  refine ⟨h', e', ?_, ?_, ?_, ?_⟩
  · intro x hx
    refine ⟨?_, by rw [ho]⟩
    obtain ⟨rank, _, hg⟩ := g
    rw [I'.live]
    rcases (I1.live x).1 (hg x hx).1 with hx' | hx'
    · exact .inl hx'
    · right
      rw [List.mem_filter]
      exact ⟨hx', by simpa using (hmk x).1 hx⟩
  · intro x hx hnr
    refine dead x hnr (fun _ => ?_)
    rw [hS1 x hx, n1]
    omega
  · intro hn x hnr
    refine dead x hnr (fun hx => ?_)
    rw [execAll_zero ops R.chain hl e1 (fun x hx => by rw [R.marks x hx, ← n1, hn]) x hx, hn]
    omega
  · intro x hx
    rcases (I'.live x).1 hx with hx' | hx'
    · exact (I1.live x).2 (.inl hx')
    · exact (I1.live x).2 (.inr (List.mem_filter.1 hx').1)

/-! ## Concrete heaps -/

/-- sufficient, checkable condition for `Good` -/
theorem good_of_closed {h : GHeap} {n : Nat} (S : List Nat) (rank : Nat → Nat) (h0 : 0 ∈ S)
    (hn : rank 0 < n)
    (hS : ∀ a ∈ S, h.ch.live a = true ∧ ¬ isClosure (h.obj a) ∧
      ∀ p ∈ visible (h.obj a), ∀ b ∈ p, b ∈ S ∧ rank b < rank a) : Good h n := by
  have hr : ∀ a x, Reach h.obj a x → a ∈ S → x ∈ S := by
    intro a x hx
    induction hx with
    | refl => exact id
    | step hb _ ih => intro ha; exact ih ((hS _ ha).2.2 _ hb _ rfl).1
  refine ⟨rank, hn, fun a ha => ?_⟩
  obtain ⟨h1, h2, h3⟩ := hS a (hr 0 a ha h0)
  exact ⟨h1, h2, fun b hb => (h3 _ hb b rfl).2⟩

/-- a program: list 6 holding string 5, list 6 rooted (through tuple-free set 1), an unrooted
string 7 -/
def demoOps : List Op :=
  [.alloc 5 .leaf, .alloc 6 (.node [some 5, none]), .store 1 (.node [some 6]), .alloc 7 .leaf]

def okD : Res α → α → α
  | .ok a, _ => a
  | _, d => d

def demoHeap : GHeap :=
  okD ((stateMk 1 2 3 4).bind (fun h => execAll h demoOps)) ⟨Chain.stateMk, fun _ => .leaf, fun _ => 0, 1⟩

/-- the hypotheses of C18 are met by the first collection of that program; block 7 is unreachable
and 5, 6 are reachable -/
example : ∃ h0, stateMk 1 2 3 4 = .ok h0 ∧ Rounds h0 [1, 2, 3, 4] h0 [1, 2, 3, 4] ∧
    Legal [1, 2, 3, 4] demoOps ∧ execAll h0 demoOps = .ok demoHeap ∧
    Chain.Props.cleanRun [1, 2, 3, 4] true (demoOps.flatMap Op.chain) = true ∧ Good demoHeap 5 ∧
    Reach demoHeap.obj 0 5 := by
  refine ⟨_, rfl, .start, ?_, rfl, rfl, ?_, ?_⟩
  · simp [demoOps, Legal, Op.chain, Chain.Props.OkOp, Chain.Props.specRun, Chain.Props.specStep]
  · exact good_of_closed [0, 1, 2, 4, 5, 6] (fun x => [4, 3, 1, 0, 1, 1, 2].getD x 0) (by decide)
      (by decide) (by decide)
  · exact .step (b := 1) (by decide) (.step (b := 6) (by decide) (.step (b := 5) (by decide) (.refl 5)))

/-! ## C19, C20 -/

/-- every block that an object holds is live -/
def Usable (h : GHeap) (a : Nat) : Prop := ∀ b, some b ∈ (h.obj a).holds → h.ch.live b = true

theorem alloc_obj {h h' : GHeap} {a : Nat} {o : Obj} (e : alloc h a o = .ok h') :
    h'.obj = upd h.obj a o := by
  simp only [alloc] at e
  cases hx : Chain.alloc h.ch a with
  | ok ch => rw [hx] at e; simp only [Res.ok_bind, Res.pure_eq, Res.ok.injEq] at e; rw [← e]
  | ub => rw [hx] at e; simp at e
  | segv => rw [hx] at e; simp at e

theorem store_obj {h h' : GHeap} {a : Nat} {o : Obj} (e : store h a o = .ok h') :
    h'.obj = upd h.obj a o := by
  simp only [store] at e
  split at e
  · simp only [Res.ok.injEq] at e; rw [← e]
  · simp at e

theorem stateMk_obj {r s o c : Nat} {h : GHeap} (e : stateMk r s o c = .ok h) :
    h.obj = upd (upd (upd (upd (upd (fun _ => .leaf) r (.node [])) s (.node [])) o (.node [])) c
      (.map (some o) [])) 0 (.state (some r) (some s) (some c)) := by
  simp only [stateMk, Res.bind_eq_ok] at e
  obtain ⟨h1, e1, h2, e2, h3, e3, h4, e4, e5⟩ := e
  rw [store_obj e5, alloc_obj e4, alloc_obj e3, alloc_obj e2, alloc_obj e1]

/-- **C19**, what holds: in the situation of C18, if the objects below the state are of kinds whose
marking follows everything they hold (everything except maps with an ordered-key list, and
closures), every object below the state is usable after the collection.  Missing: maps and closures,
for which the claim is false (`C19_private_parts_false`, `C19_closure_false`). -/
theorem C19_private_parts_partial {r s o c : Nat} (hnd : [0, r, s, o, c].Nodup) :
    ∃ h0, stateMk r s o c = .ok h0 ∧ ∀ {hc : GHeap} {L : List Nat}, Rounds h0 [r, s, o, c] hc L →
    ∀ ops, Legal L ops → ∃ h, execAll hc ops = .ok h ∧
    (Chain.Props.cleanRun L true (ops.flatMap Op.chain) = true → ∀ n, Good h n →
    ∃ h', gc n ((Chain.Props.specRun L (ops.flatMap Op.chain)).length + 1) h = .ok (some h') ∧
      ∀ x, Reach h.obj 0 x → (h.obj x).holds = visible (h.obj x) → Usable h' x) := by
  obtain ⟨h0, e0, H⟩ := C18_gc hnd
  refine ⟨h0, e0, ?_⟩
  intro hc L rd ops hl
  obtain ⟨h, e1, H1⟩ := H rd ops hl
  refine ⟨h, e1, fun hcl n g => ?_⟩
  obtain ⟨h', e', H2, -⟩ := H1 hcl n g
  refine ⟨h', e', fun x hx hh b hb => ?_⟩
  rw [(H2 x hx).2, hh] at hb
  exact (H2 b (hx.trans (.step hb (.refl b)))).1

/-- reachability after `cee_state_mk` -/
theorem stateMk_reach {r s o c : Nat} (hnd : [0, r, s, o, c].Nodup) {h : GHeap}
    (e : stateMk r s o c = .ok h) {x : Nat} (hx : Reach h.obj 0 x) :
    x = 0 ∨ x = r ∨ x = s ∨ x = c := by
  simp only [List.nodup_cons, List.mem_cons, List.not_mem_nil, or_false, not_or] at hnd
  obtain ⟨⟨h1, h2, h3, h4⟩, ⟨h5, h6, h7⟩, ⟨h8, h9⟩, h10, -⟩ := hnd
  have ho := stateMk_obj e
  have hr : ∀ a x, Reach h.obj a x → (a = 0 ∨ a = r ∨ a = s ∨ a = c) →
      (x = 0 ∨ x = r ∨ x = s ∨ x = c) := by
    intro a x hx
    induction hx with
    | refl => exact id
    | @step a b c' hb _ ih =>
      intro ha
      apply ih
      rw [ho] at hb
      rcases ha with rfl | rfl | rfl | rfl
      · simp only [upd, if_true, visible, List.mem_cons, Option.some.injEq, List.not_mem_nil,
          or_false] at hb
        exact .inr hb
      · simp [upd, Ne.symm h1, h5, h6, h7, visible] at hb
      · simp [upd, Ne.symm h2, h8, h9, visible] at hb
      · simp [upd, Ne.symm h4, visible] at hb
  exact hr 0 x hx (.inl rfl)

/-- **C19** is false: right after `cee_state_mk`, whatever addresses the allocator returned, one
collection leaves the state's own `contexts` map alive but frees its `insertion_ordered_keys` list,
so that the next `cee_state_add_context` uses freed memory. -/
theorem C19_private_parts_false {r s o c : Nat} (hnd : [0, r, s, o, c].Nodup) :
    ∃ h0 h', stateMk r s o c = .ok h0 ∧ gc 2 5 h0 = .ok (some h') ∧
      Reach h0.obj 0 c ∧ Usable h0 c ∧ h'.ch.live c = true ∧ ¬ Usable h' c := by
  obtain ⟨h0, e0, R0, hn0⟩ := stateMk_inv hnd
  obtain ⟨h0', e0', H⟩ := C18_gc hnd
  rw [e0] at e0'
  simp only [Res.ok.injEq] at e0'
  subst e0'
  obtain ⟨h, e1, H1⟩ := H .start [] trivial
  simp only [execAll, Res.ok.injEq] at e1
  subst e1
  have ho := stateMk_obj e0
  have hnd' := hnd
  simp only [List.nodup_cons, List.mem_cons, List.not_mem_nil, or_false, not_or] at hnd'
  obtain ⟨⟨h1, h2, h3, h4⟩, ⟨h5, h6, h7⟩, ⟨h8, h9⟩, h10, -⟩ := hnd'
  have hc : h0.obj c = .map (some o) [] := by rw [ho]; simp [upd, Ne.symm h4]
  have hrc : Reach h0.obj 0 c := .step (b := c) (by rw [ho]; simp [upd, visible]) (.refl c)
  have hg : Good h0 2 := by
    refine good_of_closed [0, r, s, c] (fun x => if x = 0 then 1 else 0) (by simp) (by simp) ?_
    intro a ha
    refine ⟨(R0.chain.live a).2 (by simp at ha ⊢; tauto), ?_⟩
    rw [ho]
    simp only [List.mem_cons, List.not_mem_nil, or_false] at ha
    rcases ha with rfl | rfl | rfl | rfl
    · simp [upd, visible, isClosure, Ne.symm h1, Ne.symm h2, Ne.symm h4]
    · simp [upd, visible, isClosure, Ne.symm h1, h5, h6, h7]
    · simp [upd, visible, isClosure, Ne.symm h2, h8, h9]
    · simp [upd, visible, isClosure, Ne.symm h4]
  obtain ⟨h', e', H2, -, H3, -⟩ := H1 rfl 2 hg
  refine ⟨h0, h', e0, e', hrc, ?_, (H2 c hrc).1, ?_⟩
  · intro b hb
    rw [hc] at hb
    simp only [Obj.holds, List.mem_cons, Option.some.injEq, List.not_mem_nil, or_false] at hb
    exact (R0.chain.live b).2 (by subst hb; simp)
  · intro hu
    have h11 := hu o (by rw [(H2 c hrc).2, hc]; simp [Obj.holds])
    rw [H3 hn0 o (fun hr => by
      rcases stateMk_reach hnd e0 hr with rfl | rfl | rfl | rfl <;> simp_all)] at h11
    simp at h11

example : [0, 1, 2, 3, 4].Nodup := by decide

/-- a closure with its environment, put in the root set -/
def closureOps : List Op :=
  [.alloc 5 (.node []), .alloc 6 (.env none (some 5)), .alloc 7 (.closure (some 6)),
   .store 1 (.node [some 7])]

/-- **C19**, closures: a closure that is a gc root is itself freed by the first collection, because
its trace function does not set its mark (closure.c:29-31); the root set keeps a dangling pointer and
the *second* collection reads freed memory. -/
theorem C19_closure_false :
    Legal [1, 2, 3, 4] closureOps ∧ ∃ h0 h h', stateMk 1 2 3 4 = .ok h0 ∧
      execAll h0 closureOps = .ok h ∧ Reach h.obj 0 7 ∧ h.ch.live 7 = true ∧
      gc 3 8 h = .ok (some h') ∧ h'.ch.live 7 = false ∧ ¬ Usable h' 1 ∧ gc 3 8 h' = .ub := by
  refine ⟨by simp [closureOps, Legal, Op.chain, Chain.Props.OkOp, Chain.Props.specRun,
    Chain.Props.specStep], _, _, _, rfl, rfl, ?_, by rfl, rfl, by rfl, ?_, by rfl⟩
  · exact .step (b := 1) (by decide) (.step (b := 7) (by decide) (.refl 7))
  · intro hu
    exact absurd (hu 7 (by decide)) (by decide)

/-! ### Termination -/

/-- there is a path of `k` pointers starting at `a` -/
def PathLen (obj : Nat → Obj) : Nat → Nat → Prop
  | _, 0 => True
  | a, k + 1 => ∃ b, some b ∈ visible (obj a) ∧ PathLen obj b k

theorem trace_fold_some (h : GHeap) (m fuel : Nat) (ps : List Ptr) (acc : Res (Option (Nat → Nat)))
    {mk' : Nat → Nat}
    (e : ps.foldl (fun (acc : Res (Option (Nat → Nat))) p =>
          match acc with
          | .ok (some mk) => trace h m fuel p mk
          | r => r) acc = .ok (some mk')) :
    (∃ mk, acc = .ok (some mk)) ∧ ∀ p ∈ ps, ∃ mk mk', trace h m fuel p mk = .ok (some mk') := by
  induction ps generalizing acc with
  | nil => exact ⟨⟨_, e⟩, by simp⟩
  | cons p ps ih =>
    rw [List.foldl_cons] at e
    obtain ⟨⟨mk1, e1⟩, H⟩ := ih _ e
    match acc, e1 with
    | .ok (some mk), e1 =>
      refine ⟨⟨mk, rfl⟩, fun q hq => ?_⟩
      rcases List.mem_cons.1 hq with rfl | hq
      · exact ⟨mk, mk1, e1⟩
      · exact H q hq
    | .ok none, e1 => simp at e1
    | .ub, e1 => simp at e1
    | .segv, e1 => simp at e1

theorem trace_path (h : GHeap) (m : Nat) (fuel k a : Nat) (mk mk' : Nat → Nat)
    (e : trace h m fuel (some a) mk = .ok (some mk')) (hp : PathLen h.obj a k)
    (hcl : ∀ x, Reach h.obj a x → ¬ isClosure (h.obj x)) : k < fuel := by
  induction fuel generalizing k a mk mk' with
  | zero => simp [trace] at e
  | succ fuel ih =>
    cases k with
    | zero => omega
    | succ k =>
      obtain ⟨b, hb, hp⟩ := hp
      unfold trace at e
      split at e
      · have hb' := hb
        rw [← (follows_eq (hcl a (.refl a))).1] at hb'
        obtain ⟨mk1, mk2, e1⟩ := (trace_fold_some h m fuel _ _ e).2 _ hb'
        have := ih k b mk1 mk2 e1 hp (fun x hx => hcl x (.step hb hx))
        omega
      · simp at e

/-- a cycle: `a` points to `b` from which `a` can be reached -/
def OnCycle (obj : Nat → Obj) (a : Nat) : Prop := ∃ b, some b ∈ visible (obj a) ∧ Reach obj b a

theorem pathLen_reach {obj : Nat → Obj} {a b : Nat} (h : Reach obj a b) (k : Nat)
    (hp : PathLen obj b k) : PathLen obj a k := by
  have mono : ∀ k a, PathLen obj a (k + 1) → PathLen obj a k := by
    intro k
    induction k with
    | zero => intro a _; trivial
    | succ k ih => rintro a ⟨b, hb, hp⟩; exact ⟨b, hb, ih b hp⟩
  induction h with
  | refl => exact hp
  | step hb _ ih => exact mono k _ ⟨_, hb, ih hp⟩

theorem cycle_path {obj : Nat → Obj} {a : Nat} (h : OnCycle obj a) (k : Nat) : PathLen obj a k := by
  induction k with
  | zero => trivial
  | succ k ih =>
    obtain ⟨b, hb, hr⟩ := h
    exact ⟨b, hb, pathLen_reach hr k ih⟩

/-- the recursion depth needed by a collection is more than the length of every path from the
state -/
theorem gc_depth {h h' : GHeap} {depth steps k : Nat} (e : gc depth steps h = .ok (some h'))
    (hp : PathLen h.obj 0 k)
    (hcl : ∀ x, Reach h.obj 0 x → ¬ isClosure (h.obj x)) : k < depth := by
  simp only [gc] at e
  cases hx : trace h h.nextMark depth (some 0) h.mark with
  | ok o =>
    cases o with
    | none => rw [hx] at e; simp at e
    | some mk => exact trace_path h _ depth k 0 _ _ hx hp hcl
  | ub => rw [hx] at e; simp at e
  | segv => rw [hx] at e; simp at e

/-- **C20**, general negative form: if the graph below the state has no
closures (which are not traced) but a cycle (a list that contains
itself, a map containing its owner, ...), no amount of recursion makes `cee_state_gc` finish. -/
theorem C20_cyclic_never_finishes (h : GHeap) (a : Nat) (hr : Reach h.obj 0 a)
    (hcl : ∀ x, Reach h.obj 0 x → ¬ isClosure (h.obj x)) (hc : OnCycle h.obj a) (depth steps : Nat) (h' : GHeap) : gc depth steps h ≠ .ok (some h') := by
  intro e
  have := gc_depth e (pathLen_reach hr depth (cycle_path hc depth)) hcl
  omega

theorem trace_cyc {h : GHeap} {m a : Nat} (hl : h.ch.live a = true) (ho : h.obj a = .node [some a])
    (fuel : Nat) (mk : Nat → Nat) : trace h m fuel (some a) mk = .ok none := by
  induction fuel generalizing mk with
  | zero => rfl
  | succ fuel ih =>
    unfold trace
    rw [if_pos hl, ho]
    simp only [Obj.follows, Obj.marksSelf, if_true, List.foldl_cons, List.foldl_nil, ih]

theorem trace_first {h : GHeap} {m a b : Nat} {ps : List Ptr} (hl : h.ch.live a = true)
    (ho : (h.obj a).follows = some b :: ps)
    (hb : ∀ fuel mk, trace h m fuel (some b) mk = .ok none) (fuel : Nat) (mk : Nat → Nat) :
    trace h m fuel (some a) mk = .ok none := by
  cases fuel with
  | zero => rfl
  | succ fuel =>
    unfold trace
    rw [if_pos hl, ho]
    simp only [List.foldl_cons, hb]
    clear ho
    induction ps with
    | nil => rfl
    | cons p ps ih => simpa only [List.foldl_cons] using ih

/-- a list appended to itself and added to the roots -/
def cyclicOps : List Op :=
  [.alloc 5 (.node []), .store 5 (.node [some 5]), .store 1 (.node [some 5])]

/-- **C20** is false: after `cee_state_mk`, `l = cee_list_mk`, `cee_list_append(&l, l)`,
`cee_state_add_gc_root(s, l)` (all of them succeeding) the collection does not finish at any
recursion depth: it never returns, neither does it hit undefined behaviour before the stack is
exhausted. -/
theorem C20_terminates_false :
    Legal [1, 2, 3, 4] cyclicOps ∧ ∃ h0 h, stateMk 1 2 3 4 = .ok h0 ∧
      execAll h0 cyclicOps = .ok h ∧ Reach h.obj 0 5 ∧ OnCycle h.obj 5 ∧
      ∀ depth steps, gc depth steps h = .ok none := by
  refine ⟨by simp [cyclicOps, Legal, Op.chain, Chain.Props.OkOp, Chain.Props.specRun,
    Chain.Props.specStep], _, _, rfl, rfl, ?_, ?_, ?_⟩
  · exact .step (b := 1) (by decide) (.step (b := 5) (by decide) (.refl 5))
  · exact ⟨5, by decide, .refl 5⟩
  · intro depth steps
    have key : ∀ h : GHeap, h.ch.live 0 = true → h.ch.live 1 = true → h.ch.live 5 = true →
        (h.obj 0).follows = [some 1, some 2, some 4] → (h.obj 1).follows = [some 5] →
        h.obj 5 = .node [some 5] → gc depth steps h = .ok none := by
      intro h l0 l1 l5 o0 o1 o5
      simp only [gc]
      rw [trace_first l0 o0 (trace_first l1 o1 (trace_cyc l5 o5))]
    exact key _ rfl rfl rfl rfl rfl rfl

/-- **C20**, what holds: when the graph below the state is acyclic (and made of live, self-marking
blocks, on a chain that can be walked) the collection finishes. -/
theorem C20_terminates_partial {h : GHeap} {L : List Nat} (I : Inv h.ch L true) {n : Nat}
    (g : Good h n) : ∃ depth steps h', gc depth steps h = .ok (some h') := by
  obtain ⟨h', e, -⟩ := gc_spec I g (L.length + 1) (Nat.le_refl _)
  exact ⟨_, _, h', e⟩

/-- the hypotheses of C19 (partial) and C20 (partial) on the program `demoOps` -/
example : Good demoHeap 5 ∧ Inv demoHeap.ch [1, 2, 3, 4, 5, 6, 7] true ∧
    (demoHeap.obj 6).holds = visible (demoHeap.obj 6) := by
  obtain ⟨h0, e0, R0, -⟩ := stateMk_inv (r := 1) (s := 2) (o := 3) (c := 4) (by decide)
  obtain ⟨h, e, -, I, -⟩ := execAll_spec demoOps R0.chain (by
    simp [demoOps, Legal, Op.chain, Chain.Props.OkOp, Chain.Props.specRun,
      Chain.Props.specStep]) 0 [] (by simp)
  have hd : demoHeap = h := by
    unfold demoHeap
    rw [e0]
    show okD (execAll h0 demoOps) _ = h
    rw [e]; rfl
  refine ⟨?_, by rw [hd]; exact I, rfl⟩
  exact good_of_closed [0, 1, 2, 4, 5, 6] (fun x => [4, 3, 1, 0, 1, 1, 2].getD x 0) (by decide)
    (by decide) (by decide)

end Verif.Gc.Props
