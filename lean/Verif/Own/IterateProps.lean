import Verif.Own.Iterate
import Verif.Own.WalkProps

/-! # Callbacks that change other containers (C120) -/

namespace Verif.Own.IterateProps

open Verif.Chain (upd)
open Verif.TreeMem (addr addrs forget TNode)
open Props (Reach Step Legal Op Out exec treeAddrs blocks step_ok)

variable {al : Malloc} {text : Nat → Hash.Key} {s : St} {A : Abs}

/-! ## Specification -/

/-- the container a call is about -/
def on : Op → Option Nat
  | .plain | .listMk _ | .dictMk .. | .setMk .. | .mapMk .. => none
  | .append l _ | .insert l _ _ | .remove l _ => some l
  | .add d _ _ | .find d _ => some d
  | .setAdd p _ | .setFind p _ | .setRemove p _ | .setClear p => some p
  | .mapAdd m _ _ | .mapFind m _ | .mapRemove m _ => some m
  | .del p => some p

/-- look-ups -/
def reads : Op → Prop
  | .find .. | .setFind .. | .mapFind .. => True
  | _ => False

/-- any number of legal calls that are look-ups, or not about the container `m` -/
inductive Calls (al : Malloc) (text : Nat → Hash.Key) (m : Nat) : St → Abs → St → Abs → Prop
  | nil {s : St} {A : Abs} : Calls al text m s A s A
  | cons {s s1 s2 : St} {A A1 A2 : Abs} {op : Op} {out : Out} : Legal A op → reads op ∨ on op ≠ some m → exec al text s op = .ok (s1, out) →
      Step text A op out A1 → Calls al text m s1 A1 s2 A2 → Calls al text m s A s2 A2

/-- the callback on one pair after the other, until it returns something else than 0 -/
def untilNonzero {γ : Type} (f : γ → St → Nat → Nat → Res (γ × St × Int)) : List (Nat × Nat) → γ → St → Res (γ × St × Int)
  | [], c, s => .ok (c, s, 0)
  | kv :: l, c, s => (f c s kv.1 kv.2).bind fun r => if r.2.2 ≠ 0 then .ok r else untilNonzero f l r.1 r.2.1

/-- the callback on one element after the other -/
def onEach {γ : Type} (f : γ → St → Nat → Res (γ × St)) : List Nat → γ → St → Res (γ × St)
  | [], c, s => .ok (c, s)
  | v :: l, c, s => (f c s v).bind fun r => onEach f l r.1 r.2

/-! ## A call leaves the other containers alone -/

theorem step_frame (K : Links A) {op : Op} {out : Out} {A' : Abs} (hs : Step text A op out A') {q : Nat} {x : SObj} (hq : A q = some x)
    (h1 : on op ≠ some q) (h2 : ∀ o, ownerOf x = some o → on op ≠ some o) : A' q = A q := by
  have hn : ∀ p, A p = none → q ≠ p := by rintro p hp rfl; rw [hq] at hp; simp at hp
  have hne : ∀ p y o, A p = some y → ownerOf y = some o → on op = some o → q ≠ p := by
    rintro p y o hp hy ho rfl
    rw [hq, Option.some.injEq] at hp
    subst hp
    exact h2 o hy ho
  have h1' : ∀ p, on op = some p → q ≠ p := by rintro p hp rfl; exact h1 hp
  cases hs with
  | plain _ h | listMk _ h | setMk _ h => exact upd_ne _ _ (hn _ h)
  | append | insert | remove | delPlain | delList | setAdd | setRemove | setClear | delSet => exact upd_ne _ _ (h1' _ rfl)
  | removeNot | find | setFind | mapNull | mapFind | mapFindNot | mapRemoveNot => rfl
  | dictMk _ hd hk hv => rw [upd_ne _ _ (hn _ hd), upd_ne _ _ (hn _ hv), upd_ne _ _ (hn _ hk)]
  | add h =>
    obtain ⟨hk, hv, _⟩ := K.dict h
    rw [upd_ne _ _ (hne _ _ _ hv rfl rfl), upd_ne _ _ (hne _ _ _ hk rfl rfl), upd_ne _ _ (h1' _ rfl)]
  | delDict h | delDictOnly h =>
    obtain ⟨hk, hv, _⟩ := K.dict h
    rw [upd_ne _ _ (h1' _ rfl), upd_ne _ _ (hne _ _ _ hv rfl rfl), upd_ne _ _ (hne _ _ _ hk rfl rfl)]
  | mapMk _ hm hk => rw [upd_ne _ _ (hn _ hm), upd_ne _ _ (hn _ hk)]
  | mapOld _ h he =>
    obtain ⟨_, ht, _⟩ := K.map h
    rw [upd_ne _ _ (h1' _ rfl), upd_ne _ _ (hne _ _ _ (ht _ (List.mem_of_find?_eq_some he)) rfl rfl)]
  | mapNew _ h _ _ ht =>
    obtain ⟨hk, _, _⟩ := K.map h
    rw [upd_ne _ _ (hne _ _ _ hk rfl rfl), upd_ne _ _ (h1' _ rfl), upd_ne _ _ (hn _ ht)]
  | mapRemove _ h he =>
    obtain ⟨hk, ht, _⟩ := K.map h
    rw [upd_ne _ _ (hne _ _ _ hk rfl rfl), upd_ne _ _ (hne _ _ _ (ht _ (List.mem_of_find?_eq_some he)) rfl rfl), upd_ne _ _ (h1' _ rfl)]
  | delMap h =>
    obtain ⟨hk, ht, _⟩ := K.map h
    refine if_neg ?_
    rintro (h' | h' | h')
    · exact h1' _ rfl h'
    · exact hne _ _ _ hk rfl rfl h'
    · obtain ⟨e, he, he'⟩ := List.mem_map.1 h'
      exact hne _ _ _ (ht e he) rfl rfl he'.symm

/-- `m` and what belongs to it are left alone -/
def freeze (s : St) (A : Abs) (G : Nat → Option Nat) (m : Nat) : Abs := fun q =>
  match A q with
  | none => none
  | some x => open Classical in if q = m ∨ ownerOf x = some m then some (.frozen (s.obj q) fun b => if G b = some q then s.mem b else none) else some x

theorem freeze_none {G : Nat → Option Nat} {m q : Nat} : freeze s A G m q = none ↔ A q = none := by
  unfold freeze
  cases A q with
  | none => simp
  | some x => simp only; split <;> simp

theorem freeze_off {G : Nat → Option Nat} {m q : Nat} {x : SObj} (hq : A q = some x) (h : ¬ (q = m ∨ ownerOf x = some m)) :
    freeze s A G m q = some x := by simp [freeze, hq, h]

theorem freeze_in {G : Nat → Option Nat} {m q : Nat} {x : SObj} (hq : A q = some x) (h : q = m ∨ ownerOf x = some m) :
    freeze s A G m q = some (.frozen (s.obj q) fun b => if G b = some q then s.mem b else none) := by simp [freeze, hq, h]

theorem freeze_inv {L : List Nat} {G : Nat → Option Nat} (I : Inv text s L A G) (m : Nat) : Inv text s L (freeze s A G m) G := by
  refine ⟨I.chain, fun p => by rw [← I.dom p, Ne, freeze_none], I.own, I.ownL, I.sep, I.fin, fun p x hp => ?_⟩
  cases hA : A p with
  | none => rw [freeze_none.2 hA] at hp; simp at hp
  | some y =>
    by_cases h : p = m ∨ ownerOf y = some m
    · rw [freeze_in hA h, Option.some.injEq] at hp
      subst hp
      refine ⟨rfl, fun b => ⟨⟨fun hb => ?_, fun hb => ?_⟩, fun hb => ?_⟩⟩
      · simp only [if_pos hb]; exact (I.own b).2 (by rw [hb]; simp)
      · by_contra h'; exact hb (if_neg h')
      · by_cases h' : G b = some p
        · simp only [if_pos h']
        · exact absurd (if_neg h') hb
    · rw [freeze_off hA h, Option.some.injEq] at hp
      subst hp
      exact I.holds p y hA

theorem freeze_links {G : Nat → Option Nat} (K : Links A) {m : Nat} {x : SObj} (hm : A m = some x) (hx : ownerOf x = none) : Links (freeze s A G m) := by
  intro p x hp
  cases hA : A p with
  | none => rw [freeze_none.2 hA] at hp; simp at hp
  | some y =>
    by_cases h : p = m ∨ ownerOf y = some m
    · rw [freeze_in hA h, Option.some.injEq] at hp
      subst hp
      simp [deps]
    · rw [freeze_off hA h, Option.some.injEq] at hp
      subst hp
      obtain ⟨h1, h2⟩ := K p y hA
      refine ⟨h1, fun d hd => freeze_off (h2 d hd) ?_⟩
      have := deps_owner hd
      rintro (rfl | h')
      · have h3 := h2 d hd
        rw [hm, Option.some.injEq] at h3
        rw [← h3, hx] at this
        simp at this
      · rw [this, Option.some.injEq] at h'; exact h (.inl h')

/-- what a legal call is about belongs to nothing else -/
theorem legal_on {op : Op} (hl : Legal A op) {p : Nat} (hp : on op = some p) : ∃ x, A p = some x ∧ ownerOf x = none := by
  cases op <;> simp only [on, Option.some.injEq, reduceCtorEq] at hp <;> subst hp <;> simp only [Legal] at hl
  case append | insert | remove => obtain ⟨_, h, _⟩ := hl; exact ⟨_, h, rfl⟩
  case add => obtain ⟨_, _, _, _, h, _⟩ := hl; exact ⟨_, h, rfl⟩
  case find => obtain ⟨_, _, _, _, h, _⟩ := hl; exact ⟨_, h, rfl⟩
  case setAdd => obtain ⟨_, _, _, h, _⟩ := hl; exact ⟨_, h, rfl⟩
  case setFind | setRemove | setClear => obtain ⟨_, _, _, h⟩ := hl; exact ⟨_, h, rfl⟩
  case mapAdd | mapRemove => obtain ⟨_, _, _, _, _, h, _⟩ := hl; exact ⟨_, h, rfl⟩
  case mapFind => obtain ⟨_, _, _, _, _, h⟩ := hl; exact ⟨_, h, rfl⟩
  case del =>
    rcases hl with h | ⟨_, h⟩ | ⟨_, _, _, _, h⟩ | ⟨_, _, h⟩ | ⟨_, _, _, _, _, h⟩ <;> exact ⟨_, h, rfl⟩

theorem freeze_legal {G : Nat → Option Nat} {m : Nat} {op : Op} (hl : Legal A op) (hon : on op ≠ some m) : Legal (freeze s A G m) op := by
  have key : ∀ p x, on op = some p → A p = some x → ownerOf x = none → freeze s A G m p = some x := by
    intro p x hp hA hx
    refine freeze_off hA ?_
    rintro (rfl | h)
    · exact hon hp
    · rw [hx] at h; simp at h
  cases op <;> simp only [Legal] at hl ⊢
  case listMk | dictMk | setMk | mapMk => exact hl
  case append => obtain ⟨_, h, h'⟩ := hl; exact ⟨_, key _ _ rfl h rfl, h'⟩
  case insert | remove => obtain ⟨_, h, h'⟩ := hl; exact ⟨_, key _ _ rfl h rfl, h'⟩
  case add | find => obtain ⟨_, _, _, _, h, h'⟩ := hl; exact ⟨_, _, _, _, key _ _ rfl h rfl, h'⟩
  case setAdd => obtain ⟨_, _, _, h, h'⟩ := hl; exact ⟨_, _, _, key _ _ rfl h rfl, h'⟩
  case setFind | setRemove | setClear => obtain ⟨_, _, _, h⟩ := hl; exact ⟨_, _, _, key _ _ rfl h rfl⟩
  case mapAdd | mapRemove => obtain ⟨_, _, _, _, _, h, h'⟩ := hl; exact ⟨_, _, _, _, _, key _ _ rfl h rfl, h'⟩
  case mapFind => obtain ⟨_, _, _, _, _, h⟩ := hl; exact ⟨_, _, _, _, _, key _ _ rfl h rfl⟩
  case del =>
    rcases hl with h | ⟨_, h⟩ | ⟨_, _, _, _, h⟩ | ⟨_, _, h⟩ | ⟨_, _, _, _, _, h⟩
    · exact .inl (key _ _ rfl h rfl)
    · exact .inr (.inl ⟨_, key _ _ rfl h rfl⟩)
    · exact .inr (.inr (.inl ⟨_, _, _, _, key _ _ rfl h rfl⟩))
    · exact .inr (.inr (.inr (.inl ⟨_, _, key _ _ rfl h rfl⟩)))
    · exact .inr (.inr (.inr (.inr ⟨_, _, _, _, _, key _ _ rfl h rfl⟩)))

/-- a look-up changes nothing -/
theorem reads_same {op : Op} (hr : reads op) {s' : St} {out : Out} (he : exec al text s op = .ok (s', out)) {A' : Abs} (hs : Step text A op out A') :
    s' = s ∧ A' = A := by
  have key : ∀ {α : Type} {x : Res α} {f : α → Out}, (x.bind fun q => Res.ok (s, f q)) = .ok (s', out) → s' = s := by
    intro α x f h
    cases x <;> simp only [Res.bind, Res.ok.injEq, Prod.mk.injEq, reduceCtorEq] at h
    exact h.1.symm
  cases op <;> simp only [reads] at hr <;> refine ⟨key he, ?_⟩ <;> cases hs <;> rfl

/-- **C120, one call.**  A legal call that is a look-up, or not about the container `m`, changes neither `m` nor what belongs to it, nor a private block
of these: the block still points to the same private blocks with the same contents. -/
theorem C120_frame (hal : al.Sound) (h : Reach al text s A) {m : Nat} {x : SObj} (hm : A m = some x) (hx : ownerOf x = none) {op : Op}
    (hl : Legal A op) (hon : reads op ∨ on op ≠ some m) {s' : St} {out : Out} (he : exec al text s op = .ok (s', out)) {A' : Abs}
    (hs : Step text A op out A') {q : Nat} {y : SObj} (hq : A q = some y) (hqm : q = m ∨ ownerOf y = some m) :
    A' q = A q ∧ s'.obj q = s.obj q ∧ ∀ b ∈ blocks s q, s'.mem b = s.mem b := by
  rcases hon with hr | hon
  · obtain ⟨rfl, rfl⟩ := reads_same hr he hs
    exact ⟨rfl, rfl, fun _ _ => rfl⟩
  obtain ⟨L, G, I, K⟩ := h.inv hal
  have hon' : ∀ o, ownerOf y = some o → on op ≠ some o := by
    intro o ho hp
    rcases hqm with rfl | hqm
    · rw [hm, Option.some.injEq] at hq; subst hq; rw [hx] at ho; simp at ho
    · rw [ho, Option.some.injEq] at hqm; subst hqm; exact hon hp
  have honq : on op ≠ some q := by
    intro hp
    rcases hqm with rfl | hqm
    · exact hon hp
    · obtain ⟨z, hz, hz'⟩ := legal_on hl hp
      rw [hq, Option.some.injEq] at hz
      subst hz
      rw [hz'] at hqm; simp at hqm
  have hA' := step_frame K hs hq honq hon'
  have If := freeze_inv I m
  have Kf := freeze_links (s := s) (G := G) K hm hx
  have hfq := freeze_in (s := s) (G := G) hq hqm
  refine ⟨hA', ?_⟩
  rcases step_ok hal If Kf (freeze_legal hl hon) with ⟨s1, out1, A1, L1, G1, e1, hs1, I1, K1⟩ | ⟨_, _, _, _, rfl, e, _⟩ | ⟨_, e, _⟩
  · rw [e1, Res.ok.injEq, Prod.mk.injEq] at he
    obtain ⟨rfl, rfl⟩ := he
    have hf1 := step_frame Kf hs1 hfq honq (by simp [ownerOf])
    rw [hfq] at hf1
    obtain ⟨ho, hb⟩ := I1.holds q _ hf1
    have hbl := Props.Inv.blocks I hq (h.real q y hq)
    have hmem : ∀ b ∈ blocks s q, s1.mem b = s.mem b := by
      intro b hb'
      have hG := (hbl b).1 hb'
      have := (hb b).2 (by simp only [if_pos hG]; exact (I.own b).2 (by rw [hG]; simp))
      simpa only [if_pos hG] using this
    exact ⟨ho, hmem⟩
  · rw [e] at he
    simp only [Res.ok.injEq, Prod.mk.injEq] at he
    obtain ⟨rfl, rfl⟩ := he
    cases hs
  · rw [e] at he; simp at he

/-! ## Iterations -/

/-- calls that are not about `m` leave its tree where it is -/
theorem calls_tree (hal : al.Sound) {m : Nat} {x : SObj} (hx : ownerOf x = none) {s s' : St} {A A' : Abs} (hc : Calls al text m s A s' A')
    (h : Reach al text s A) (hm : A m = some x) {t : TreeMem.LT Nat} {o : Obj} (ho : s.obj m = o)
    (hb : ∀ s : St, s.obj m = o → blocks s m = treeAddrs s 96 (addr t)) (hh : Tree.realHeight t < 96) (hT : TreeMem.Holds (nodes s.mem) t) :
    Reach al text s' A' ∧ A' m = some x ∧ s'.obj m = o ∧ TreeMem.Holds (nodes s'.mem) t := by
  induction hc with
  | nil => exact ⟨h, hm, ho, hT⟩
  | @cons s s1 s2 A A1 A2 op out hl hon he hs hc ih =>
    obtain ⟨h1, h2, h3⟩ := C120_frame hal h hm hx hl hon he hs hm (.inl rfl)
    refine ih (h.step hl he hs) (by rw [h1, hm]) (by rw [h2, ho]) (holds_of_nodes hT fun b n hb' hn => ?_)
    rw [h3 b, hn]
    rw [hb s ho, treeAddrs_holds t 96 hT hh]
    exact hb'

/-- an action on one key after the other -/
def runList {σ : Type} (act : σ → Nat → Res σ) : List Nat → σ → Res σ
  | [], x => .ok x
  | k :: ks, x => (act x k).bind (runList act ks)

theorem runList_append {σ : Type} (act : σ → Nat → Res σ) : ∀ (l l' : List Nat) (x : σ),
    runList act (l ++ l') x = (runList act l x).bind (runList act l')
  | [], _, _ => rfl
  | k :: l, l', x => by
    simp only [List.cons_append, runList]
    cases act x k with
    | ok y => simp only [Res.bind_ok, runList_append act l l' y]
    | ub => rfl
    | segv => rfl

/-- A walk whose action keeps the tree is the action on the keys, one after the other. -/
theorem walk_eq {σ : Type} {st : σ → St} {act : σ → Nat → Res σ} {P : σ → Prop} {full : List Nat}
    (hact : ∀ x k y, k ∈ full → P x → act x k = .ok y → P y) (t : TreeMem.LT Nat) (hi : Tree.Inv (forget t))
    (hkeep : ∀ x, P x → TreeMem.Holds (nodes (st x).mem) t) (fuel : Nat) (hf : Tree.realHeight t < fuel) (hfull : ∀ k ∈ order t, k ∈ full)
    (x : σ) (hP : P x) : walk st act fuel x (addr t) = runList act (order t) x ∧ ∀ y, runList act (order t) x = .ok y → P y := by
  induction t generalizing fuel x with
  | nil =>
    obtain ⟨f, rfl⟩ : ∃ f, fuel = f + 1 := ⟨fuel - 1, by omega⟩
    refine ⟨by simp [walk, addr, order, Tree.preorderList, runList], fun y hy => ?_⟩
    simp only [order, Tree.preorderList, List.map_nil, runList, Res.ok.injEq] at hy
    exact hy ▸ hP
  | node k a0 a1 h ih0 ih1 =>
    obtain ⟨f, rfl⟩ : ∃ f, fuel = f + 1 := ⟨fuel - 1, by omega⟩
    simp only [Tree.realHeight] at hf
    obtain ⟨i0, i1, eh, d0, d1⟩ := hi
    have hord : order (.node k a0 a1 h) = k.2 :: (order a0 ++ order a1) := by simp [order, Tree.preorderList]
    have hrd : ∀ x, P x → rdNode (st x) k.1 = .ok ⟨k.2, addr a0, addr a1, h⟩ := by
      intro x hP
      obtain ⟨_, h1, _⟩ := hkeep x hP
      rw [nodes_some] at h1
      simp only [rdNode, h1]
    have h0 : k.1 ≠ 0 := (hkeep x hP).1
    rw [hord] at hfull ⊢
    rw [show addr (.node k a0 a1 h) = k.1 from rfl, walk, if_neg h0, hrd x hP, Res.bind_ok, runList]
    have hk := hact x k.2
    by_cases h1 : h = 1
    · have e0 : a0 = .nil := by
        have : forget a0 = .nil := i0.height_eq_zero.1 (by omega)
        cases a0 with
        | nil => rfl
        | node => simp [forget, TreeMem.tmap] at this
      have e1 : a1 = .nil := by
        have : forget a1 = .nil := i1.height_eq_zero.1 (by omega)
        cases a1 with
        | nil => rfl
        | node => simp [forget, TreeMem.tmap] at this
      subst e0 e1
      simp only [h1, if_true, order, Tree.preorderList, List.map_nil, List.append_nil]
      cases hac : act x k.2 with
      | ok y =>
        refine ⟨rfl, fun y' hy' => ?_⟩
        simp only [Res.bind_ok, runList, Res.ok.injEq] at hy'
        exact hy' ▸ hk y (hfull _ (by simp)) hP hac
      | ub => exact ⟨rfl, by simp [Res.bind]⟩
      | segv => exact ⟨rfl, by simp [Res.bind]⟩
    · simp only [h1, if_false]
      cases hac : act x k.2 with
      | ub => exact ⟨rfl, by simp [Res.bind]⟩
      | segv => exact ⟨rfl, by simp [Res.bind]⟩
      | ok y =>
        have hPy := hk y (hfull _ (by simp)) hP hac
        obtain ⟨w0, p0⟩ := ih0 i0 (fun x hp => (hkeep x hp).2.2.1) f (by omega) (fun k hk => hfull k (by simp [hk])) y hPy
        simp only [Res.bind_ok, hrd y hPy, w0, runList_append]
        cases hr : runList act (order a0) y with
        | ub => exact ⟨rfl, by simp [Res.bind]⟩
        | segv => exact ⟨rfl, by simp [Res.bind]⟩
        | ok z =>
          have hPz := p0 z hr
          obtain ⟨w1, p1⟩ := ih1 i1 (fun x hp => (hkeep x hp).2.2.2) f (by omega) (fun k hk => hfull k (by simp [hk])) z hPz
          simp only [Res.bind_ok, hrd z hPz, w1]
          exact ⟨trivial, p1⟩

section
variable {γ : Type} {m k : Nat} {kp vp : Policy} {cmp : Nat → Nat → Int} {es : List Bind}

theorem runList_stop (f : γ → St → Nat → Nat → Res (γ × St × Int)) : ∀ (l : List Nat) (x : γ × St × Int), x.2.2 ≠ 0 →
    runList (applyMap f) l x = .ok x
  | [], _, _ => rfl
  | k :: l, x, h => by rw [runList, applyMap, if_pos h, Res.bind_ok, runList_stop f l x h]

/-- **C120, iteration.**  If the callback only makes legal calls that look something up or are not about the map, then `cee_map_iterate` calls it once for every binding, in some
order, until it returns something else than 0, and returns that; a crash can only be one of the callback.  The map is as it was.  `Q` is what the
callback relies on and keeps. -/
theorem C120_iterate (hal : al.Sound) (h : Reach al text s A) (hm : A m = some (.map kp vp cmp k es))
    (f : γ → St → Nat → Nat → Res (γ × St × Int)) (Q : γ → St → Abs → Prop)
    (hf : ∀ c s A e r, Reach al text s A → A m = some (.map kp vp cmp k es) → Q c s A → e ∈ es → f c s e.key e.val = .ok r →
      ∃ A', Calls al text m s A r.2.1 A' ∧ Q r.1 r.2.1 A')
    (c : γ) (hQ : Q c s A) :
    ∃ ts : List Bind, ts.Perm es ∧ mapIterate f c s m = untilNonzero f (ts.map fun e => (e.key, e.val)) c s ∧
      ∀ r, mapIterate f c s m = .ok r → ∃ A', Reach al text r.2.1 A' ∧ A' m = some (.map kp vp cmp k es) ∧ Q r.1 r.2.1 A' := by
  obtain ⟨t, ts, ho, ht, hi, hh, hp, hts⟩ := WalkProps.treeOf hal h hm
  refine ⟨ts, hp, ?_⟩
  obtain ⟨L, G, I, K⟩ := h.inv hal
  have hm0 : m ≠ 0 := by
    rintro rfl
    obtain ⟨c, hc⟩ := I.chain
    exact hc.zero_notMem (I.mem hm)
  have hb : ∀ s : St, s.obj m = .map kp vp cmp k (addr t) → blocks s m = treeAddrs s 96 (addr t) := by
    intro s h'; simp only [blocks, h']
  let P : γ × St × Int → Prop := fun x => ∃ A', Reach al text x.2.1 A' ∧ A' m = some (.map kp vp cmp k es) ∧ Q x.1 x.2.1 A' ∧
    x.2.1.obj m = .map kp vp cmp k (addr t) ∧ TreeMem.Holds (nodes x.2.1.mem) t
  have hcall : ∀ c s e r, e ∈ es → P (c, s, 0) → f c s e.key e.val = .ok r → P r := by
    rintro c s e r he ⟨A', r1, m1, q1, o1, T1⟩ hr
    obtain ⟨A2, hc, q2⟩ := hf c s A' e r r1 m1 q1 he hr
    obtain ⟨r2, m2, o2, T2⟩ := calls_tree hal rfl hc r1 m1 o1 hb hh T1
    exact ⟨A2, r2, m2, q2, o2, T2⟩
  have hmem : ∀ x ∈ order t, ∃ e ∈ es, x = e.tup := by
    intro x hx
    rw [hts] at hx
    obtain ⟨e, he, rfl⟩ := List.mem_map.1 hx
    exact ⟨e, hp.mem_iff.1 he, rfl⟩
  have happ : ∀ x e, e ∈ es → P x → x.2.2 = 0 → applyMap f x e.tup = f x.1 x.2.1 e.key e.val := by
    rintro x e he ⟨A', r1, m1, _⟩ h0
    rw [applyMap, if_neg (by simpa using h0), (WalkProps.pair_ok hal r1 m1 he).1, Res.bind_ok]
  obtain ⟨w, pw⟩ := walk_eq (st := fun x : γ × St × Int => x.2.1) (act := applyMap f) (P := P) (full := order t)
    (fun x k y hk hP hy => by
      obtain ⟨e, he, rfl⟩ := hmem k hk
      by_cases h0 : x.2.2 = 0
      · rw [happ x e he hP h0] at hy
        obtain ⟨c, s, i⟩ := x
        simp only at h0
        subst h0
        exact hcall c s e y he hP hy
      · rw [applyMap, if_pos h0, Res.ok.injEq] at hy
        exact hy ▸ hP)
    t hi (fun x hP => by obtain ⟨_, _, _, _, _, hT⟩ := hP; exact hT) 96 hh (fun _ h => h) (c, s, 0) ⟨A, h, hm, hQ, ho, ht⟩
  have hrun : ∀ (l : List Bind) c s, (∀ e ∈ l, e ∈ es) → P (c, s, 0) →
      runList (applyMap f) (l.map Bind.tup) (c, s, 0) = untilNonzero f (l.map fun e => (e.key, e.val)) c s := by
    intro l
    induction l with
    | nil => intro c s _ _; rfl
    | cons e l ih =>
      intro c s hl hP
      rw [List.map_cons, runList, happ _ e (hl e (by simp)) hP rfl, List.map_cons, untilNonzero]
      cases hr : f c s e.key e.val with
      | ub => rfl
      | segv => rfl
      | ok r =>
        have hPr := hcall c s e r (hl e (by simp)) hP hr
        simp only [Res.bind_ok]
        by_cases h0 : r.2.2 = 0
        · rw [if_neg (by simpa using h0)]
          obtain ⟨c', s', i⟩ := r
          simp only at h0
          subst h0
          exact ih c' s' (fun e he => hl e (by simp [he])) hPr
        · rw [if_pos h0, runList_stop f _ r h0]
  have hit : mapIterate f c s m = runList (applyMap f) (order t) (c, s, 0) := by
    simp only [mapIterate, hm0, if_false, I.getObj hm, Res.bind_ok, ho, w]
  refine ⟨by rw [hit, hts, hrun ts c s (fun e he => hp.mem_iff.1 he) ⟨A, h, hm, hQ, ho, ht⟩], fun r hr => ?_⟩
  rw [hit] at hr
  obtain ⟨A', r1, m1, q1, _⟩ := pw r hr
  exact ⟨A', r1, m1, q1⟩

end

/-- **C120, sets.**  The same for `cee_set_iterate`, whose callback returns nothing. -/
theorem C120_set_iterate {γ : Type} (hal : al.Sound) (h : Reach al text s A) {p : Nat} {pol : Policy} {cmp : Nat → Nat → Int} {xs : List Nat}
    (hm : A p = some (.set pol cmp xs)) (f : γ → St → Nat → Res (γ × St)) (Q : γ → St → Abs → Prop)
    (hf : ∀ c s A v r, Reach al text s A → A p = some (.set pol cmp xs) → Q c s A → v ∈ xs → f c s v = .ok r →
      ∃ A', Calls al text p s A r.2 A' ∧ Q r.1 r.2 A') (c : γ) (hQ : Q c s A) :
    ∃ ys : List Nat, ys.Perm xs ∧ setIterate f c s p = onEach f ys c s ∧
      ∀ r, setIterate f c s p = .ok r → ∃ A', Reach al text r.2 A' ∧ A' p = some (.set pol cmp xs) ∧ Q r.1 r.2 A' := by
  obtain ⟨t, ho, ht, hi, hh, hpm, _⟩ := WalkProps.setTree hal h hm
  refine ⟨order t, hpm, ?_⟩
  obtain ⟨L, G, I, K⟩ := h.inv hal
  have hp0 : p ≠ 0 := by
    rintro rfl
    obtain ⟨c, hc⟩ := I.chain
    exact hc.zero_notMem (I.mem hm)
  have hb : ∀ s : St, s.obj p = .set pol cmp (addr t) → blocks s p = treeAddrs s 96 (addr t) := by
    intro s h'; simp only [blocks, h']
  obtain ⟨w, pw⟩ := walk_eq (st := (Prod.snd : γ × St → St)) (act := fun x v => f x.1 x.2 v)
    (P := fun x => ∃ A', Reach al text x.2 A' ∧ A' p = some (.set pol cmp xs) ∧ Q x.1 x.2 A' ∧ x.2.obj p = .set pol cmp (addr t) ∧
      TreeMem.Holds (nodes x.2.mem) t) (full := order t)
    (fun x k y hk hP hy => by
      obtain ⟨A', r1, m1, q1, o1, T1⟩ := hP
      obtain ⟨A2, hc, q2⟩ := hf x.1 x.2 A' k y r1 m1 q1 (hpm.mem_iff.1 hk) hy
      obtain ⟨r2, m2, o2, T2⟩ := calls_tree hal rfl hc r1 m1 o1 hb hh T1
      exact ⟨A2, r2, m2, q2, o2, T2⟩)
    t hi (fun x hP => by obtain ⟨_, _, _, _, _, hT⟩ := hP; exact hT) 96 hh (fun _ h => h) (c, s) ⟨A, h, hm, hQ, ho, ht⟩
  have hit : setIterate f c s p = runList (fun x v => f x.1 x.2 v) (order t) (c, s) := by
    simp only [setIterate, hp0, if_false, I.getObj hm, Res.bind_ok, ho, w]
  have hrun : ∀ (l : List Nat) c s, runList (fun x v => f x.1 x.2 v) l (c, s) = onEach f l c s := by
    intro l
    induction l with
    | nil => intro c s; rfl
    | cons v l ih => intro c s; rw [runList, onEach]; congr 1; funext r; exact ih r.1 r.2
  refine ⟨by rw [hit, hrun], fun r hr => ?_⟩
  rw [hit] at hr
  obtain ⟨A', r1, m1, q1, _⟩ := pw r hr
  exact ⟨A', r1, m1, q1⟩

/-! ## Callbacks that give keys of the map new values -/

/-- calls that look something up, are not about `m`, or add a key to `m` that the map has -/
inductive Updates (al : Malloc) (text : Nat → Hash.Key) (m : Nat) : St → Abs → St → Abs → Prop
  | nil {s : St} {A : Abs} : Updates al text m s A s A
  | call {s s1 s2 : St} {A A1 A2 : Abs} {op : Op} {out : Out} : Legal A op → reads op ∨ on op ≠ some m → exec al text s op = .ok (s1, out) →
      Step text A op out A1 → Updates al text m s1 A1 s2 A2 → Updates al text m s A s2 A2
  | update {s s1 s2 : St} {A A1 A2 : Abs} {key value k : Nat} {kp vp : Policy} {cmp : Nat → Nat → Int} {es : List Bind} {e : Bind} {out : Out} :
      A m = some (.map kp vp cmp k es) → e ∈ es → cmp key e.key = 0 → Legal A (.mapAdd m key value) →
      exec al text s (.mapAdd m key value) = .ok (s1, out) → Step text A (.mapAdd m key value) out A1 →
      Updates al text m s1 A1 s2 A2 → Updates al text m s A s2 A2

/-- for one key after the other, the value that the map has for it then -/
def untilFound {γ : Type} (f : γ → St → Nat → Nat → Res (γ × St × Int)) (m : Nat) : List Nat → γ → St → Res (γ × St × Int)
  | [], c, s => .ok (c, s, 0)
  | key :: l, c, s => (mapFind s m key).bind fun val => (f c s key val).bind fun r => if r.2.2 ≠ 0 then .ok r else untilFound f m l r.1 r.2.1

/-- keys and tuples -/
def names (es : List Bind) : List (Nat × Nat) := es.map fun e => (e.key, e.tup)

section
variable {γ : Type} {m k : Nat} {kp vp : Policy} {cmp : Nat → Nat → Int} {es : List Bind}

theorem updates_tree (hal : al.Sound) {s s' : St} {A A' : Abs} (hc : Updates al text m s A s' A')
    (h : Reach al text s A) (hm : A m = some (.map kp vp cmp k es)) {t : TreeMem.LT Nat} (ho : s.obj m = .map kp vp cmp k (addr t))
    (hh : Tree.realHeight t < 96) (hT : TreeMem.Holds (nodes s.mem) t) :
    ∃ es', Reach al text s' A' ∧ A' m = some (.map kp vp cmp k es') ∧ names es' = names es ∧ s'.obj m = .map kp vp cmp k (addr t) ∧
      TreeMem.Holds (nodes s'.mem) t := by
  induction hc generalizing es with
  | nil => exact ⟨es, h, hm, rfl, ho, hT⟩
  | call hl hon he hs hc ih =>
    obtain ⟨h1, h2, h3, h4⟩ := calls_tree hal rfl (.cons hl hon he hs .nil) h hm ho (fun s h' => by simp only [blocks, h']) hh hT
    exact ih h1 h2 h3 h4
  | @update s s1 s2 A A1 A2 key value k' kp' vp' cmp' es' e out hm' hmem hcmp hl he hs hc ih =>
    rw [hm, Option.some.injEq, SObj.map.injEq] at hm'
    obtain ⟨rfl, rfl, rfl, rfl, rfl⟩ := hm'
    obtain ⟨L, G, I, K⟩ := h.inv hal
    have r1 := h.step hl he hs
    cases hs with
    | mapNull =>
      simp only [exec, mapAdd, if_true, Res.bind_ok, Res.ok.injEq, Prod.mk.injEq] at he
      obtain ⟨rfl, _⟩ := he
      exact ih h hm ho hT
    | mapNew _ hm' hno =>
      rw [hm, Option.some.injEq, SObj.map.injEq] at hm'
      obtain ⟨rfl, rfl, rfl, rfl, rfl⟩ := hm'
      exact absurd hcmp (hno e hmem)
    | mapOld h0 hm' hf =>
      rw [hm, Option.some.injEq, SObj.map.injEq] at hm'
      obtain ⟨rfl, rfl, rfl, rfl, rfl⟩ := hm'
      obtain ⟨_, _, _, _, _, hl1, hl2, hl3⟩ := hl
      rw [hm, Option.some.injEq, SObj.map.injEq] at hl1
      obtain ⟨rfl, rfl, rfl, rfl, rfl⟩ := hl1
      rcases mapAdd_ok hal I K hm hl2 h0 (hl3 h0) with ⟨e', s', L', G', _, e1, _, _, hmm, hmo⟩ | ⟨hno, _⟩
      · simp only [exec, e1, Res.bind_ok, Res.ok.injEq, Prod.mk.injEq] at he
        obtain ⟨rfl, _⟩ := he
        obtain ⟨es', q1, q2, q3, q4, q5⟩ := ih r1 (upd_same _ _ _) (by rw [hmo, ho]) (by rw [show s'.mem = s.mem from funext hmm]; exact hT)
        refine ⟨es', q1, q2, q3.trans ?_, q4, q5⟩
        simp only [names, List.map_map]
        refine List.map_congr_left fun e _ => ?_
        simp only [Function.comp_apply]
        split <;> rfl
      · rw [bindOf, hf] at hno; simp at hno

theorem find_at (hal : al.Sound) (h : Reach al text s A) (hm : A m = some (.map kp vp cmp k es)) {e : Bind} (he : e ∈ es) :
    mapFind s m e.key = .ok e.val := by
  obtain ⟨L, G, I, K⟩ := h.inv hal
  obtain ⟨_, h0, _⟩ := WalkProps.pair_ok hal h hm he
  obtain ⟨root, M⟩ := I.isMap' K hm
  rw [mapFind_ok I K hm h0, bindOf_some M.ord M.uniq he (M.ord.refl _)]
  rfl

/-- **C120, new values.**  The callback may also give keys of the map new values: every key is met once, with the value it has at that moment, and
the map has the same keys afterwards. -/
theorem C120_update (hal : al.Sound) (h : Reach al text s A) (hm : A m = some (.map kp vp cmp k es))
    (f : γ → St → Nat → Nat → Res (γ × St × Int)) (Q : γ → St → Abs → Prop)
    (hf : ∀ c s A es' e r, Reach al text s A → A m = some (.map kp vp cmp k es') → es'.map Bind.key = es.map Bind.key → Q c s A → e ∈ es' →
      f c s e.key e.val = .ok r → ∃ A', Updates al text m s A r.2.1 A' ∧ Q r.1 r.2.1 A')
    (c : γ) (hQ : Q c s A) :
    ∃ ks : List Nat, ks.Perm (es.map Bind.key) ∧ mapIterate f c s m = untilFound f m ks c s ∧
      ∀ r, mapIterate f c s m = .ok r → ∃ A' es', Reach al text r.2.1 A' ∧ A' m = some (.map kp vp cmp k es') ∧
        es'.map Bind.key = es.map Bind.key ∧ Q r.1 r.2.1 A' := by
  obtain ⟨t, ts, ho, ht, hi, hh, hp, hts⟩ := WalkProps.treeOf hal h hm
  refine ⟨ts.map Bind.key, hp.map _, ?_⟩
  obtain ⟨L, G, I, K⟩ := h.inv hal
  have hm0 : m ≠ 0 := by
    rintro rfl
    obtain ⟨c, hc⟩ := I.chain
    exact hc.zero_notMem (I.mem hm)
  let P : γ × St × Int → Prop := fun x => ∃ A' es', Reach al text x.2.1 A' ∧ A' m = some (.map kp vp cmp k es') ∧ names es' = names es ∧
    Q x.1 x.2.1 A' ∧ x.2.1.obj m = .map kp vp cmp k (addr t) ∧ TreeMem.Holds (nodes x.2.1.mem) t
  have hkeys : ∀ es', names es' = names es → es'.map Bind.key = es.map Bind.key := by
    intro es' h
    have := congrArg (List.map Prod.fst) h
    simpa [names, Function.comp_def] using this
  have hnow : ∀ es' e, names es' = names es → e ∈ es → ∃ e' ∈ es', e'.key = e.key ∧ e'.tup = e.tup := by
    intro es' e hn he
    have : (e.key, e.tup) ∈ names es' := by rw [hn]; exact List.mem_map.2 ⟨e, he, rfl⟩
    obtain ⟨e', h1, h2⟩ := List.mem_map.1 this
    simp only [Prod.mk.injEq] at h2
    exact ⟨e', h1, h2⟩
  have hcall : ∀ x e, e ∈ es → P x → x.2.2 = 0 → ∃ v, mapFind x.2.1 m e.key = .ok v ∧ applyMap f x e.tup = f x.1 x.2.1 e.key v ∧
      ∀ r, f x.1 x.2.1 e.key v = .ok r → P r := by
    rintro x e he ⟨A', es', r1, m1, n1, q1, o1, T1⟩ h0
    obtain ⟨e', he', hk, ht⟩ := hnow es' e n1 he
    refine ⟨e'.val, by rw [← hk]; exact find_at hal r1 m1 he', ?_, fun r hr => ?_⟩
    · rw [applyMap, if_neg (by simpa using h0), ← ht, (WalkProps.pair_ok hal r1 m1 he').1, Res.bind_ok, hk]
    · obtain ⟨A2, hc, q2⟩ := hf _ _ A' es' e' r r1 m1 (hkeys _ n1) q1 he' (by rw [hk]; exact hr)
      obtain ⟨es2, r2, m2, n2, o2, T2⟩ := updates_tree hal hc r1 m1 o1 hh T1
      exact ⟨A2, es2, r2, m2, n2.trans n1, q2, o2, T2⟩
  have hmem : ∀ x ∈ order t, ∃ e ∈ es, x = e.tup := by
    intro x hx
    rw [hts] at hx
    obtain ⟨e, he, rfl⟩ := List.mem_map.1 hx
    exact ⟨e, hp.mem_iff.1 he, rfl⟩
  have hP0 : P (c, s, 0) := ⟨A, es, h, hm, rfl, hQ, ho, ht⟩
  obtain ⟨w, pw⟩ := walk_eq (st := fun x : γ × St × Int => x.2.1) (act := applyMap f) (P := P) (full := order t)
    (fun x k y hk hP hy => by
      obtain ⟨e, he, rfl⟩ := hmem k hk
      by_cases h0 : x.2.2 = 0
      · obtain ⟨v, _, h2, h3⟩ := hcall x e he hP h0
        rw [h2] at hy
        exact h3 y hy
      · rw [applyMap, if_pos h0, Res.ok.injEq] at hy
        exact hy ▸ hP)
    t hi (fun x hP => by obtain ⟨_, _, _, _, _, _, _, hT⟩ := hP; exact hT) 96 hh (fun _ h => h) (c, s, 0) hP0
  have hrun : ∀ (l : List Bind) c s, (∀ e ∈ l, e ∈ es) → P (c, s, 0) →
      runList (applyMap f) (l.map Bind.tup) (c, s, 0) = untilFound f m (l.map Bind.key) c s := by
    intro l
    induction l with
    | nil => intro c s _ _; rfl
    | cons e l ih =>
      intro c s hl hP
      obtain ⟨v, h1, h2, h3⟩ := hcall _ e (hl e (by simp)) hP rfl
      rw [List.map_cons, runList, h2, List.map_cons, untilFound, h1, Res.bind_ok]
      cases hr : f c s e.key v with
      | ub => rfl
      | segv => rfl
      | ok r =>
        have hPr := h3 r hr
        simp only [Res.bind_ok]
        by_cases h0 : r.2.2 = 0
        · rw [if_neg (by simpa using h0)]
          obtain ⟨c', s', i⟩ := r
          simp only at h0
          subst h0
          exact ih c' s' (fun e he => hl e (by simp [he])) hPr
        · rw [if_pos h0, runList_stop f _ r h0]
  have hit : mapIterate f c s m = runList (applyMap f) (order t) (c, s, 0) := by
    simp only [mapIterate, hm0, if_false, I.getObj hm, Res.bind_ok, ho, w]
  refine ⟨by rw [hit, hts, hrun ts c s (fun e he => hp.mem_iff.1 he) hP0], fun r hr => ?_⟩
  rw [hit] at hr
  obtain ⟨A', es', r1, m1, n1, q1, _⟩ := pw r hr
  exact ⟨A', es', r1, m1, hkeys _ n1, q1⟩

end

/-! ## A callback that removes the element it is given -/

/-- the callback: the elements it was called with are its data -/
def removing (p : Nat) (seen : List Nat) (s : St) (v : Nat) : Res (List Nat × St) :=
  (setRemove s p v).bind fun r => .ok (seen ++ [v], r.1)

theorem get_of {m : Nat → Option (TNode Nat)} {b : Nat} {n : TNode Nat} (a : Nat) (h0 : b ≠ 0) (h : m b = some n) :
    TreeMem.get ⟨a, m⟩ b = .ok n := by simp [TreeMem.get, h0, h]

theorem rd_of {b : Nat} {n : TNode Nat} (h : s.mem b = some (.node n)) : rdNode s b = .ok n := by simp only [rdNode, h]

/-- the tree of two elements -/
theorem two {t : TreeMem.LT Nat} (hi : Tree.Inv (forget t)) {x y : Nat} (hp : (order t).Perm [x, y]) :
    ∃ a v b w, t = .node (a, v) (.node (b, w) .nil .nil 1) .nil 2 ∨ t = .node (a, v) .nil (.node (b, w) .nil .nil 1) 2 := by
  have hl := hp.length_eq
  cases t with
  | nil => simp [order, Tree.preorderList] at hl
  | node k a0 a1 h =>
    obtain ⟨i0, i1, eh, _, _⟩ := hi
    have one : ∀ t : TreeMem.LT Nat, Tree.Inv (forget t) → (order t).length = 1 → ∃ b w, t = .node (b, w) .nil .nil 1 := by
      intro t hi hl
      cases t with
      | nil => simp [order, Tree.preorderList] at hl
      | node k b0 b1 h =>
        obtain ⟨_, _, eh, _, _⟩ := hi
        cases b0 with
        | node => simp [order, Tree.preorderList] at hl
        | nil =>
          cases b1 with
          | node => simp [order, Tree.preorderList] at hl
          | nil =>
            have : h = 1 := by simpa [TreeMem.tmap, Tree.height] using eh
            subst this
            exact ⟨k.1, k.2, rfl⟩
    have hs : (order a0).length + (order a1).length = 1 := by
      simp [order, Tree.preorderList] at hl ⊢; omega
    have zero : ∀ t : TreeMem.LT Nat, (order t).length = 0 → t = .nil := by
      intro t ht
      cases t with
      | nil => rfl
      | node => simp [order, Tree.preorderList] at ht
    rcases Nat.eq_zero_or_pos (order a0).length with h0 | h0
    · obtain ⟨b, w, rfl⟩ := one a1 i1 (by omega)
      have := zero a0 h0
      subst this
      have : h = 2 := by simpa [TreeMem.tmap, Tree.height] using eh
      subst this
      exact ⟨k.1, k.2, b, w, .inr rfl⟩
    · obtain ⟨b, w, rfl⟩ := one a0 i0 (by omega)
      have := zero a1 (by omega)
      subst this
      have : h = 2 := by simpa [TreeMem.tmap, Tree.height] using eh
      subst this
      exact ⟨k.1, k.2, b, w, .inl rfl⟩

/-- **C120, not for removals.**  With a callback that removes the element it is given, `cee_set_iterate` works for no set of two elements: it reads a node
that was freed, or it ends without having called the callback for one of the elements. -/
theorem C120_remove_false (hal : al.Sound) (h : Reach al text s A) {p : Nat} {pol : Policy} {cmp : Nat → Nat → Int} {x y : Nat}
    (hm : A p = some (.set pol cmp [x, y])) :
    setIterate (removing p) [] s p = .ub ∨ ∃ v s', setIterate (removing p) [] s p = .ok ([v], s') := by
  obtain ⟨t, ho, ht, hi, hh, hpm, hord, _⟩ := WalkProps.setTree hal h hm
  obtain ⟨L, G, I, K⟩ := h.inv hal
  have hp0 : p ≠ 0 := by
    rintro rfl
    obtain ⟨c, hc⟩ := I.chain
    exact hc.zero_notMem (I.mem hm)
  have hself : ∀ v, cmp v v = 0 := by
    intro v
    have := hord.swap v v
    omega
  obtain ⟨a, v, b, w, rfl | rfl⟩ := two hi hpm
  · right
    obtain ⟨h0, h1, ⟨hb0, h2, _, _⟩, _⟩ := ht
    simp only [addr] at h0 h1 hb0 h2 ho
    have hab : a ≠ b := by
      rintro rfl
      rw [h1, Option.some.injEq, TNode.mk.injEq] at h2
      omega
    have hma : s.mem a = some (.node ⟨v, b, 0, 2⟩) := nodes_some.1 h1
    have hfind : treeFind s a (cmp v) = .ok a := by
      rw [treeFind, TreeMem.tfind, if_neg h0, get_of a h0 h1]
      simp only [hself, if_true]
    have hdown : TreeMem.down (cmp v) ⟨a, nodes s.mem⟩ (Tree.MAXH - 1) a [.root, .root] = .ok ([.root, .root], a) := by
      rw [TreeMem.down, if_neg h0, get_of a h0 h1, Res.bind_ok]
      simp only [hself, if_true]
    have hright : TreeMem.goRight ⟨a, nodes s.mem⟩ (Tree.MAXH - 2) b [.kid a false, .root, .root] = .ok ([.kid a false, .root, .root], b) := by
      rw [TreeMem.goRight, get_of a hb0 h2, Res.bind_ok]
      rfl
    have hdel : ∃ s', removing p [] s v = .ok ([v], s') ∧ s'.mem a = some (.node ⟨w, 0, 0, 1⟩) := by
      have hM : ¬ (Tree.MAXH + 1 ≤ 2) := by decide
      simp [Res.bind_ok, removing, setRemove, I.getObj hm, ho, hfind, TreeMem.get, h0, h1, nodeKey, hma, treeDelete, TreeMem.tdelete, hdown, hM,
        TreeMem.load, hb0, hright, h2, TreeMem.setKey, TreeMem.unlink, TreeMem.free, TreeMem.store, TreeMem.setKid, TreeMem.upDel, TreeMem.balance,
        TreeMem.height, TreeMem.setH, TreeMem.upd, hab, hab.symm, setNodes, TNode.setKid]
    obtain ⟨s', e1, e2⟩ := hdel
    refine ⟨v, s', ?_⟩
    simp only [setIterate, if_neg hp0, I.getObj hm, Res.bind_ok, ho]
    rw [walk, if_neg h0, rd_of hma, Res.bind_ok, if_neg (by simp), e1, Res.bind_ok,
      rd_of e2, Res.bind_ok, walk, if_pos rfl, Res.bind_ok, rd_of e2, Res.bind_ok,
      walk, if_pos rfl]
  · left
    obtain ⟨h0, h1, _, hb0, h2, _, _⟩ := ht
    simp only [addr] at h0 h1 hb0 h2 ho
    have hma : s.mem a = some (.node ⟨v, 0, b, 2⟩) := nodes_some.1 h1
    have hfind : treeFind s a (cmp v) = .ok a := by
      rw [treeFind, TreeMem.tfind, if_neg h0, get_of a h0 h1]
      simp only [hself, if_true]
    have hdown : TreeMem.down (cmp v) ⟨a, nodes s.mem⟩ (Tree.MAXH - 1) a [.root, .root] = .ok ([.root, .root], a) := by
      rw [TreeMem.down, if_neg h0, get_of a h0 h1, Res.bind_ok]
      simp only [hself, if_true]
    have hdel : ∃ s', removing p [] s v = .ok ([v], s') ∧ s'.mem a = none := by
      simp [Res.bind_ok, removing, setRemove, I.getObj hm, ho, hfind, TreeMem.get, h0, h1, nodeKey, hma, treeDelete, TreeMem.tdelete, hdown,
        TreeMem.load, TreeMem.unlink, TreeMem.free, TreeMem.store, TreeMem.upDel, TreeMem.upd, setNodes]
    obtain ⟨s', e1, e2⟩ := hdel
    simp only [setIterate, if_neg hp0, I.getObj hm, Res.bind_ok, ho]
    rw [walk, if_neg h0, rd_of hma, Res.bind_ok, if_neg (by simp), e1, Res.bind_ok,
      show rdNode s' a = .ub by rw [rdNode, e2]]
    rfl

/-! ## A callback that adds to the set -/

/-- the callback: `hi` is added when it is called with `x`, `lo` otherwise -/
def adding (al : Malloc) (p x lo hi : Nat) (seen : List Nat) (s : St) (v : Nat) : Res (List Nat × St) :=
  (setAdd al s p (if v = x then hi else lo)).bind fun s => .ok (seen ++ [v], s)

theorem down_left {m : Nat → Option (TNode Nat)} {a v b w : Nat} {c : Nat → Int} (ha : a ≠ 0) (hb : b ≠ 0)
    (h1 : m a = some ⟨v, b, 0, 2⟩) (h2 : m b = some ⟨w, 0, 0, 1⟩) (hv : c v < 0) (hw : c w < 0) :
    TreeMem.down c ⟨a, m⟩ (Tree.MAXH - 1) a [.root] = .ok ([.kid b false, .kid a false, .root], 0) := by
  rw [show Tree.MAXH - 1 = 93 + 1 + 1 from rfl, TreeMem.down, if_neg ha, get_of a ha h1, Res.bind_ok, if_neg (by simp only; omega)]
  simp only [show decide (c v > 0) = false by simp; omega, TNode.kid, if_true, Bool.false_eq_true, if_false]
  rw [TreeMem.down, if_neg hb, get_of a hb h2, Res.bind_ok, if_neg (by simp only; omega)]
  simp only [show decide (c w > 0) = false by simp; omega, TNode.kid, if_true, Bool.false_eq_true, if_false]
  rw [TreeMem.down, if_pos rfl]

theorem grow_left {m : Nat → Option (TNode Nat)} {a v b w r z : Nat} {c : Nat → Int} (ha : a ≠ 0) (hb : b ≠ 0) (hr : r ≠ 0) (hab : a ≠ b)
    (har : r ≠ a) (hbr : r ≠ b) (h1 : m a = some ⟨v, b, 0, 2⟩) (h2 : m b = some ⟨w, 0, 0, 1⟩) (hv : c v < 0) (hw : c w < 0) :
    ∃ h, TreeMem.tsearch r c z ⟨a, m⟩ = .ok (h, r) ∧ h.mem a = some ⟨v, 0, 0, 1⟩ ∧ h.mem r = some ⟨z, 0, 0, 1⟩ := by
  have hd := down_left ha hb h1 h2 hv hw
  simp [TreeMem.tsearch, hd, Res.bind_ok, hr, TreeMem.store, TreeMem.setKid, TreeMem.get, ha, hb, h1, h2, hab, hab.symm, har, har.symm, hbr, hbr.symm,
    TreeMem.upd, TreeMem.upIns, TreeMem.balance, TreeMem.load, TreeMem.height, TreeMem.setH, TreeMem.rot, TNode.setKid, TNode.kid]

theorem down_right {m : Nat → Option (TNode Nat)} {a v b w : Nat} {c : Nat → Int} (ha : a ≠ 0) (hb : b ≠ 0)
    (h1 : m a = some ⟨v, 0, b, 2⟩) (h2 : m b = some ⟨w, 0, 0, 1⟩) (hv : c v > 0) (hw : c w > 0) :
    TreeMem.down c ⟨a, m⟩ (Tree.MAXH - 1) a [.root] = .ok ([.kid b true, .kid a true, .root], 0) := by
  rw [show Tree.MAXH - 1 = 93 + 1 + 1 from rfl, TreeMem.down, if_neg ha, get_of a ha h1, Res.bind_ok, if_neg (by simp only; omega)]
  simp only [show decide (c v > 0) = true by simp; omega, TNode.kid, if_true, Bool.false_eq_true, if_false]
  rw [TreeMem.down, if_neg hb, get_of a hb h2, Res.bind_ok, if_neg (by simp only; omega)]
  simp only [show decide (c w > 0) = true by simp; omega, TNode.kid, if_true, Bool.false_eq_true, if_false]
  rw [TreeMem.down, if_pos rfl]

theorem grow_right {m : Nat → Option (TNode Nat)} {a v b w r z : Nat} {c : Nat → Int} (ha : a ≠ 0) (hb : b ≠ 0) (hr : r ≠ 0) (hab : a ≠ b)
    (har : r ≠ a) (hbr : r ≠ b) (h1 : m a = some ⟨v, 0, b, 2⟩) (h2 : m b = some ⟨w, 0, 0, 1⟩) (hv : c v > 0) (hw : c w > 0) :
    ∃ h, TreeMem.tsearch r c z ⟨a, m⟩ = .ok (h, r) ∧ h.mem a = some ⟨v, 0, 0, 1⟩ ∧ h.mem r = some ⟨z, 0, 0, 1⟩ := by
  have hd := down_right ha hb h1 h2 hv hw
  simp [TreeMem.tsearch, hd, Res.bind_ok, hr, TreeMem.store, TreeMem.setKid, TreeMem.get, ha, hb, h1, h2, hab, hab.symm, har, har.symm, hbr, hbr.symm,
    TreeMem.upd, TreeMem.upIns, TreeMem.balance, TreeMem.load, TreeMem.height, TreeMem.setH, TreeMem.rot, TNode.setKid, TNode.kid]

/-- **C120, not for additions.**  With a callback that adds to the set, members may be left out: for any set of two members, and a callback that adds
a greater one when it is called with the smaller, and a smaller one when it is called with the greater, it is called with one of them only. -/
theorem C120_add_false (hal : al.Sound) (h : Reach al text s A) {p : Nat} {pol : Policy} {cmp : Nat → Nat → Int} {xs : List Nat} {x y lo hi : Nat}
    (hm : A p = some (.set pol cmp xs)) (hxs : xs.Perm [x, y]) (hxy : cmp x y < 0) (hlo : cmp lo x < 0) (hhi : cmp hi y > 0) (lo0 : lo ≠ 0) (hi0 : hi ≠ 0) :
    ∃ v ∈ [x, y], (∃ s', setIterate (adding al p x lo hi) [] s p = .ok ([v], s')) ∨
      (setIterate (adding al p x lo hi) [] s p = .segv ∧ ∃ i, al.fails i = true) := by
  obtain ⟨L, G, I, K⟩ := h.inv hal
  obtain ⟨hord, hl, root, ho, t, hat, hinv, hsort, hpm, _⟩ := I.holds p _ hm
  have hp0 : p ≠ 0 := by
    rintro rfl
    obtain ⟨c, hc⟩ := I.chain
    exact hc.zero_notMem (I.mem hm)
  have hpm := hpm.trans hxs
  have ht := hat.holds
  have hrt : root = addr t := hat.ctx
  subst hrt
  have hlo2 : cmp lo y < 0 := by
    by_contra hc
    have h1 := hord.trans y lo x (by have := hord.swap lo y; have := hord.swap y lo; omega) (by omega)
    have := hord.swap x y
    omega
  have hhi2 : cmp hi x > 0 := by
    by_contra hc
    have h1 := hord.trans hi x y (by omega) (by omega)
    omega
  obtain ⟨a, v, b, w, rfl | rfl⟩ := two hinv ((order_perm t).trans hpm)
  · obtain ⟨h0, h1, ⟨hb0, h2, _, _⟩, _⟩ := ht
    simp only [addr] at h0 h1 hb0 h2 ho
    obtain ⟨rfl, rfl⟩ : v = y ∧ w = x := by
      have hpm' : [w, v].Perm [x, y] := hpm
      have hlt : cmp w v < 0 := by simpa [Tree.inorder, forget, TreeMem.tmap] using hsort
      have hm1 : v ∈ [x, y] := hpm'.mem_iff.1 (by simp)
      have hm2 : w ∈ [x, y] := hpm'.mem_iff.1 (by simp)
      simp only [List.mem_cons, List.not_mem_nil, or_false] at hm1 hm2
      have := hord.swap x y
      have := hord.refl x
      have := hord.refl y
      rcases hm1 with rfl | rfl <;> rcases hm2 with rfl | rfl <;> first | exact ⟨rfl, rfl⟩ | (exfalso; omega)
    have hne : v ≠ w := by rintro rfl; have := hord.refl v; omega
    have hab : a ≠ b := by
      rintro rfl
      rw [h1, Option.some.injEq, TNode.mk.injEq] at h2
      omega
    have hma : s.mem a = some (.node ⟨v, b, 0, 2⟩) := nodes_some.1 h1
    have hmb : s.mem b = some (.node ⟨w, 0, 0, 1⟩) := nodes_some.1 h2
    refine ⟨v, by simp, ?_⟩
    simp only [setIterate, if_neg hp0, I.getObj hm, Res.bind_ok, ho]
    rw [walk, if_neg h0, rd_of hma, Res.bind_ok, if_neg (by simp)]
    by_cases hr : nodeAddr al s = 0
    · right
      refine ⟨?_, _, nodeAddr_zero hal I.finite hr⟩
      have hadd : adding al p w lo hi [] s v = .segv := by
        simp [adding, if_neg hne, setAdd, I.getObj hm, ho, Res.bind_ok, treeSearch, TreeMem.tsearch, hr, down_left (c := cmp lo) h0 hb0 h1 h2 hlo2 hlo]
        rfl
      rw [hadd]; rfl
    · left
      have hfr := nodeAddr_fresh hal I.finite hr
      have har : nodeAddr al s ≠ a := by intro e; have := hfr.2.2; rw [e, hma] at this; simp at this
      have hbr : nodeAddr al s ≠ b := by intro e; have := hfr.2.2; rw [e, hmb] at this; simp at this
      obtain ⟨h', e1, e2, e3⟩ := grow_left (z := lo) (c := cmp lo) h0 hb0 hr hab har hbr h1 h2 hlo2 hlo
      have hadd : ∃ s', adding al p w lo hi [] s v = .ok ([v], s') ∧ s'.mem a = some (.node ⟨v, 0, 0, 1⟩) := by
        simp [adding, if_neg hne, setAdd, I.getObj hm, ho, Res.bind_ok, treeSearch, e1, e2, e3, hr, nodeKey, setNodes, CList.touch, ptr, lo0]
      obtain ⟨s', e4, e5⟩ := hadd
      refine ⟨s', ?_⟩
      rw [e4, Res.bind_ok, rd_of e5, Res.bind_ok, walk, if_pos rfl, Res.bind_ok, rd_of e5, Res.bind_ok, walk, if_pos rfl]
  · obtain ⟨h0, h1, _, hb0, h2, _, _⟩ := ht
    simp only [addr] at h0 h1 hb0 h2 ho
    obtain ⟨rfl, rfl⟩ : v = x ∧ w = y := by
      have hpm' : [v, w].Perm [x, y] := hpm
      have hlt : cmp v w < 0 := by simpa [Tree.inorder, forget, TreeMem.tmap] using hsort
      have hm1 : v ∈ [x, y] := hpm'.mem_iff.1 (by simp)
      have hm2 : w ∈ [x, y] := hpm'.mem_iff.1 (by simp)
      simp only [List.mem_cons, List.not_mem_nil, or_false] at hm1 hm2
      have := hord.swap x y
      have := hord.refl x
      have := hord.refl y
      rcases hm1 with rfl | rfl <;> rcases hm2 with rfl | rfl <;> first | exact ⟨rfl, rfl⟩ | (exfalso; omega)
    have hne : v ≠ w := by rintro rfl; have := hord.refl v; omega
    have hab : a ≠ b := by
      rintro rfl
      rw [h1, Option.some.injEq, TNode.mk.injEq] at h2
      omega
    have hma : s.mem a = some (.node ⟨v, 0, b, 2⟩) := nodes_some.1 h1
    have hmb : s.mem b = some (.node ⟨w, 0, 0, 1⟩) := nodes_some.1 h2
    refine ⟨v, by simp, ?_⟩
    simp only [setIterate, if_neg hp0, I.getObj hm, Res.bind_ok, ho]
    rw [walk, if_neg h0, rd_of hma, Res.bind_ok, if_neg (by simp)]
    by_cases hr : nodeAddr al s = 0
    · right
      refine ⟨?_, _, nodeAddr_zero hal I.finite hr⟩
      have hadd : adding al p v lo hi [] s v = .segv := by
        simp [adding, if_pos rfl, setAdd, I.getObj hm, ho, Res.bind_ok, treeSearch, TreeMem.tsearch, hr, down_right (c := cmp hi) h0 hb0 h1 h2 hhi2 hhi]
        rfl
      rw [hadd]; rfl
    · left
      have hfr := nodeAddr_fresh hal I.finite hr
      have har : nodeAddr al s ≠ a := by intro e; have := hfr.2.2; rw [e, hma] at this; simp at this
      have hbr : nodeAddr al s ≠ b := by intro e; have := hfr.2.2; rw [e, hmb] at this; simp at this
      obtain ⟨h', e1, e2, e3⟩ := grow_right (z := hi) (c := cmp hi) h0 hb0 hr hab har hbr h1 h2 hhi2 hhi
      have hadd : ∃ s', adding al p v lo hi [] s v = .ok ([v], s') ∧ s'.mem a = some (.node ⟨v, 0, 0, 1⟩) := by
        simp [adding, if_pos rfl, setAdd, I.getObj hm, ho, Res.bind_ok, treeSearch, e1, e2, e3, hr, nodeKey, setNodes, CList.touch, ptr, hi0]
      obtain ⟨s', e4, e5⟩ := hadd
      refine ⟨s', ?_⟩
      rw [e4, Res.bind_ok, rd_of e5, Res.bind_ok, walk, if_pos rfl, Res.bind_ok, rd_of e5, Res.bind_ok, walk, if_pos rfl]

/-! ## The hypotheses are met -/

open WalkProps (demo)
open Props (counting counting_sound demoText byAddr byAddr_ord C113_partial)

theorem setAdd_go (hal : al.Sound) (hf : ∀ i, al.fails i = false) (h : Reach al text s A) {p v : Nat} {pol : Policy} {cmp : Nat → Nat → Int}
    {xs : List Nat} (hp : A p = some (.set pol cmp xs)) (hl : xs.length < 2 ^ 31) (hv : v ≠ 0) :
    ∃ s', exec al text s (.setAdd p v) = .ok (s', .unit) ∧ setAdd al s p v = .ok s' := by
  rcases C113_partial hal h (op := .setAdd p v) ⟨_, _, _, hp, hl, hv⟩ with ⟨s', out, A', e, h1, _⟩ | ⟨_, _, _, _, e, _⟩ | ⟨_, _, i, h'⟩
  · cases h1 with
    | setAdd h2 =>
      refine ⟨s', e, ?_⟩
      simp only [exec] at e
      cases hr : setAdd al s p v with
      | ok s1 => rw [hr] at e; simp only [Res.bind_ok, Res.ok.injEq, Prod.mk.injEq, and_true] at e; rw [e]
      | ub => rw [hr] at e; simp [Res.bind] at e
      | segv => rw [hr] at e; simp [Res.bind] at e
  · simp at e
  · rw [hf i] at h'; simp at h'

/-- a callback that adds the first ten keys to the set at 8, and keeps a list of them -/
def collect (al : Malloc) (c : List Nat) (s : St) (key : Nat) (_ : Nat) : Res (List Nat × St × Int) :=
  if c.length < 10 then (setAdd al s 8 key).bind fun s => .ok (c ++ [key], s, 0) else .ok (c, s, 0)

/-- what it keeps -/
def Kept (c : List Nat) (_ : St) (A : Abs) : Prop :=
  A 8 = some (.set .noop byAddr (c.foldl (Set.Spec.insert byAddr) [40, 60])) ∧ c.length ≤ 10

theorem insert_length (xs : List Nat) (v : Nat) : (Set.Spec.insert byAddr xs v).length ≤ xs.length + 1 := by
  unfold Set.Spec.insert; split <;> simp

theorem foldl_length (c : List Nat) (xs : List Nat) : (c.foldl (Set.Spec.insert byAddr) xs).length ≤ xs.length + c.length := by
  induction c generalizing xs with
  | nil => simp
  | cons v c ih =>
    have := ih (Set.Spec.insert byAddr xs v)
    have := insert_length xs v
    simp only [List.foldl_cons, List.length_cons]; omega

theorem collect_ok (hal : al.Sound) (hf : ∀ i, al.fails i = false) (h : Reach al text s A) {c : List Nat} (hq : Kept c s A) {key val : Nat} (hk : key ≠ 0)
    {m : Nat} (hm : m ≠ 8) : ∃ s' c' A', collect al c s key val = .ok (c', s', 0) ∧ Calls al text m s A s' A' ∧ Kept c' s' A' ∧
      (c.length < 10 → c' = c ++ [key]) := by
  obtain ⟨h8, hl⟩ := hq
  by_cases h10 : c.length < 10
  · have hlen := foldl_length c [40, 60]
    simp only [List.length_cons, List.length_nil] at hlen
    have hlen' : (c.foldl (Set.Spec.insert byAddr) [40, 60]).length < 2 ^ 31 := by omega
    obtain ⟨s', e1, e2⟩ := setAdd_go hal hf h h8 hlen' hk
    refine ⟨s', c ++ [key], _, by simp only [collect, if_pos h10, e2, Res.bind_ok],
      .cons (op := .setAdd 8 key) ⟨_, _, _, h8, hlen', hk⟩ (.inr (by simpa [on] using hm.symm)) e1 (.setAdd h8) .nil, ?_, fun _ => rfl⟩
    exact ⟨by simp [upd], by simp; omega⟩
  · exact ⟨s, c, A, by simp only [collect, if_neg h10], .nil, ⟨h8, hl⟩, fun h => absurd h h10⟩

/-- Every key of the map at 3 goes into the set at 8, during the iteration. -/
example : ∃ s A s' c A', Reach (counting fun _ => false) demoText s A ∧ mapIterate (collect (counting fun _ => false)) [] s 3 = .ok (c, s', 0) ∧
    c.Perm [71, 70] ∧ Reach (counting fun _ => false) demoText s' A' ∧ A' 3 = A 3 ∧
    A' 8 = some (.set .noop byAddr (c.foldl (Set.Spec.insert byAddr) [40, 60])) := by
  obtain ⟨hs, hf, s, A, t, u, v, h, h3, _, _, h8⟩ := demo
  obtain ⟨ts, hp, e, hk⟩ := C120_iterate hs h h3 (collect _) Kept (fun c s A e r hr h3 hq he hc => by
    obtain ⟨s', c', A', e1, e2, e3, _⟩ := collect_ok (val := e.val) (m := 3) hs hf hr hq (hr.solid 3 _ h3 e he).1 (by decide)
    rw [hc, Res.ok.injEq] at e1
    subst e1
    exact ⟨A', e2, e3⟩) [] ⟨h8, by simp⟩
  have run : ∀ x y : Bind, ts = [x, y] → ∃ s', mapIterate (collect (counting fun _ => false)) [] s 3 = .ok ([x.key, y.key], s', 0) := by
    rintro x y rfl
    have hx := (h.solid 3 _ h3 x (hp.mem_iff.1 (by simp))).1
    obtain ⟨s1, c1, A1, e1, k1, q1, w1⟩ := collect_ok (val := x.val) (m := 3) hs hf h (c := []) ⟨h8, by simp⟩ hx (by decide)
    have hw1 := w1 (by simp)
    subst hw1
    have g1 : Reach (counting fun _ => false) demoText s1 A1 := by
      obtain ⟨t, _, ho, ht, _, hh, _, _⟩ := WalkProps.treeOf hs h h3
      exact (calls_tree hs rfl k1 h h3 ho (fun s h' => by simp only [blocks, h']) hh ht).1
    have hy := (h.solid 3 _ h3 y (hp.mem_iff.1 (by simp))).1
    obtain ⟨s2, c2, A2, e2, _, _, w2⟩ := collect_ok (val := y.val) (m := 3) hs hf g1 q1 hy (by decide)
    have hw2 := w2 (by simp)
    subst hw2
    simp only [List.nil_append, List.cons_append] at e1 e2
    exact ⟨s2, by simp [e, untilNonzero, e1, e2, Res.bind_ok]⟩
  have hlen := hp.length_eq
  match ts, hlen with
  | [x, y], _ =>
    obtain ⟨s', hs'⟩ := run x y rfl
    obtain ⟨A', r1, r2, r3, _⟩ := hk _ hs'
    exact ⟨s, A, s', _, A', h, hs', by simpa using hp.map Bind.key, r1, by rw [r2, h3], r3⟩

/-- The set at 7 is iterated, with a callback that adds to the set at 8. -/
example : ∃ s A, ∃ f : List Nat → St → Nat → Res (List Nat × St), Reach (counting fun _ => false) demoText s A ∧ A 7 = some (.set .rc byAddr [60, 50]) ∧ Kept [] s A ∧
    ∀ c s A v r, Reach (counting fun _ => false) demoText s A → A 7 = some (.set .rc byAddr [60, 50]) → Kept c s A → v ∈ [60, 50] → f c s v = .ok r →
      ∃ A', Calls (counting fun _ => false) demoText 7 s A r.2 A' ∧ Kept r.1 r.2 A' := by
  obtain ⟨hs, hf, s, A, _, _, _, h, _, _, h7, h8⟩ := demo
  refine ⟨s, A, fun c s v => (collect (counting fun _ => false) c s v 0).bind fun r => .ok (r.1, r.2.1), h, h7, ⟨h8, by simp⟩, ?_⟩
  intro c s A v r hr _ hq hv hc
  obtain ⟨s', c', A', e1, e2, e3, _⟩ := collect_ok (val := 0) (m := 7) hs hf hr hq (key := v) (by rintro rfl; simp at hv) (by decide)
  simp only [e1, Res.bind_ok, Res.ok.injEq] at hc
  subst hc
  exact ⟨A', e2, e3⟩

/-- A set of two elements. -/
example : ∃ s A, Reach (counting fun _ => false) demoText s A ∧ A 7 = some (.set .rc byAddr [60, 50]) := by
  obtain ⟨_, _, s, A, _, _, _, h, _, _, h7, _⟩ := demo
  exact ⟨s, A, h, h7⟩

/-- a callback that counts up the value of the key it is given, and keeps a list of the old ones -/
def bump (al : Malloc) (m : Nat) (c : List Nat) (s : St) (key val : Nat) : Res (List Nat × St × Int) :=
  (mapAdd al s m key (val + 1)).bind fun r => .ok (c ++ [val], r.1, 0)

/-- Every value of the map at 3 is counted up, during the iteration. -/
example : ∃ s A t u, Reach (counting fun _ => false) demoText s A ∧ A 3 = some (.map .rc .rc byAddr 1 [⟨71, 81, t⟩, ⟨70, 80, u⟩]) ∧
    ∀ c s A es' e r, Reach (counting fun _ => false) demoText s A → A 3 = some (.map .rc .rc byAddr 1 es') →
      es'.map Bind.key = [(⟨71, 81, t⟩ : Bind), ⟨70, 80, u⟩].map Bind.key → True → e ∈ es' → bump (counting fun _ => false) 3 c s e.key e.val = .ok r →
      ∃ A', Updates (counting fun _ => false) demoText 3 s A r.2.1 A' ∧ True := by
  obtain ⟨hs, hf, s, A, t, u, v, h, h3, _⟩ := demo
  refine ⟨s, A, t, u, h, h3, fun c s A es' e r hr hm hk _ he hc => ?_⟩
  have hlen : es'.length = 2 := by simpa using congrArg List.length hk
  have hl : Legal A (.mapAdd 3 e.key (e.val + 1)) := ⟨_, _, _, _, _, hm, by omega, fun _ => by omega⟩
  rcases C113_partial hs hr hl with ⟨s', out, A', e1, h1, _⟩ | ⟨_, _, _, _, e1, _⟩ | ⟨_, _, i, h'⟩
  · refine ⟨A', .update hm he (byAddr_ord.refl _) hl ?_ h1 .nil, trivial⟩
    simp only [exec, bump] at e1 hc
    cases hr' : mapAdd (counting fun _ => false) s 3 e.key (e.val + 1) with
    | ok s1 =>
      rw [hr'] at e1 hc
      simp only [Res.bind_ok, Res.ok.injEq, Prod.mk.injEq] at e1 hc
      subst hc
      simp only [exec, hr', Res.bind_ok, e1]
    | ub => rw [hr'] at e1; simp [Res.bind] at e1
    | segv => rw [hr'] at e1; simp [Res.bind] at e1
  · simp at e1
  · rw [hf i] at h'; simp at h'

/-- The set at 7 is iterated with a callback that adds 40 or 70. -/
example : ∃ s A, Reach (counting fun _ => false) demoText s A ∧ ∃ v ∈ [50, 60], ∃ s', setIterate (adding (counting fun _ => false) 7 50 40 70) [] s 7 = .ok ([v], s') := by
  obtain ⟨hs, hf, s, A, _, _, _, h, _, _, h7, _⟩ := demo
  refine ⟨s, A, h, ?_⟩
  obtain ⟨v, hv, h1 | ⟨_, i, hi⟩⟩ := C120_add_false (x := 50) (y := 60) (lo := 40) (hi := 70) hs h h7 (List.Perm.swap 50 60 []) (by decide) (by decide) (by decide) (by decide) (by decide)
  · exact ⟨v, hv, h1⟩
  · rw [hf i] at hi; simp at hi

/-- Adding to the set at 8 is not about the map at 3, nor about what belongs to it. -/
example : ∃ s A s', Reach (counting fun _ => false) demoText s A ∧ on (.setAdd 8 70) ≠ some 3 ∧
    exec (counting fun _ => false) demoText s (.setAdd 8 70) = .ok (s', .unit) ∧ A 1 = some (.list (some 3) [some 71, some 70]) := by
  obtain ⟨hs, hf, s, A, t, u, v, h, h3, _, _, h8⟩ := demo
  obtain ⟨s', e, _⟩ := setAdd_go hs hf h h8 (by decide) (show (70 : Nat) ≠ 0 by decide)
  obtain ⟨L, G, I, K⟩ := h.inv hs
  exact ⟨s, A, s', h, by simp [on], e, (K.map h3).1⟩

end Verif.Own.IterateProps
