import Verif.Own.Walk
import Verif.Own.Props

/-! # Walks while memory changes: lemmas -/

namespace Verif.Own

open Verif.Chain (upd)
open Verif.Tree (Tree inorder preorderList)
open Verif.TreeMem (addr addrs forget TNode)
open Props (Reach Step Legal Op Out exec treeAddrs blocks)

variable {al : Malloc} {text : Nat → Hash.Key} {s : St} {A : Abs}

/-- the keys in the order of a walk -/
def order (t : TreeMem.LT Nat) : List Nat := (preorderList t).map Prod.snd

/-- A walk whose action keeps the tree: `P done` holds when the keys `done` have been met. -/
theorem walk_ok {σ : Type} {st : σ → St} {act : σ → Nat → Res σ} {F : Prop} {full : List Nat} {P : List Nat → σ → Prop}
    (hact : ∀ done x rest s, full = done ++ x :: rest → P done s →
      (∃ s', act s x = .ok s' ∧ P (done ++ [x]) s') ∨ (act s x = .segv ∧ F))
    (t : TreeMem.LT Nat) (hi : Tree.Inv (forget t)) (hkeep : ∀ done s, P done s → TreeMem.Holds (nodes (st s).mem) t) (fuel : Nat)
    (hf : Tree.realHeight t < fuel) (done rest : List Nat) (hfull : full = done ++ order t ++ rest) (s : σ) (hP : P done s) :
    (∃ s', walk st act fuel s (addr t) = .ok s' ∧ P (done ++ order t) s') ∨ (walk st act fuel s (addr t) = .segv ∧ F) := by
  induction t generalizing fuel done rest s with
  | nil =>
    obtain ⟨f, rfl⟩ : ∃ f, fuel = f + 1 := ⟨fuel - 1, by omega⟩
    exact .inl ⟨s, rfl, by simpa [order, preorderList] using hP⟩
  | node k a0 a1 h ih0 ih1 =>
    obtain ⟨f, rfl⟩ : ∃ f, fuel = f + 1 := ⟨fuel - 1, by omega⟩
    simp only [Tree.realHeight] at hf
    obtain ⟨i0, i1, eh, d0, d1⟩ := hi
    have hord : order (.node k a0 a1 h) = k.2 :: (order a0 ++ order a1) := by simp [order, preorderList]
    have hrd : ∀ done s, P done s → rdNode (st s) k.1 = .ok ⟨k.2, addr a0, addr a1, h⟩ := by
      intro done s hP
      obtain ⟨_, h1, _⟩ := hkeep done s hP
      rw [nodes_some] at h1
      simp only [rdNode, h1]
    have h0 : k.1 ≠ 0 := (hkeep done s hP).1
    rw [hord] at hfull ⊢
    have hstep := hact done k.2 (order a0 ++ order a1 ++ rest) s (by rw [hfull]; simp) hP
    rw [show addr (.node k a0 a1 h) = k.1 from rfl, walk, if_neg h0, hrd done s hP, Res.bind_ok]
    by_cases h1 : h = 1
    · have e0 : a0 = .nil := by
        have : forget a0 = .nil := i0.height_eq_zero.1 (by omega)
        cases a0 with
        | nil => rfl
        | node => simp [forget, TreeMem.tmap] at this
      have e1 : a1 = .nil := by
        have : forget a1 = .nil := i1.height_eq_zero.1 (by omega)
        cases a1 with
        | nil => rfl
        | node => simp [forget, TreeMem.tmap] at this
      subst e0 e1
      simp only [h1, if_true]
      rcases hstep with ⟨s', e, hP'⟩ | ⟨e, hF⟩
      · exact .inl ⟨s', e, by simpa [order, preorderList] using hP'⟩
      · exact .inr ⟨e, hF⟩
    · simp only [h1, if_false]
      rcases hstep with ⟨s1, e, hP1⟩ | ⟨e, hF⟩
      · rw [e, Res.bind_ok, hrd _ s1 hP1, Res.bind_ok]
        rcases ih0 i0 (fun d s hp => (hkeep d s hp).2.2.1) f (by omega) (done ++ [k.2]) (order a1 ++ rest)
          (by rw [hfull]; simp) s1 hP1 with ⟨s2, e2, hP2⟩ | ⟨e2, hF⟩
        · simp only [e2, Res.bind_ok, hrd _ s2 hP2]
          rcases ih1 i1 (fun d s hp => (hkeep d s hp).2.2.2) f (by omega) (done ++ [k.2] ++ order a0) rest
            (by rw [hfull]; simp) s2 hP2 with ⟨s3, e3, hP3⟩ | ⟨e3, hF⟩
          · exact .inl ⟨s3, e3, by simpa using hP3⟩
          · exact .inr ⟨e3, hF⟩
        · exact .inr ⟨by simp only [e2, Res.bind], hF⟩
      · exact .inr ⟨by simp only [e, Res.bind], hF⟩

theorem order_perm (t : TreeMem.LT Nat) : (order t).Perm (inorder (forget t)) := by
  rw [forget, TreeMem.inorder_tmap]
  exact (Tree.preorder_perm t).map _

/-! ## Pointers are not NULL -/

/-- no NULL among members, keys and values -/
def SObj.solid : SObj → Prop
  | .set _ _ xs => ∀ x ∈ xs, x ≠ 0
  | .map _ _ _ _ es => ∀ e ∈ es, e.key ≠ 0 ∧ e.val ≠ 0
  | _ => True

theorem solid_upd {A : Abs} (h : ∀ p x, A p = some x → x.solid) {l : Nat} {y : Option SObj} (hy : ∀ x, y = some x → x.solid) :
    ∀ p x, upd A l y p = some x → x.solid := by
  intro p x hp
  simp only [upd] at hp
  split at hp
  · exact hy x hp
  · exact h p x hp

theorem _root_.Verif.Own.Props.Reach.solid (h : Reach al text s A) : ∀ p x, A p = some x → x.solid := by
  induction h with
  | mk => simp
  | @step s s' A A' op out h hl he hs ih =>
    cases hs with
    | plain | listMk | append | insert | remove | setMk | delPlain | delList | delSet | setClear =>
      exact solid_upd ih (by simp [SObj.solid])
    | removeNot | find | setFind | mapNull | mapFind | mapFindNot | mapRemoveNot => exact ih
    | dictMk | add | delDict | delDictOnly =>
      exact solid_upd (solid_upd (solid_upd ih (by simp [SObj.solid])) (by simp [SObj.solid])) (by simp [SObj.solid])
    | mapMk => exact solid_upd (solid_upd ih (by simp [SObj.solid])) (by simp [SObj.solid])
    | @setAdd p val pol cmp xs h1 =>
      obtain ⟨_, _, _, _, _, h0⟩ := hl
      refine solid_upd ih fun x hx => ?_
      rw [Option.some.injEq] at hx
      subst hx
      intro y hy
      simp only [Set.Spec.insert] at hy
      split at hy
      · exact ih _ _ h1 y hy
      · rcases List.mem_append.1 hy with hy | hy
        · exact ih _ _ h1 y hy
        · rw [List.mem_singleton] at hy; rw [hy]; exact h0
    | setRemove h1 =>
      refine solid_upd ih fun x hx => ?_
      rw [Option.some.injEq] at hx
      subst hx
      exact fun y hy => ih _ _ h1 y (List.mem_filter.1 hy).1
    | mapOld h0 h1 h2 =>
      obtain ⟨_, _, _, _, _, _, _, hv⟩ := hl
      refine solid_upd (solid_upd ih (by simp [SObj.solid])) fun x hx => ?_
      rw [Option.some.injEq] at hx
      subst hx
      intro e he
      obtain ⟨e', he', rfl⟩ := List.mem_map.1 he
      have := ih _ _ h1 e' he'
      split
      · exact ⟨this.1, hv h0⟩
      · exact this
    | mapNew h0 h1 h2 h3 h4 =>
      obtain ⟨_, _, _, _, _, _, _, hv⟩ := hl
      refine solid_upd (solid_upd (solid_upd ih (by simp [SObj.solid])) fun x hx => ?_) (by simp [SObj.solid])
      rw [Option.some.injEq] at hx
      subst hx
      intro e he
      rcases List.mem_append.1 he with he | he
      · exact ih _ _ h1 e he
      · rw [List.mem_singleton] at he; rw [he]; exact ⟨h0, hv h0⟩
    | mapRemove h0 h1 h2 =>
      refine solid_upd (solid_upd (solid_upd ih fun x hx => ?_) (by simp)) (by simp [SObj.solid])
      rw [Option.some.injEq] at hx
      subst hx
      exact fun y hy => ih _ _ h1 y (List.mem_filter.1 hy).1
    | delMap h1 h2 =>
      intro p x hp
      simp only at hp
      split at hp
      · simp at hp
      · exact ih p x hp

/-! ## Trees that stay -/

theorem treeAddrs_holds {s : St} : ∀ (t : TreeMem.LT Nat) fuel, TreeMem.Holds (nodes s.mem) t → Tree.realHeight t < fuel →
    treeAddrs s fuel (addr t) = addrs t := by
  intro t
  induction t with
  | nil =>
    intro fuel _ hf
    obtain ⟨n, rfl⟩ : ∃ n, fuel = n + 1 := ⟨fuel - 1, by omega⟩
    rfl
  | node k a0 a1 hh ih0 ih1 =>
    intro fuel hH hf
    obtain ⟨n, rfl⟩ : ∃ n, fuel = n + 1 := ⟨fuel - 1, by omega⟩
    obtain ⟨h0, h1, h2, h3⟩ := hH
    simp only [Tree.realHeight] at hf
    rw [nodes_some] at h1
    rw [show addr (.node k a0 a1 hh) = k.1 from rfl, treeAddrs, if_neg h0, h1]
    simp only [ih0 n h2 (by omega), ih1 n h3 (by omega), addrs]

theorem holds_of_nodes {s s' : St} {t : TreeMem.LT Nat} (h : TreeMem.Holds (nodes s.mem) t)
    (hk : ∀ b n, b ∈ addrs t → s.mem b = some (.node n) → s'.mem b = some (.node n)) : TreeMem.Holds (nodes s'.mem) t := by
  refine h.congr fun b hb => ?_
  cases hn : nodes s.mem b with
  | none => exact absurd hn (h.alloc hb).2
  | some n => exact nodes_some.2 (hk b n hb (nodes_some.1 hn))

/-- the list just made leaves the nodes alone -/
theorem listMk_nodes (hal : al.Sound) {L : List Nat} {G : Nat → Option Nat} (I : Inv text s L A G) {cap : Nat} {s' : St} {r : Nat}
    (h : listMk al s cap = .ok (s', r)) :
    (∀ b n, s.mem b = some (.node n) → s'.mem b = some (.node n)) ∧ ∀ p, p ≠ r → s'.obj p = s.obj p := by
  obtain ⟨s1, r1, e1, _, _, _, hc, ho, hm, _⟩ := mkObj_ok hal I (.list 0 cap 0)
  have hf1 : Finite s1 := by
    obtain ⟨l, hl⟩ := I.fin
    refine ⟨0 :: (L ++ [r1]) ++ l, fun p hp => ?_⟩
    simp only [used, Bool.or_eq_true, Option.isSome_iff_ne_none, hm] at hp
    rcases hp with hp | hp
    · rcases (hc.elim fun _ h => h.live p).1 hp with h | h
      · simp [h]
      · exact List.mem_append_left _ (List.mem_cons_of_mem _ h)
    · exact List.mem_append_right _ (hl p hp)
  obtain ⟨_, _, am⟩ := fresh hal hf1
  simp only [listMk, e1, Res.bind_ok, take, Res.ok.injEq, Prod.mk.injEq] at h
  obtain ⟨rfl, rfl⟩ := h
  refine ⟨fun b n hb => ?_, fun p hp => ?_⟩
  rotate_left
  · show upd s1.obj _ _ p = _
    rw [upd_ne _ _ hp, (mkObj_frame e1).2, upd_ne _ _ hp]
  show upd s1.mem _ _ b = _
  have : b ≠ al.addr s1.n (used s1) := by
    rintro rfl
    rw [hm, hb] at am; simp at am
  rw [upd_ne _ _ this, hm]
  exact hb

/-- the tree of a container -/
theorem TreeIn.out {root : Nat} {key : Nat → Nat} {cmp : Nat → Nat → Int} {xs : List Nat} {own : Nat → Prop}
    (h : TreeIn (nodes s.mem) root key cmp xs own) (hn : xs.length < 2 ^ 64) :
    ∃ t : TreeMem.LT Nat, root = addr t ∧ TreeMem.Holds (nodes s.mem) t ∧ Tree.Inv (forget t) ∧ Tree.realHeight t < 96 ∧
      (order t).Perm xs ∧ ∀ b, own b ↔ b ∈ addrs t := by
  obtain ⟨t, a, hi, hs, hp, hb⟩ := h
  exact ⟨t, a.ctx, a.holds, hi, height_lt hi hp hn, (order_perm t).trans hp, hb⟩

/-! ## Calls from a reachable state -/

theorem _root_.Verif.Own.Props.Reach.append (h : Reach al text s A) (hal : al.Sound) {l : Nat} {xs : List (Option Nat)} (hl : A l = some (.list none xs))
    (hlen : xs.length < 2 ^ 31) (e : Nat) :
    ∃ s', append al s l (some e) = .ok s' ∧ Reach al text s' (upd A l (some (.list none (xs ++ [some e])))) ∧
      (∀ b n, s.mem b = some (.node n) → s'.mem b = some (.node n)) ∧ ∀ p, p ≠ l → s'.obj p = s.obj p := by
  obtain ⟨L, G, I, K⟩ := h.inv hal
  obtain ⟨s', G', e1, _, ho⟩ := append_ok hal I hl hlen e
  exact ⟨s', e1, h.step (op := .append l e) ⟨xs, hl, hlen⟩ (by simp only [exec, e1, Res.bind_ok]) (.append hl),
    fun b n hb => append_nodes hal I hl hlen e1 hb, ho⟩

theorem _root_.Verif.Own.Props.Reach.listMk (h : Reach al text s A) (hal : al.Sound) {cap : Nat} (hc : cap < 2 ^ 60) :
    ∃ s' r, listMk al s cap = .ok (s', r) ∧ r ≠ 0 ∧ A r = none ∧ Reach al text s' (upd A r (some (.list none []))) ∧
      (∀ b n, s.mem b = some (.node n) → s'.mem b = some (.node n)) ∧ ∀ p, p ≠ r → s'.obj p = s.obj p := by
  obtain ⟨L, G, I, K⟩ := h.inv hal
  obtain ⟨s', r, G', e1, r0, _, rA, _⟩ := listMk_ok hal I none hc
  exact ⟨s', r, e1, r0, rA, h.step (op := .listMk cap) hc (by simp only [exec, e1, Res.bind_ok]) (.listMk r0 rA),
    listMk_nodes hal I e1⟩

/-- the tree of another container stays -/
theorem keepTree {s s' : St} {L : List Nat} {G : Nat → Option Nat} (I : Inv text s L A G) {m q : Nat} {x : SObj} (hk : Kept s s' A G m)
    (hq : A q = some x) (hx : x.hasTree) (hqm : q ≠ m) {t : TreeMem.LT Nat} (ht : TreeMem.Holds (nodes s.mem) t)
    (hb : blocks s q = treeAddrs s 96 (addr t)) (hh : Tree.realHeight t < 96) :
    TreeMem.Holds (nodes s'.mem) t ∧ s'.obj q = s.obj q := by
  refine ⟨holds_of_nodes ht fun b n hbt hn => hk.node b n ?_ hn, hk.obj q x hq hx hqm⟩
  rw [treeAddrs_holds t 96 ht hh] at hb
  have := (Props.Inv.blocks I hq (by cases x <;> first | trivial | exact hx.elim) b).1 (by rw [hb]; exact hbt)
  rw [this]
  simpa using hqm

/-- A new list is filled with what a walk meets. -/
theorem collect (hal : al.Sound) (h : Reach al text s A) {n : Nat} (hn : n < 2 ^ 60) {t : TreeMem.LT Nat}
    (ht : TreeMem.Holds (nodes s.mem) t) (hi : Tree.Inv (forget t)) (hh : Tree.realHeight t < 96) (hlen : (order t).length < 2 ^ 31)
    (act : Nat → St → Nat → Res St) (g : Nat → Nat)
    (hact : ∀ l s' ys x, A l = none → Reach al text s' (upd A l (some (.list none ys))) → x ∈ order t →
      act l s' x = Own.append al s' l (some (g x))) :
    ∃ s1 s' l, Own.listMk al s n = .ok (s1, l) ∧ walk id (act l) 96 s1 (addr t) = .ok s' ∧ l ≠ 0 ∧ A l = none ∧
      Reach al text s' (upd A l (some (.list none ((order t).map fun x => some (g x))))) ∧
      (∀ b n, s.mem b = some (.node n) → s'.mem b = some (.node n)) ∧ ∀ p, p ≠ l → s'.obj p = s.obj p := by
  obtain ⟨s1, l, e1, l0, lA, r1, k1, o1⟩ := h.listMk hal hn
  have := walk_ok (st := id) (act := act l) (F := False) (full := order t)
    (P := fun done s' => Reach al text s' (upd A l (some (.list none (done.map fun x => some (g x))))) ∧
      (∀ b n, s.mem b = some (.node n) → s'.mem b = some (.node n)) ∧ ∀ p, p ≠ l → s'.obj p = s.obj p)
    (fun done x rest s2 hfull hP => by
      obtain ⟨hr, hk, hob⟩ := hP
      have hdl : done.length < 2 ^ 31 := by
        have := congrArg List.length hfull
        simp only [List.length_append, List.length_cons] at this
        omega
      obtain ⟨s3, e3, r3, k3, o3⟩ := hr.append hal (upd_same ..) (by simpa using hdl) (g x)
      refine .inl ⟨s3, ?_, ?_, fun b n hb => k3 b n (hk b n hb), fun p hp => by rw [o3 p hp, hob p hp]⟩
      · rw [hact l s2 _ x lA hr (by rw [hfull]; simp), e3]
      · rw [upd_upd] at r3
        simpa using r3)
    t hi (fun done s2 hP => holds_of_nodes ht fun b n _ hb => hP.2.1 b n hb) 96 hh [] [] (by simp) s1 ⟨r1, k1, o1⟩
  rcases this with ⟨s', e, hr, hk⟩ | ⟨_, hF⟩
  · exact ⟨s1, s', l, e1, e, l0, lA, by simpa using hr, hk⟩
  · exact hF.elim

end Verif.Own
