import Verif.Tree.MemLemmas

/-! # The search tree in memory does what the search tree as a value does -/

namespace Verif.TreeMem

open Verif.Tree (Tree Frame plug unzip mkDir inorder MAXH)
open Verif.Tree.Tree

variable {E : Type}

/-! ## The algorithms do not look at addresses -/

/-- change every key -/
def tmap {A B : Type} (g : A → B) : Tree A → Tree B
  | nil => nil
  | node k a0 a1 h => node (g k) (tmap g a0) (tmap g a1) h

def fmap {A B : Type} (g : A → B) (f : Frame A) : Frame B := ⟨f.dir, g f.key, tmap g f.other, f.h⟩

section
variable {A B : Type} (g : A → B)

theorem height_tmap (t : Tree A) : Tree.height (tmap g t) = Tree.height t := by
  cases t <;> rfl

theorem child_tmap (a b : Tree A) (d : Bool) :
    Tree.child (tmap g a) (tmap g b) d = tmap g (Tree.child a b d) := by cases d <;> rfl

theorem mkDir_tmap (d : Bool) (k : A) (a b : Tree A) (h : Nat) :
    tmap g (mkDir d k a b h) = mkDir d (g k) (tmap g a) (tmap g b) h := by cases d <;> rfl

theorem plug_tmap (f : Frame A) (t : Tree A) : tmap g (plug f t) = plug (fmap g f) (tmap g t) :=
  mkDir_tmap g _ _ _ _ _

theorem unzip_tmap (fs : List (Frame A)) (t : Tree A) :
    tmap g (unzip fs t) = unzip (fs.map (fmap g)) (tmap g t) := by
  induction fs generalizing t with
  | nil => rfl
  | cons f fs ih => simp only [unzip, List.map_cons, ih, plug_tmap]

theorem rot_tmap (k : A) (a0 a1 : Tree A) (h : Nat) (d : Bool) :
    Tree.rot (g k) (tmap g a0) (tmap g a1) h d =
      (Tree.rot k a0 a1 h d).map (fun r => (tmap g r.1, r.2)) := by
  unfold Tree.rot
  rw [child_tmap, child_tmap]
  generalize Tree.child a0 a1 d = Y
  generalize Tree.child a0 a1 (!d) = X
  cases Y with
  | nil => rfl
  | node yk ya0 ya1 yh =>
    simp only [tmap]
    rw [child_tmap, child_tmap]
    generalize Tree.child ya0 ya1 d = D
    generalize Tree.child ya0 ya1 (!d) = Z
    rw [height_tmap, height_tmap]
    split
    · cases Z with
      | nil => rfl
      | node zk za0 za1 zh =>
        simp only [tmap, child_tmap, Res.map, mkDir_tmap]
    · simp only [Res.map, mkDir_tmap]

theorem balance_tmap (t : Tree A) :
    Tree.balance (tmap g t) = (Tree.balance t).map (fun r => (tmap g r.1, r.2)) := by
  cases t with
  | nil => rfl
  | node k a0 a1 h =>
    simp only [tmap, Tree.balance, height_tmap]
    split
    · rfl
    · exact rot_tmap g _ _ _ _ _

theorem fixup_tmap (fs : List (Frame A)) (t : Tree A) :
    Tree.fixup (fs.map (fmap g)) (tmap g t) = (Tree.fixup fs t).map (tmap g) := by
  induction fs generalizing t with
  | nil => rfl
  | cons f fs ih =>
    simp only [List.map_cons, Tree.fixup, ← plug_tmap, balance_tmap]
    cases Tree.balance (plug f t) with
    | ok r =>
      obtain ⟨t', d⟩ := r
      simp only [Res.map]
      split
      · rw [← unzip_tmap]
      · rw [ih]; rfl
    | ub => rfl
    | segv => rfl

theorem descend_tmap (c : B → Int) (t : Tree A) (fs : List (Frame A)) :
    Tree.descend c (tmap g t) (fs.map (fmap g)) =
      ((Tree.descend (fun x => c (g x)) t fs).1.map (fmap g),
        tmap g (Tree.descend (fun x => c (g x)) t fs).2) := by
  induction t generalizing fs with
  | nil => rfl
  | node k a0 a1 h ih0 ih1 =>
    simp only [tmap, Tree.descend]
    split
    · rfl
    · split
      · exact ih1 (⟨true, k, a0, h⟩ :: fs)
      · exact ih0 (⟨false, k, a1, h⟩ :: fs)

theorem goRight_tmap (k : A) (a0 a1 : Tree A) (h : Nat) (fs : List (Frame A)) :
    Tree.goRight (g k) (tmap g a0) (tmap g a1) h (fs.map (fmap g)) =
      ((Tree.goRight k a0 a1 h fs).1.map (fmap g), g (Tree.goRight k a0 a1 h fs).2.1,
        tmap g (Tree.goRight k a0 a1 h fs).2.2) := by
  induction a1 generalizing k a0 h fs with
  | nil => rfl
  | node k' b0 b1 h' _ ih =>
    simp only [tmap, Tree.goRight]
    exact ih k' b0 h' (⟨true, k, a0, h⟩ :: fs)

theorem inorder_tmap (t : Tree A) : inorder (tmap g t) = (inorder t).map g := by
  induction t with
  | nil => rfl
  | node k a0 a1 h ih0 ih1 => simp [tmap, inorder, ih0, ih1]

theorem tfind_tmap (c : B → Int) (t : Tree A) :
    Tree.tfind c (tmap g t) = (Tree.tfind (fun x => c (g x)) t).map g := by
  induction t with
  | nil => rfl
  | node k a0 a1 h ih0 ih1 =>
    simp only [tmap, Tree.tfind]
    split
    · rfl
    · split <;> assumption

end

theorem goRight_append {A : Type} (k : A) (a0 a1 : Tree A) (h : Nat) (fs : List (Frame A)) :
    Tree.goRight k a0 a1 h fs =
      ((Tree.goRight k a0 a1 h []).1 ++ fs, (Tree.goRight k a0 a1 h []).2) := by
  induction a1 generalizing k a0 h fs with
  | nil => rfl
  | node k' b0 b1 h' _ ih =>
    simp only [Tree.goRight]
    rw [ih k' b0 h' (⟨true, k, a0, h⟩ :: fs), ih k' b0 h' [⟨true, k, a0, h⟩]]
    simp

/-! ## Going down -/

theorem addr_node (k : Nat × E) (a0 a1 : LT E) (h : Nat) : addr (node k a0 a1 h) = k.1 := rfl

theorem addr_nil : addr (nil : LT E) = 0 := rfl

theorem down_ok {s : Heap E} (c : E → Int) (z : List Slot) {t : LT E} :
    ∀ {fs : List (Frame (Nat × E))} {room : Nat}, At s fs t →
    (Tree.descend (fun x => c x.2) t fs).1.length ≤ fs.length + room →
    down c s room (addr t) (slots fs ++ z) =
        .ok (slots (Tree.descend (fun x => c x.2) t fs).1 ++ z,
          addr (Tree.descend (fun x => c x.2) t fs).2) ∧
      At s (Tree.descend (fun x => c x.2) t fs).1 (Tree.descend (fun x => c x.2) t fs).2 := by
  induction t with
  | nil =>
    intro fs room ha _
    unfold down
    simp [addr, Tree.descend, ha]
  | node k a0 a1 h ih0 ih1 =>
    intro fs room ha hl
    have hg := rot_addr_eq ha.holds
    have k0 := ha.holds.1
    unfold down
    simp only [addr_node, k0, if_false, hg, Res.bind_ok]
    simp only [Tree.descend] at hl ⊢
    split
    · next hc =>
      rw [if_pos hc] at hl
      exact ⟨rfl, ha⟩
    · next hc =>
      rw [if_neg hc] at hl
      have one : ∀ (t : LT E) (f : Frame (Nat × E)),
          (Tree.descend (fun x => c x.2) t (f :: fs)).1.length ≤ fs.length + room →
          ∃ r, room = r + 1 := by
        intro t f hl
        rw [Tree.descend_append] at hl
        simp only [List.length_append, List.length_cons] at hl
        exact ⟨room - 1, by omega⟩
      split at hl
      · next hp =>
        obtain ⟨r, rfl⟩ := one _ _ hl
        have ha' : At s (⟨true, k, a0, h⟩ :: fs) a1 := At.plug_iff.1 ha
        have := ih1 (room := r) ha' (by simp only [List.length_cons]; omega)
        simp only [if_pos hp]
        simpa [hp, TNode.kid, slots] using this
      · next hp =>
        obtain ⟨r, rfl⟩ := one _ _ hl
        have ha' : At s (⟨false, k, a1, h⟩ :: fs) a0 := At.plug_iff.1 ha
        have := ih0 (room := r) ha' (by simp only [List.length_cons]; omega)
        simp only [if_neg hp]
        simpa [hp, TNode.kid, slots] using this

theorem goRight_ok {s : Heap E} (z : List Slot) {a1 : LT E} :
    ∀ {k : Nat × E} {a0 : LT E} {h : Nat} {fs : List (Frame (Nat × E))} {room : Nat},
    At s fs (node k a0 a1 h) →
    (Tree.goRight k a0 a1 h fs).1.length ≤ fs.length + room →
    goRight s room k.1 (slots fs ++ z) =
        .ok (slots (Tree.goRight k a0 a1 h fs).1 ++ z, (Tree.goRight k a0 a1 h fs).2.1.1) ∧
      ∃ hp, At s (Tree.goRight k a0 a1 h fs).1
        (node (Tree.goRight k a0 a1 h fs).2.1 (Tree.goRight k a0 a1 h fs).2.2 nil hp) := by
  induction a1 with
  | nil =>
    intro k a0 h fs room ha _
    have hg := rot_addr_eq ha.holds
    unfold goRight
    simp only [hg, Res.bind_ok, addr_nil, if_true, Tree.goRight, true_and]
    exact ⟨h, ha⟩
  | node k' b0 b1 h' _ ih =>
    intro k a0 h fs room ha hl
    have hg := rot_addr_eq ha.holds
    have k0 := ha.holds.2.2.2.1
    unfold goRight
    simp only [hg, Res.bind_ok, addr_node, k0, if_false]
    simp only [Tree.goRight] at hl ⊢
    have ha' : At s (⟨true, k, a0, h⟩ :: fs) (node k' b0 b1 h') := At.plug_iff.1 ha
    obtain ⟨r, rfl⟩ : ∃ r, room = r + 1 := by
      rw [goRight_append] at hl
      simp only [List.length_append, List.length_cons] at hl
      exact ⟨room - 1, by omega⟩
    have := ih (room := r) ha' (by simp only [List.length_cons]; omega)
    simpa [slots] using this

/-! ## Insertion -/

section
variable {A : Type}

theorem rot_inorder {k : A} {a0 a1 : Tree A} {h : Nat} {dir : Bool} {t' : Tree A} {d : Int}
    (hr : Tree.rot k a0 a1 h dir = .ok (t', d)) : inorder t' = inorder a0 ++ k :: inorder a1 := by
  unfold Tree.rot at hr
  cases dir with
  | true =>
    simp only [Tree.child, if_true, Bool.not_true, Bool.false_eq_true, if_false] at hr
    cases a1 with
    | nil => simp at hr
    | node yk Z D yh =>
      simp only at hr
      split at hr
      · cases Z with
        | nil => simp at hr
        | node zk za0 za1 zh =>
          simp only [Res.ok.injEq, Prod.mk.injEq] at hr
          rw [← hr.1]; simp [mkDir, inorder]
      · simp only [Res.ok.injEq, Prod.mk.injEq] at hr
        rw [← hr.1]; simp [mkDir, inorder]
  | false =>
    simp only [Tree.child, if_true, Bool.not_false, Bool.false_eq_true, if_false] at hr
    cases a0 with
    | nil => simp at hr
    | node yk D Z yh =>
      simp only at hr
      split at hr
      · cases Z with
        | nil => simp at hr
        | node zk za0 za1 zh =>
          simp only [Res.ok.injEq, Prod.mk.injEq] at hr
          rw [← hr.1]; simp [mkDir, inorder]
      · simp only [Res.ok.injEq, Prod.mk.injEq] at hr
        rw [← hr.1]; simp [mkDir, inorder]

theorem balance_inorder {t t' : Tree A} {d : Int} (hb : Tree.balance t = .ok (t', d)) :
    inorder t' = inorder t := by
  cases t with
  | nil => simp [Tree.balance] at hb
  | node k a0 a1 h =>
    simp only [Tree.balance] at hb
    split at hb
    · simp only [Res.ok.injEq, Prod.mk.injEq] at hb
      rw [← hb.1]; rfl
    · exact rot_inorder hb

theorem fixup_inorder {fs : List (Frame A)} {t T : Tree A} (h : Tree.fixup fs t = .ok T) :
    inorder T = inorder (unzip fs t) := by
  induction fs generalizing t with
  | nil => simp only [Tree.fixup, Res.ok.injEq] at h; rw [h]; rfl
  | cons f fs ih =>
    unfold Tree.fixup at h
    split at h
    · next t' d hb =>
      have e := balance_inorder hb
      rw [unzip, Tree.inorder_unzip, ← e, ← Tree.inorder_unzip]
      split at h
      · simp only [Res.ok.injEq] at h; rw [h]
      · exact ih h
    · simp at h
    · simp at h

end

theorem Holds.key {m : Nat → Option (TNode E)} {t : LT E} (h : Holds m t) {p : Nat} {k : E}
    (hp : (p, k) ∈ inorder t) : p ≠ 0 ∧ p ∈ addrs t ∧ ∃ n, m p = some n ∧ n.key = k := by
  induction t with
  | nil => simp [inorder] at hp
  | node x a0 a1 hh ih0 ih1 =>
    obtain ⟨h0, h1, h2, h3⟩ := h
    simp only [inorder, List.mem_append, List.mem_cons] at hp
    rcases hp with hp | rfl | hp
    · obtain ⟨a, b, c⟩ := ih0 h2 hp; exact ⟨a, by simp [addrs, b], c⟩
    · exact ⟨h0, by simp [addrs], _, h1, rfl⟩
    · obtain ⟨a, b, c⟩ := ih1 h3 hp; exact ⟨a, by simp [addrs, b], c⟩

/-- the tree without the addresses -/
abbrev forget (t : LT E) : Tree E := tmap Prod.snd t

theorem slots_tail (fs : List (Frame (Nat × E))) : slots fs = slotOf fs :: (slots fs).tail := by
  cases fs <;> rfl

theorem map_eq_ok {A B : Type} {x : Res A} {f : A → B} {b : B} (h : x.map f = .ok b) :
    ∃ a, x = .ok a ∧ f a = b := by
  cases x with
  | ok a => exact ⟨a, rfl, by simpa [Res.map] using h⟩
  | ub => simp [Res.map] at h
  | segv => simp [Res.map] at h

/-- store a tree that is in memory in the hole of a path -/
theorem plug_new {s : Heap E} {fs : List (Frame (Nat × E))} {p : Nat} {t : LT E}
    (hF : HoldsF s.mem s.root fs p) (hH : Holds s.mem t) (hn : (addrs t ++ addrsF fs).Nodup) :
    ∃ s', store s (slotOf fs) (addr t) = .ok s' ∧ At s' fs t ∧
      ∀ q, q ∉ addrsF fs → s'.mem q = s.mem q := by
  obtain ⟨_, n2, n3⟩ := List.nodup_append.1 hn
  obtain ⟨s', h1, h2, h3⟩ := store_slot (addr t) hF n2
  exact ⟨s', h1, ⟨hH.congr fun q hq => h3 q fun hq' => n3 q hq q hq' rfl, h2, hn⟩, h3⟩

theorem tsearch_found {s : Heap E} {t : LT E} {c : E → Int} {new k : E} {T : Tree E} {r : Nat}
    (ha : At s [] t) (h : Tree.tsearch c new (forget t) = .ok (some k, T)) :
    ∃ p, tsearch r c new s = .ok (s, p) ∧ p ∈ addrs t ∧
      ∃ n, s.mem p = some n ∧ n.key = k := by
  have hd := descend_tmap Prod.snd c t []
  simp only [List.map_nil] at hd
  simp only [Tree.tsearch, hd, List.length_map] at h
  split at h
  · simp at h
  · next hl =>
    obtain ⟨e, ha'⟩ := down_ok c [] (room := MAXH - 1) ha
      (by simp only [List.length_nil]; omega)
    have hp := addrs_unzip (Tree.descend (fun x => c x.2) t []).1
      (Tree.descend (fun x => c x.2) t []).2
    rw [Tree.descend_unzip] at hp
    generalize Tree.descend (fun x => c x.2) t [] = D at *
    obtain ⟨fs, u⟩ := D
    cases u with
    | nil =>
      simp only [tmap] at h
      split at h <;> simp at h
    | node x b0 b1 hh =>
      simp only [tmap, Res.ok.injEq, Prod.mk.injEq, Option.some.injEq] at h
      have hroot : s.root = addr t := ha.ctx
      simp only [List.append_nil, slots] at e
      refine ⟨x.1, ?_, ?_, _, ha'.holds.2.1, h.1⟩
      · simp only [tsearch, hroot, e, Res.bind_ok, addr_node]
        rw [if_pos ha'.holds.1]
      · rw [hp.mem_iff]; simp [addrs]

theorem tsearch_new {s : Heap E} {t : LT E} {c : E → Int} {new : E} {T : Tree E} {r : Nat}
    (ha : At s [] t) (h : Tree.tsearch c new (forget t) = .ok (none, T)) :
    (r = 0 → tsearch r c new s = .ok (s, 0)) ∧
    (r ≠ 0 → r ∉ addrs t → ∃ s' t', tsearch r c new s = .ok (s', r) ∧ At s' [] t' ∧ forget t' = T ∧
      (addrs t').Perm (r :: addrs t) ∧
      (∃ L R, inorder t = L ++ R ∧ inorder t' = L ++ (r, new) :: R) ∧
      (∀ q, q ∉ r :: addrs t → s'.mem q = s.mem q)) := by
  have hd := descend_tmap Prod.snd c t []
  simp only [List.map_nil] at hd
  simp only [Tree.tsearch, hd, List.length_map] at h
  split at h
  · simp at h
  · next hl =>
    obtain ⟨e, ha'⟩ := down_ok c [] (room := MAXH - 1) ha
      (by simp only [List.length_nil]; omega)
    have hp := addrs_unzip (Tree.descend (fun x => c x.2) t []).1
      (Tree.descend (fun x => c x.2) t []).2
    have hu := Tree.descend_unzip (fun x => c x.2) t
    rw [Tree.descend_unzip] at hp
    generalize Tree.descend (fun x => c x.2) t [] = D at *
    obtain ⟨fs, u⟩ := D
    cases u with
    | node x b0 b1 hh => simp [tmap] at h
    | nil =>
      have hroot : s.root = addr t := ha.ctx
      simp only [List.append_nil, slots, addr_nil] at e
      simp only [addrs, List.nil_append] at hp
      refine ⟨?_, ?_⟩
      · rintro rfl
        simp only [tsearch, hroot, e, Res.bind_ok, ne_eq, not_true_eq_false, if_false, if_true]
      · intro r0 hr
        simp only [tmap] at h
        have hnat := fixup_tmap (Prod.snd : Nat × E → E) fs (node (r, new) nil nil 1)
        simp only [tmap] at hnat
        have hfx : ∃ t', Tree.fixup fs (node (r, new) nil nil 1) = .ok t' ∧ forget t' = T := by
          refine map_eq_ok (hnat.symm.trans ?_)
          split at h
          · next t0 h0 =>
            simp only [Res.ok.injEq, Prod.mk.injEq, true_and] at h
            rw [← h]; exact h0
          · simp at h
          · simp at h
        obtain ⟨t', hfx, hT⟩ := hfx
        have hrF : r ∉ addrsF fs := fun hq => hr (hp.mem_iff.2 hq)
        have hnd : (addrs (node (r, new) nil nil 1 : LT E) ++ addrsF fs).Nodup := by
          simp only [addrs, List.append_nil, List.cons_append, List.nil_append, List.nodup_cons]
          exact ⟨hrF, hp.nodup_iff.1 (List.nodup_append.1 ha.nodup).1⟩
        obtain ⟨s1, e1, a1, o1⟩ := plug_new
          (s := { s with mem := upd s.mem r (some ⟨new, 0, 0, 1⟩) }) (p := 0)
          (t := node (r, new) nil nil 1)
          (ha'.ctx.congr fun q hq => upd_ne _ _ fun e => hrF (e ▸ hq))
          ⟨r0, upd_same _ _ _, trivial, trivial⟩ hnd
        obtain ⟨s2, e2, a2, p2, o2⟩ := upIns_ok a1 hfx
        have hpT : (addrs t').Perm (r :: addrs t) := by
          refine p2.trans ?_
          simp only [addrs, List.append_nil, List.cons_append, List.nil_append]
          exact hp.symm.cons r
        refine ⟨s2, t', ?_, a2, hT, hpT, ?_, ?_⟩
        · rw [slots_tail, ← hroot] at e
          simp only [addr_node] at e1
          simp only [tsearch, e, Res.bind_ok, ne_eq, not_true_eq_false, if_false, r0, e1, e2]
        · refine ⟨Tree.leftOf fs, Tree.rightOf fs, ?_, ?_⟩
          · rw [← hu, Tree.inorder_unzip]; simp [inorder]
          · rw [fixup_inorder hfx, Tree.inorder_unzip]; simp [inorder]
        · intro q hq
          simp only [List.mem_cons, not_or] at hq
          rw [o2 q (by simp [addrs, hq.1]) (fun h => hq.2 (hp.mem_iff.2 h)),
            o1 q (fun h => hq.2 (hp.mem_iff.2 h))]
          exact upd_ne _ _ hq.1

/-! ## Deletion -/

theorem unlink_ok {s : Heap E} {gs : List (Frame (Nat × E))} {n parent : Nat} {kidt T : LT E}
    (hF : HoldsF s.mem s.root gs n) (hK : Holds s.mem kidt) (n0 : n ≠ 0) {nn : TNode E}
    (nm : s.mem n = some nn) (hn : (n :: (addrs kidt ++ addrsF gs)).Nodup)
    (hfx : Tree.fixup gs kidt = .ok T) :
    ∃ s', unlink s (slots gs ++ [.root]) n (addr kidt) parent =
        .ok (s', if parent = n then 0 else parent) ∧ At s' [] T ∧
      (addrs T).Perm (addrs kidt ++ addrsF gs) ∧ s'.mem n = none ∧
      ∀ q, q ≠ n → q ∉ addrs kidt → q ∉ addrsF gs → s'.mem q = s.mem q := by
  simp only [List.nodup_cons, List.mem_append, not_or] at hn
  obtain ⟨⟨nk, nF⟩, hn⟩ := hn
  obtain ⟨s1, e1, a1, o1⟩ := plug_new (s := { s with mem := upd s.mem n none }) (p := n) (t := kidt)
    (hF.congr fun q hq => upd_ne _ _ fun e => nF (e ▸ hq))
    (hK.congr fun q hq => upd_ne _ _ fun e => nk (e ▸ hq)) hn
  obtain ⟨s2, e2, a2, p2, o2⟩ := upIns_ok a1 hfx
  refine ⟨s2, ?_, a2, p2, ?_, ?_⟩
  · rw [slots_tail]
    simp only [unlink, free, get_ok n0 nm, Res.bind_ok, List.cons_append, e1, upDel_upIns, e2]
  · rw [o2 n nk nF, o1 n nF]; exact upd_same _ _ _
  · intro q h1 h2 h3
    rw [o2 q h2 h3, o1 q h3]; exact upd_ne _ _ h1

/-- the second entry of `a[]` -/
theorem second_slot {s : Heap E} {fs : List (Frame (Nat × E))} {p : Nat}
    (hF : HoldsF s.mem s.root fs p) :
    ∃ p1 p2 a par, slots fs ++ [.root] = p1 :: p2 :: a ∧ load s p2 = .ok par ∧
      ((fs = [] ∧ par = p) ∨ par ∈ addrsF fs) := by
  cases fs with
  | nil =>
    refine ⟨.root, .root, [], p, rfl, ?_, .inl ⟨rfl, rfl⟩⟩
    have : s.root = p := hF
    simp [load, this]
  | cons f fs =>
    have h3 := hF.2.2.2
    refine ⟨.kid f.key.1 f.dir, slotOf fs, (slots fs).tail ++ [.root], f.key.1, ?_, load_slot h3,
      .inr (by simp [addrsF])⟩
    rw [slots, slots_tail]; rfl

theorem setKey_ok {s : Heap E} {f : Frame (Nat × E)} {gs fs : List (Frame (Nat × E))} {t : LT E}
    (ha : At s (gs ++ f :: fs) t) (k : E) :
    ∃ s', setKey s f.key.1 k = .ok s' ∧
      At s' (gs ++ { f with key := (f.key.1, k) } :: fs) t ∧
      (∀ q, q ≠ f.key.1 → s'.mem q = s.mem q) := by
  rw [← At.unzip_iff] at ha
  obtain ⟨h1, ⟨f0, fm, fo, fF⟩, h3⟩ := ha
  have hn := List.nodup_append.1 h3
  have hd := hn.2.2
  simp only [addrsF, List.nodup_cons, List.mem_append, not_or] at hn
  have nt : f.key.1 ∉ addrs (unzip gs t) := fun hq => hd _ hq _ (by simp [addrsF]) rfl
  refine ⟨{ s with mem := upd s.mem f.key.1 (some { hole f (addr (unzip gs t)) with key := k }) },
    by simp [setKey, get_ok f0 fm, Res.bind], ?_, fun q hq => upd_ne _ _ hq⟩
  rw [← At.unzip_iff]
  refine ⟨h1.congr fun q hq => upd_ne _ _ fun e => nt (e ▸ hq), ⟨f0, ?_, fo.congr fun q hq =>
    upd_ne _ _ fun e => hn.2.1.1.1 (e ▸ hq), fF.congr fun q hq =>
    upd_ne _ _ fun e => hn.2.1.1.2 (e ▸ hq)⟩, h3⟩
  simp only [upd_same, hole]
  cases f.dir <;> rfl

theorem addrsF_append (gs fs : List (Frame (Nat × E))) :
    addrsF (gs ++ fs) = addrsF gs ++ addrsF fs := by
  induction gs with
  | nil => rfl
  | cons f gs ih => simp [addrsF, ih, List.append_assoc]

theorem fixup_lift {fs : List (Frame (Nat × E))} {t : LT E} {T : Tree E}
    (h : Tree.fixup (fs.map (fmap Prod.snd)) (forget t) = .ok T) :
    ∃ t', Tree.fixup fs t = .ok t' ∧ forget t' = T :=
  map_eq_ok ((fixup_tmap Prod.snd fs t).symm.trans h)

theorem slots_length (fs : List (Frame (Nat × E))) : (slots fs).length = fs.length + 1 := by
  induction fs with
  | nil => rfl
  | cons f fs ih => simp [slots, ih]

theorem slots_key (gs fs : List (Frame (Nat × E))) {k k' : Nat × E} {d : Bool} {b : LT E} {h : Nat}
    (e : k.1 = k'.1) : slots (gs ++ ⟨d, k, b, h⟩ :: fs) = slots (gs ++ ⟨d, k', b, h⟩ :: fs) := by
  induction gs with
  | nil => simp [slots, e]
  | cons g gs ih => simp [slots, ih]

theorem goRight_unzip {A : Type} (k : A) (a0 a1 : Tree A) (h : Nat) :
    ∃ hp, unzip (Tree.goRight k a0 a1 h []).1
      (node (Tree.goRight k a0 a1 h []).2.1 (Tree.goRight k a0 a1 h []).2.2 nil hp) =
      node k a0 a1 h := by
  induction a1 generalizing k a0 h with
  | nil => exact ⟨h, rfl⟩
  | node k' b0 b1 h' _ ih =>
    obtain ⟨hp, e⟩ := ih k' b0 h'
    refine ⟨hp, ?_⟩
    simp only [Tree.goRight]
    rw [goRight_append, Tree.unzip_append, e]
    rfl

theorem tdelete_absent {s : Heap E} {t : LT E} {c : E → Int} (ha : At s [] t)
    (h : Tree.tdelete c (forget t) = .ok none) : tdelete c s = .ok (s, 0) := by
  have hd := descend_tmap Prod.snd c t []
  simp only [List.map_nil] at hd
  simp only [Tree.tdelete, hd, List.length_map] at h
  split at h
  · simp at h
  · next hl =>
    obtain ⟨e, ha'⟩ := down_ok c [.root] (room := MAXH - 1) ha
      (by simp only [List.length_nil]; omega)
    generalize Tree.descend (fun x => c x.2) t [] = D at *
    obtain ⟨fs, u⟩ := D
    have hroot : s.root = addr t := ha.ctx
    cases u with
    | nil =>
      simp only [slots, ← hroot, addr_nil, List.cons_append, List.nil_append] at e
      simp only [tdelete, e, Res.bind_ok, if_true]
    | node x b0 b1 hh =>
      cases b0 with
      | nil => simp only [tmap] at h; split at h <;> simp at h
      | node y d0 d1 h' =>
        simp only [tmap] at h
        split at h
        · simp at h
        · split at h <;> simp at h

theorem tdelete_present {s : Heap E} {t : LT E} {c : E → Int} {T : Tree E} (ha : At s [] t)
    (h : Tree.tdelete c (forget t) = .ok (some T)) :
    ∃ s' t' par x, tdelete c s = .ok (s', par) ∧ At s' [] t' ∧ forget t' = T ∧
      (addrs t).Perm (x :: addrs t') ∧ s'.mem x = none ∧
      (∀ q, q ∉ addrs t → s'.mem q = s.mem q) ∧ (par = 0 ∨ par ∈ addrs t') := by
  have hd := descend_tmap Prod.snd c t []
  simp only [List.map_nil] at hd
  simp only [Tree.tdelete, hd, List.length_map] at h
  split at h
  · simp at h
  · next hl =>
    obtain ⟨e, ha'⟩ := down_ok c [.root] (room := MAXH - 1) ha
      (by simp only [List.length_nil]; omega)
    have hp := addrs_unzip (Tree.descend (fun x => c x.2) t []).1
      (Tree.descend (fun x => c x.2) t []).2
    rw [Tree.descend_unzip] at hp
    have hnd := ha.nodup
    simp only [addrsF, List.append_nil] at hnd
    rw [hp.nodup_iff] at hnd
    have hroot : s.root = addr t := ha.ctx
    generalize Tree.descend (fun x => c x.2) t [] = D at *
    obtain ⟨fs, u⟩ := D
    simp only [slots, ← hroot, List.cons_append, List.nil_append] at e
    cases u with
    | nil => simp [tmap] at h
    | node x b0 b1 hh =>
      obtain ⟨p1, p2, a, par, es, el, hpar⟩ := second_slot ha'.ctx
      have x0 := ha'.holds.1
      have gx := rot_addr_eq ha'.holds
      simp only [addr_node] at e hpar
      cases b0 with
      | nil =>
        simp only [tmap] at h
        have hfx : ∃ t', Tree.fixup fs b1 = .ok t' ∧ forget t' = T := by
          apply fixup_lift
          split at h
          · next t0 h0 =>
            simp only [Res.ok.injEq, Option.some.injEq] at h
            rw [← h]; exact h0
          · simp at h
          · simp at h
        obtain ⟨t', hfx, hT⟩ := hfx
        simp only [addrs, List.nil_append] at hp hnd
        obtain ⟨s2, e2, a2, q2, m2, o2⟩ := unlink_ok (parent := par) ha'.ctx ha'.holds.2.2.2 x0
          ha'.holds.2.1 (by simpa [addr_node] using hnd) hfx
        have hp' : (addrs t).Perm (x.1 :: addrs t') :=
          hp.trans (by simpa using q2.symm.cons x.1)
        refine ⟨s2, t', if par = x.1 then 0 else par, x.1, ?_, a2, hT, hp', m2, ?_, ?_⟩
        · simp only [addr_node] at e2
          rw [es] at e e2
          simp only [tdelete, e, Res.bind_ok, x0, if_false, el, gx, addr_nil, ne_eq,
            not_true_eq_false, e2]
          rfl
        · intro q hq
          rw [hp.mem_iff] at hq
          simp only [List.cons_append, List.mem_cons, List.mem_append, not_or] at hq
          exact o2 q hq.1 hq.2.1 hq.2.2
        · split
          · exact .inl rfl
          · next hne =>
            rcases hpar with ⟨_, h⟩ | h
            · exact absurd h hne
            · exact .inr (q2.mem_iff.2 (List.mem_append_right _ h))
      | node y d0 d1 h' =>
        simp only [tmap] at h
        have hg := goRight_tmap (Prod.snd : Nat × E → E) y d0 d1 h' []
        simp only [List.map_nil] at hg
        rw [hg] at h
        simp only at h
        have hga := goRight_append y d0 d1 h' ((⟨false, x, b1, hh⟩ : Frame (Nat × E)) :: fs)
        have hat : At s (⟨false, x, b1, hh⟩ :: fs) (node y d0 d1 h') := At.plug_iff.1 ha'
        split at h
        · simp at h
        · next hl2 =>
          simp only [List.length_append, List.length_cons, List.length_map] at hl2
          have hgo := (goRight_ok [Slot.root]
            (room := MAXH + 1 - ((slots fs ++ [Slot.root]).length + 1)) hat
            (by
              rw [hga]
              simp only [List.length_append, List.length_cons, List.length_nil, slots_length]
              omega)).1
          rw [hga] at hgo
          obtain ⟨hp2, hu⟩ := goRight_unzip y d0 d1 h'
          generalize Tree.goRight y d0 d1 h' [] = G at *
          obtain ⟨gs, pk, ch⟩ := G
          simp only at hgo hu h hl2
          have hat2 : At s (gs ++ ⟨false, x, b1, hh⟩ :: fs) (node pk ch nil hp2) := by
            rw [← At.unzip_iff, hu]; exact hat
          have hpu := addrs_unzip gs (node pk ch nil hp2)
          rw [hu] at hpu
          have gp := rot_addr_eq hat2.holds
          obtain ⟨s1, e1, a1, o1⟩ := setKey_ok hat2 pk.2
          simp only at e1 a1 o1
          have gp1 := rot_addr_eq a1.holds
          have hfx : ∃ t', Tree.fixup (gs ++ (⟨false, (x.1, pk.2), b1, hh⟩ : Frame (Nat × E)) :: fs)
              ch = .ok t' ∧ forget t' = T := by
            apply fixup_lift
            simp only [List.map_append, List.map_cons, fmap]
            split at h
            · next t0 h0 =>
              simp only [Res.ok.injEq, Option.some.injEq] at h
              rw [← h]; exact h0
            · simp at h
            · simp at h
          obtain ⟨t', hfx, hT⟩ := hfx
          have hn1 := a1.nodup
          simp only [addrs, List.append_nil, List.cons_append] at hn1
          obtain ⟨s2, e2, a2, q2, m2, o2⟩ := unlink_ok (parent := par) a1.ctx a1.holds.2.2.1
            hat2.holds.1 a1.holds.2.1 (by simpa only [addr_node] using hn1) hfx
          simp only [addr_node] at e2 m2 o2
          have hp' : (addrs t).Perm (pk.1 :: addrs t') := by
            refine hp.trans (List.Perm.trans ?_ (q2.symm.cons _))
            rw [addrsF_append]
            simp only [addrs, addrsF, List.append_nil] at hpu ⊢
            rw [List.perm_iff_count] at hpu ⊢
            intro q
            have := hpu q
            simp only [List.count_append, List.count_cons] at this ⊢
            omega
          have hxp : par ≠ pk.1 := by
            have hnd' := hn1
            rw [addrsF_append] at hnd'
            simp only [addrsF, List.nodup_cons, List.mem_append, List.mem_cons, not_or] at hnd'
            rcases hpar with ⟨_, rfl⟩ | hpar
            · exact fun e => hnd'.1.2.2.1 e.symm
            · intro e; exact hnd'.1.2.2.2.2 (e ▸ hpar)
          refine ⟨s2, t', par, pk.1, ?_, a2, hT, hp', m2, ?_, .inr ?_⟩
          · have hlen : ¬ MAXH + 1 ≤ (p1 :: p2 :: a).length := by
              rw [← es]
              simp only [List.length_append, List.length_cons, List.length_nil, slots_length]
              omega
            simp only [slots, List.cons_append] at hgo
            rw [es] at e hgo
            simp only [hxp, if_false, slots_key gs fs (show ((x.1, pk.2) : Nat × E).1 = x.1 from rfl)] at e2
            have y0 : y.1 ≠ 0 := hat.holds.1
            simp only [tdelete, e, Res.bind_ok, x0, if_false, el, gx, addr_node, ne_eq, y0,
              not_false_eq_true, if_true, hlen, hgo, gp, e1, gp1, e2]
          · intro q hq
            have hq' := hq
            rw [hp'.mem_iff] at hq
            simp only [List.mem_cons, not_or] at hq
            rw [q2.mem_iff, List.mem_append, not_or] at hq
            rw [o2 q hq.1 hq.2.1 hq.2.2]
            apply o1
            rintro rfl
            apply hq'
            rw [hp.mem_iff]
            simp [addrs]
          · rw [q2.mem_iff, addrsF_append]
            simp only [addrsF, List.mem_append, List.mem_cons]
            rcases hpar with ⟨_, rfl⟩ | hpar
            · exact .inr (.inr (.inl rfl))
            · exact .inr (.inr (.inr (.inr hpar)))

/-! ## Finding, walking, destroying -/

open Verif.Tree (realHeight)

theorem tfind_ok {s : Heap E} (c : E → Int) {t : LT E} (hH : Holds s.mem t) {fuel : Nat}
    (hf : realHeight t < fuel) :
    tfind c s fuel (addr t) =
      some (.ok (match Tree.tfind (fun x => c x.2) t with | none => 0 | some x => x.1)) := by
  induction t generalizing fuel with
  | nil =>
    obtain ⟨n, rfl⟩ : ∃ n, fuel = n + 1 := ⟨fuel - 1, by omega⟩
    rfl
  | node k a0 a1 h ih0 ih1 =>
    obtain ⟨n, rfl⟩ : ∃ n, fuel = n + 1 := ⟨fuel - 1, by omega⟩
    simp only [realHeight] at hf
    have hg := rot_addr_eq hH
    obtain ⟨k0, km, h0, h1⟩ := hH
    simp only [tfind, addr_node, k0, if_false, hg, Tree.tfind]
    by_cases hc : c k.2 = 0
    · simp only [hc, if_true]
    · by_cases hp : c k.2 > 0
      · have := ih1 h1 (fuel := n) (by omega)
        simp only [hc, hp, if_false, if_true, TNode.kid, decide_true]
        exact this
      · have := ih0 h0 (fuel := n) (by omega)
        simp only [hc, hp, if_false, TNode.kid, decide_false, Bool.false_eq_true]
        exact this

theorem tdestroy_ok {t : LT E} : ∀ {s : Heap E} {fuel : Nat}, Holds s.mem t → (addrs t).Nodup →
    realHeight t < fuel →
    ∃ s', tdestroy fuel s (addr t) = some (.ok (s', (Tree.tdestroy t).map Prod.snd)) ∧
      (∀ p ∈ addrs t, s'.mem p = none) ∧ (∀ q, q ∉ addrs t → s'.mem q = s.mem q) := by
  induction t with
  | nil =>
    intro s fuel _ _ hf
    obtain ⟨n, rfl⟩ : ∃ n, fuel = n + 1 := ⟨fuel - 1, by omega⟩
    exact ⟨s, rfl, by simp [addrs], fun _ _ => rfl⟩
  | node k a0 a1 h ih0 ih1 =>
    intro s fuel hH hn hf
    obtain ⟨n, rfl⟩ : ∃ n, fuel = n + 1 := ⟨fuel - 1, by omega⟩
    simp only [realHeight] at hf
    have hg := rot_addr_eq hH
    obtain ⟨k0, km, h0, h1⟩ := hH
    simp only [addrs, List.nodup_cons, List.mem_append, not_or] at hn
    obtain ⟨⟨nk0, nk1⟩, hn⟩ := hn
    obtain ⟨n0, n1, nd⟩ := List.nodup_append.1 hn
    obtain ⟨s1, e1, d1, o1⟩ := ih0 h0 n0 (fuel := n) (by omega)
    have h1' : Holds s1.mem a1 := h1.congr fun q hq => o1 q fun hq' => nd q hq' q hq rfl
    have km1 : s1.mem k.1 = some ⟨k.2, addr a0, addr a1, h⟩ := by rw [o1 _ nk0, km]
    obtain ⟨s2, e2, d2, o2⟩ := ih1 h1' n1 (fuel := n) (by omega)
    have km2 : s2.mem k.1 = some ⟨k.2, addr a0, addr a1, h⟩ := by rw [o2 _ nk1, km1]
    refine ⟨{ s2 with mem := upd s2.mem k.1 none }, ?_, ?_, ?_⟩
    · simp only [tdestroy, addr_node, k0, if_false, hg, e1, get_ok k0 km1, e2, get_ok k0 km2, free,
        Res.bind_ok, Tree.tdestroy, List.map_append, List.map_cons, List.map_nil]
    · intro p hp
      simp only [addrs, List.mem_cons, List.mem_append] at hp
      by_cases hpk : p = k.1
      · rw [hpk]; exact upd_same _ _ _
      · simp only [upd_ne _ _ hpk]
        rcases hp with hp | hp | hp
        · exact absurd hp hpk
        · rw [o2 p fun hq => nd p hp p hq rfl]; exact d1 p hp
        · exact d2 p hp
    · intro q hq
      simp only [addrs, List.mem_cons, List.mem_append, not_or] at hq
      simp only [upd_ne _ _ hq.1]
      rw [o2 q hq.2.2, o1 q hq.2.1]

theorem walk_ok {s : Heap E} {t : LT E} (hH : Holds s.mem t) {fuel d : Nat}
    (hf : realHeight t < fuel) :
    walk s fuel (addr t) d = some (.ok ((Tree.walk t d).map fun e => (e.1.1, e.2))) := by
  induction t generalizing fuel d with
  | nil =>
    obtain ⟨n, rfl⟩ : ∃ n, fuel = n + 1 := ⟨fuel - 1, by omega⟩
    rfl
  | node k a0 a1 h ih0 ih1 =>
    obtain ⟨n, rfl⟩ : ∃ n, fuel = n + 1 := ⟨fuel - 1, by omega⟩
    simp only [realHeight] at hf
    have hg := rot_addr_eq hH
    obtain ⟨k0, km, h0, h1⟩ := hH
    simp only [walk, addr_node, k0, if_false, hg, Tree.walk]
    split
    · rfl
    · rw [ih0 h0 (by omega)]
      simp only
      rw [ih1 h1 (by omega)]
      simp

end Verif.TreeMem
