import Verif.Tree.Mem
import Verif.Tree.Lemmas

/-! # Lemmas about the search tree in memory -/

namespace Verif.TreeMem

open Verif.Tree (Tree Frame plug unzip mkDir inorder MAXH)
open Verif.Tree.Tree

variable {E : Type}

/-! ## Trees whose nodes carry their address -/

/-- a tree that shows the address of each node -/
abbrev LT (E : Type) := Tree (Nat × E)

/-- the pointer to a tree -/
def addr : LT E → Nat
  | nil => 0
  | node k _ _ _ => k.1

/-- the addresses of the nodes -/
def addrs : LT E → List Nat
  | nil => []
  | node k a0 a1 _ => k.1 :: (addrs a0 ++ addrs a1)

/-- the memory contains the tree -/
def Holds (m : Nat → Option (TNode E)) : LT E → Prop
  | nil => True
  | node k a0 a1 h =>
    k.1 ≠ 0 ∧ m k.1 = some ⟨k.2, addr a0, addr a1, h⟩ ∧ Holds m a0 ∧ Holds m a1

/-- the node of a frame, with the pointer `p` in the hole -/
def hole (f : Frame (Nat × E)) (p : Nat) : TNode E :=
  if f.dir then ⟨f.key.2, addr f.other, p, f.h⟩ else ⟨f.key.2, p, addr f.other, f.h⟩

/-- the memory contains a path, with the pointer `p` in the innermost hole -/
def HoldsF (m : Nat → Option (TNode E)) (root : Nat) : List (Frame (Nat × E)) → Nat → Prop
  | [], p => root = p
  | f :: fs, p => f.key.1 ≠ 0 ∧ m f.key.1 = some (hole f p) ∧ Holds m f.other ∧
      HoldsF m root fs f.key.1

def addrsF : List (Frame (Nat × E)) → List Nat
  | [] => []
  | f :: fs => f.key.1 :: (addrs f.other ++ addrsF fs)

/-- the innermost entry of `a[]` -/
def slotOf : List (Frame (Nat × E)) → Slot
  | [] => .root
  | f :: _ => .kid f.key.1 f.dir

/-- all entries of `a[]` -/
def slots : List (Frame (Nat × E)) → List Slot
  | [] => [.root]
  | f :: fs => .kid f.key.1 f.dir :: slots fs

structure At (s : Heap E) (fs : List (Frame (Nat × E))) (t : LT E) : Prop where
  holds : Holds s.mem t
  ctx : HoldsF s.mem s.root fs (addr t)
  nodup : (addrs t ++ addrsF fs).Nodup

theorem upd_same (m : Nat → Option (TNode E)) (p v) : upd m p v p = v := by simp [upd]
theorem upd_ne (m : Nat → Option (TNode E)) {p q : Nat} (v) (h : q ≠ p) : upd m p v q = m q := by
  simp [upd, h]

theorem Holds.congr {m m' : Nat → Option (TNode E)} {t : LT E} (h : Holds m t)
    (e : ∀ p ∈ addrs t, m' p = m p) : Holds m' t := by
  induction t with
  | nil => trivial
  | node k a0 a1 hh ih0 ih1 =>
    obtain ⟨h0, h1, h2, h3⟩ := h
    refine ⟨h0, ?_, ih0 h2 fun p hp => e p ?_, ih1 h3 fun p hp => e p ?_⟩
    · rw [e _ (by simp [addrs]), h1]
    · simp [addrs, hp]
    · simp [addrs, hp]

theorem HoldsF.congr {m m' : Nat → Option (TNode E)} {root : Nat} {fs : List (Frame (Nat × E))}
    {p : Nat} (h : HoldsF m root fs p) (e : ∀ q ∈ addrsF fs, m' q = m q) :
    HoldsF m' root fs p := by
  induction fs generalizing p with
  | nil => exact h
  | cons f fs ih =>
    obtain ⟨h0, h1, h2, h3⟩ := h
    refine ⟨h0, ?_, h2.congr fun q hq => e q ?_, ih h3 fun q hq => e q ?_⟩
    · rw [e _ (by simp [addrsF]), h1]
    · simp [addrsF, hq]
    · simp [addrsF, hq]

theorem Holds.alloc {m : Nat → Option (TNode E)} {t : LT E} (h : Holds m t) {p : Nat}
    (hp : p ∈ addrs t) : p ≠ 0 ∧ m p ≠ none := by
  induction t with
  | nil => simp [addrs] at hp
  | node k a0 a1 hh ih0 ih1 =>
    obtain ⟨h0, h1, h2, h3⟩ := h
    simp only [addrs, List.mem_cons, List.mem_append] at hp
    rcases hp with rfl | hp | hp
    · exact ⟨h0, by simp [h1]⟩
    · exact ih0 h2 hp
    · exact ih1 h3 hp

theorem addrs_eq_inorder (t : LT E) : (addrs t).Perm ((inorder t).map Prod.fst) := by
  induction t with
  | nil => simp [addrs, inorder]
  | node k a0 a1 h ih0 ih1 =>
    simp only [addrs, inorder, List.map_append, List.map_cons]
    exact ((ih0.append ih1).cons _).trans List.perm_middle.symm

theorem addr_plug (f : Frame (Nat × E)) (t : LT E) : addr (plug f t) = f.key.1 := by
  unfold plug mkDir; split <;> rfl

theorem addrs_plug (f : Frame (Nat × E)) (t : LT E) :
    (addrs (plug f t)).Perm (f.key.1 :: (addrs t ++ addrs f.other)) := by
  unfold plug mkDir
  split
  · simp only [addrs]; exact (List.perm_append_comm).cons _
  · exact List.Perm.refl _

theorem addrs_unzip (fs : List (Frame (Nat × E))) (t : LT E) :
    (addrs (unzip fs t)).Perm (addrs t ++ addrsF fs) := by
  induction fs generalizing t with
  | nil => simp [unzip, addrsF]
  | cons f fs ih =>
    refine (ih _).trans ?_
    simp only [addrsF]
    refine ((addrs_plug f t).append_right _).trans ?_
    rw [List.cons_append, List.append_assoc]
    exact List.perm_middle.symm

theorem holds_plug {m : Nat → Option (TNode E)} {f : Frame (Nat × E)} {t : LT E} :
    Holds m (plug f t) ↔ f.key.1 ≠ 0 ∧ m f.key.1 = some (hole f (addr t)) ∧ Holds m f.other ∧
      Holds m t := by
  unfold plug mkDir hole
  split
  · simp only [Holds]
  · simp only [Holds, and_comm (a := Holds m t)]

/-- going up and down the path -/
theorem At.plug_iff {s : Heap E} {f : Frame (Nat × E)} {fs : List (Frame (Nat × E))} {t : LT E} :
    At s fs (plug f t) ↔ At s (f :: fs) t := by
  have hp : (addrs (plug f t) ++ addrsF fs).Perm (addrs t ++ addrsF (f :: fs)) := by
    refine ((addrs_plug f t).append_right _).trans ?_
    simp only [addrsF]
    rw [List.cons_append, List.append_assoc]
    exact List.perm_middle.symm
  constructor
  · rintro ⟨h1, h2, h3⟩
    obtain ⟨a, b, c, d⟩ := holds_plug.1 h1
    rw [addr_plug] at h2
    exact ⟨d, ⟨a, b, c, h2⟩, hp.nodup_iff.1 h3⟩
  · rintro ⟨h1, ⟨a, b, c, d⟩, h3⟩
    exact ⟨holds_plug.2 ⟨a, b, c, h1⟩, by rw [addr_plug]; exact d, hp.nodup_iff.2 h3⟩

theorem At.unzip_iff {s : Heap E} {fs gs : List (Frame (Nat × E))} {t : LT E} :
    At s gs (unzip fs t) ↔ At s (fs ++ gs) t := by
  induction fs generalizing t with
  | nil => exact Iff.rfl
  | cons f fs ih => rw [unzip, ih, At.plug_iff]; exact Iff.rfl

theorem get_ok {s : Heap E} {p : Nat} {n : TNode E} (h0 : p ≠ 0) (h : s.mem p = some n) :
    get s p = .ok n := by simp [get, h0, h]

theorem load_slot {s : Heap E} {fs : List (Frame (Nat × E))} {p : Nat}
    (h : HoldsF s.mem s.root fs p) : load s (slotOf fs) = .ok p := by
  cases fs with
  | nil => simp only [HoldsF] at h; simp [slotOf, load, h]
  | cons f fs =>
    obtain ⟨h0, h1, _⟩ := h
    simp only [slotOf, load, get_ok h0 h1, Res.bind, hole, TNode.kid]
    cases f.dir <;> rfl

theorem store_slot {s : Heap E} {fs : List (Frame (Nat × E))} {p : Nat} (v : Nat)
    (h : HoldsF s.mem s.root fs p) (hn : (addrsF fs).Nodup) :
    ∃ s', store s (slotOf fs) v = .ok s' ∧ HoldsF s'.mem s'.root fs v ∧
      ∀ q, q ∉ addrsF fs → s'.mem q = s.mem q := by
  cases fs with
  | nil => exact ⟨{ s with root := v }, rfl, rfl, fun _ _ => rfl⟩
  | cons f fs =>
    obtain ⟨h0, h1, h2, h3⟩ := h
    simp only [addrsF, List.nodup_cons, List.mem_append, not_or] at hn
    refine ⟨_, by simp only [slotOf, store, setKid, get_ok h0 h1, Res.bind]; rfl, ?_, ?_⟩
    · refine ⟨h0, ?_, h2.congr ?_, h3.congr ?_⟩
      · simp only [upd_same, hole, TNode.setKid]
        cases f.dir <;> rfl
      · intro q hq; exact upd_ne _ _ fun e => hn.1.1 (e ▸ hq)
      · intro q hq; exact upd_ne _ _ fun e => hn.1.2 (e ▸ hq)
    · intro q hq
      simp only [addrsF, List.mem_cons, not_or] at hq
      exact upd_ne _ _ hq.1

theorem height_ok {s : Heap E} {t : LT E} (h : Holds s.mem t) :
    height s (addr t) = .ok (Tree.height t) := by
  cases t with
  | nil => simp [height, addr, Tree.height]
  | node k a0 a1 hh =>
    obtain ⟨h0, h1, _⟩ := h
    simp [height, addr, Tree.height, h0, get_ok h0 h1, Res.bind]

theorem setKid_ok {s : Heap E} {p : Nat} {n : TNode E} (h0 : p ≠ 0) (h : s.mem p = some n)
    (dir : Bool) (v : Nat) :
    setKid s p dir v = .ok { s with mem := upd s.mem p (some (n.setKid dir v)) } := by
  simp [setKid, get_ok h0 h, Res.bind]

theorem setH_ok {s : Heap E} {p : Nat} {n : TNode E} (h0 : p ≠ 0) (h : s.mem p = some n)
    (v : Nat) : setH s p v = .ok { s with mem := upd s.mem p (some { n with h := v }) } := by
  simp [setH, get_ok h0 h, Res.bind]

theorem holds_mkDir {m : Nat → Option (TNode E)} {dir : Bool} {k : Nat × E} {a b : LT E} {h : Nat} :
    Holds m (mkDir dir k a b h) ↔ k.1 ≠ 0 ∧
      m k.1 = some ((TNode.mk k.2 (addr b) (addr b) h).setKid dir (addr a)) ∧
      Holds m a ∧ Holds m b := by
  unfold mkDir TNode.setKid
  split
  · simp only [Holds, and_comm (a := Holds m b)]
  · simp only [Holds]

theorem addrs_mkDir (dir : Bool) (k : Nat × E) (a b : LT E) (h : Nat) :
    (addrs (mkDir dir k a b h)).Perm (k.1 :: (addrs a ++ addrs b)) := by
  unfold mkDir
  split
  · simp only [addrs]; exact (List.perm_append_comm).cons _
  · exact List.Perm.refl _

theorem addr_mkDir (dir : Bool) (k : Nat × E) (a b : LT E) (h : Nat) :
    addr (mkDir dir k a b h) = k.1 := by
  unfold mkDir; split <;> rfl

/-- a node seen from the direction `dir` -/
theorem node_eq_mkDir (dir : Bool) (k : Nat × E) (a0 a1 : LT E) (h : Nat) :
    node k a0 a1 h = mkDir dir k (Tree.child a0 a1 dir) (Tree.child a0 a1 (!dir)) h := by
  cases dir <;> simp [mkDir, Tree.child]

theorem kid_setKid (n : TNode E) (d : Bool) (v : Nat) : (n.setKid d v).kid d = v := by
  cases d <;> rfl
theorem kid_setKid_not (n : TNode E) (d : Bool) (v : Nat) :
    (n.setKid d v).kid (!d) = n.kid (!d) := by cases d <;> rfl
theorem kid_setKid_not' (n : TNode E) (d : Bool) (v : Nat) :
    (n.setKid (!d) v).kid d = n.kid d := by cases d <;> rfl
theorem kid_mk (k : E) (p h : Nat) (d : Bool) : (TNode.mk k p p h).kid d = p := by
  cases d <;> rfl

theorem h_setKid (n : TNode E) (d : Bool) (v : Nat) : (n.setKid d v).h = n.h := by
  cases d <;> rfl

theorem get_upd_same (r : Nat) (m : Nat → Option (TNode E)) {p : Nat} (n : TNode E) (h : p ≠ 0) :
    get ⟨r, upd m p (some n)⟩ p = .ok n := get_ok h (upd_same _ _ _)

theorem get_upd_ne (r : Nat) (m : Nat → Option (TNode E)) {p q : Nat} (v) (h : q ≠ p) :
    get ⟨r, upd m p v⟩ q = get ⟨r, m⟩ q := by simp only [get, upd_ne _ _ h]

theorem get_eta (s : Heap E) (p : Nat) : get ⟨s.root, s.mem⟩ p = get s p := rfl

theorem count_mkDir (q : Nat) (dir : Bool) (k : Nat × E) (a b : LT E) (h : Nat) :
    (addrs (mkDir dir k a b h)).count q =
      (addrs a).count q + (addrs b).count q + if k.1 = q then 1 else 0 := by
  rw [(addrs_mkDir dir k a b h).count_eq, List.count_cons, List.count_append]
  simp

theorem rot_fin {s0 s : Heap E} {fs : List (Frame (Nat × E))} {dir : Bool} {k : Nat × E}
    {a b : LT E} {h p : Nat} {T : List Nat} {hx : Nat}
    (hT : (addrs (mkDir dir k a b h)).Perm T) (hn : (T ++ addrsF fs).Nodup)
    (hF : HoldsF s.mem s.root fs p) (hH : Holds s.mem (mkDir dir k a b h))
    (hoff : ∀ q, q ∉ T → s.mem q = s0.mem q) :
    ∃ s', ((store s (slotOf fs) k.1).bind fun s => (get s k.1).bind fun n =>
        .ok (s, (n.h : Int) - hx)) = .ok (s', (h : Int) - hx) ∧
      At s' fs (mkDir dir k a b h) ∧ (addrs (mkDir dir k a b h)).Perm T ∧
      ∀ q, q ∉ T → q ∉ addrsF fs → s'.mem q = s0.mem q := by
  rw [← (hT.append_right _).nodup_iff] at hn
  obtain ⟨n1, n2, n3⟩ := List.nodup_append.1 hn
  obtain ⟨s', h1, h2, h3⟩ := store_slot k.1 hF n2
  have hH' : Holds s'.mem (mkDir dir k a b h) := hH.congr fun q hq => h3 q fun hq' => n3 q hq q hq' rfl
  obtain ⟨k0, km, _⟩ := holds_mkDir.1 hH'
  refine ⟨s', ?_, ⟨hH', by rw [addr_mkDir]; exact h2, hn⟩, hT,
    fun q hq hq' => (h3 q hq').trans (hoff q hq)⟩
  rw [h1, Res.bind_ok, get_ok k0 km, Res.bind_ok]
  congr 3
  cases dir <;> rfl

theorem rot_ok {s : Heap E} {fs : List (Frame (Nat × E))} {dir : Bool} {xk : Nat × E}
    {a0 a1 : LT E} {xh : Nat} {t' : LT E} {d : Int} (ha : At s fs (node xk a0 a1 xh))
    (hr : Tree.rot xk a0 a1 xh dir = .ok (t', d)) :
    ∃ s', rot s (slotOf fs) xk.1 dir = .ok (s', d) ∧ At s' fs t' ∧
      (addrs t').Perm (addrs (node xk a0 a1 xh)) ∧
      ∀ q, q ∉ addrs (node xk a0 a1 xh) → q ∉ addrsF fs → s'.mem q = s.mem q := by
  obtain ⟨hh, hc, hn⟩ := ha
  unfold Tree.rot at hr
  rw [node_eq_mkDir dir] at hh hc hn ⊢
  generalize Tree.child a0 a1 dir = Y at *
  generalize Tree.child a0 a1 (!dir) = A at *
  cases Y with
  | nil => simp at hr
  | node yk ya0 ya1 yh =>
    simp only at hr
    have hY := node_eq_mkDir dir yk ya0 ya1 yh
    generalize Tree.child ya0 ya1 dir = D at *
    generalize Tree.child ya0 ya1 (!dir) = Z at *
    rw [hY] at hh hn ⊢
    obtain ⟨x0, xm, hYs, hA⟩ := holds_mkDir.1 hh
    obtain ⟨y0, ym, hD, hZ⟩ := holds_mkDir.1 hYs
    rw [addr_mkDir] at xm hc
    have gx := get_ok x0 xm
    have gy := get_ok y0 ym
    have hz := height_ok hZ
    have hd := height_ok hD
    split at hr
    · next hlt =>
      cases Z with
      | nil => simp at hr
      | node zk za0 za1 zh =>
        simp only [Tree.height] at hr
        have hZe := node_eq_mkDir dir zk za0 za1 zh
        generalize Tree.child za0 za1 dir = C at *
        generalize Tree.child za0 za1 (!dir) = B at *
        have hZa : addr (node zk za0 za1 zh) = zk.1 := rfl
        rw [hZa] at ym gy hz
        rw [hZe] at hZ hn ⊢
        obtain ⟨z0, zm, hC, hB⟩ := holds_mkDir.1 hZ
        have gz := get_ok z0 zm
        simp only [Res.ok.injEq, Prod.mk.injEq] at hr
        obtain ⟨rfl, rfl⟩ := hr
        have hT : (addrs (mkDir dir zk (mkDir dir yk D C zh) (mkDir dir xk B A zh) (zh + 1))).Perm
            (addrs (mkDir dir xk (mkDir dir yk D (mkDir dir zk C B zh) yh) A xh)) := by
          rw [List.perm_iff_count]; intro q; simp only [count_mkDir]; omega
        have hn2 := hn
        have hp : (addrs (mkDir dir xk (mkDir dir yk D (mkDir dir zk C B zh) yh) A xh)).Perm
            (xk.1 :: yk.1 :: zk.1 :: (addrs D ++ (addrs C ++ (addrs B ++ addrs A)))) := by
          rw [List.perm_iff_count]; intro q
          simp only [count_mkDir, List.count_cons, List.count_append, beq_iff_eq]; omega
        rw [(hp.append_right (addrsF fs)).nodup_iff] at hn2
        simp only [List.cons_append, List.nodup_cons, List.mem_cons, List.mem_append, not_or,
          List.append_assoc] at hn2
        obtain ⟨⟨xy, xz, nxD, nxC, nxB, nxA, nxF⟩, ⟨yz, nyD, nyC, nyB, nyA, nyF⟩,
          ⟨nzD, nzC, nzB, nzA, nzF⟩, _⟩ := hn2
        have yx := Ne.symm xy
        have zx := Ne.symm xz
        have zy := Ne.symm yz
        simp only [rot, gx, kid_setKid, gy, kid_setKid_not, kid_mk, Res.bind_ok, hz, hd,
          Tree.height, h_setKid] at hlt ⊢
        rw [if_pos hlt, show ((zh : Int) + 1 - xh) = ((zh + 1 : Nat) : Int) - xh by omega]
        simp only [setKid, setH, gx, gy, gz, get_upd_same _ _ _ x0, get_upd_same _ _ _ y0,
          get_upd_same _ _ _ z0, get_upd_ne _ _ _ xy, get_upd_ne _ _ _ yx, get_upd_ne _ _ _ xz,
          get_upd_ne _ _ _ zx, get_upd_ne _ _ _ yz, get_upd_ne _ _ _ zy, get_eta,
          Res.bind_ok, kid_setKid, kid_setKid_not, kid_setKid_not', kid_mk]
        refine rot_fin (p := xk.1) hT hn (hc.congr fun q hq => ?_) ?_ fun q hq => ?_
        · have h1 : q ≠ xk.1 := fun e => nxF (e ▸ hq)
          have h2 : q ≠ yk.1 := fun e => nyF (e ▸ hq)
          have h3 : q ≠ zk.1 := fun e => nzF (e ▸ hq)
          simp only [upd, h1, h2, h3, if_false]
        · refine holds_mkDir.2 ⟨z0, ?_, holds_mkDir.2 ⟨y0, ?_, hD.congr ?_, hC.congr ?_⟩,
            holds_mkDir.2 ⟨x0, ?_, hB.congr ?_, hA.congr ?_⟩⟩
          any_goals simp only [upd, xy, yx, xz, zx, yz, zy, if_false, if_true, addr_mkDir]
          any_goals (cases dir <;> rfl)
          all_goals
            intro q hq
            have h1 : q ≠ xk.1 := fun e => by subst e; first | exact nxA hq | exact nxB hq | exact nxC hq | exact nxD hq
            have h2 : q ≠ yk.1 := fun e => by subst e; first | exact nyA hq | exact nyB hq | exact nyC hq | exact nyD hq
            have h3 : q ≠ zk.1 := fun e => by subst e; first | exact nzA hq | exact nzB hq | exact nzC hq | exact nzD hq
            simp only [h1, h2, h3, if_false]
        · rw [hp.mem_iff] at hq
          simp only [List.mem_cons, not_or] at hq
          simp only [upd, hq.1, hq.2.1, hq.2.2.1, if_false]
    · next hlt =>
      simp only [Res.ok.injEq, Prod.mk.injEq] at hr
      obtain ⟨rfl, rfl⟩ := hr
      generalize Tree.height Z = zh at *
      have hT : (addrs (mkDir dir yk D (mkDir dir xk Z A (zh + 1)) (zh + 2))).Perm
          (addrs (mkDir dir xk (mkDir dir yk D Z yh) A xh)) := by
        rw [List.perm_iff_count]; intro q; simp only [count_mkDir]; omega
      have hn2 := hn
      have hp : (addrs (mkDir dir xk (mkDir dir yk D Z yh) A xh)).Perm
          (xk.1 :: yk.1 :: (addrs D ++ (addrs Z ++ addrs A))) := by
        rw [List.perm_iff_count]; intro q
        simp only [count_mkDir, List.count_cons, List.count_append, beq_iff_eq]; omega
      rw [(hp.append_right (addrsF fs)).nodup_iff] at hn2
      simp only [List.cons_append, List.nodup_cons, List.mem_cons, List.mem_append, not_or,
        List.append_assoc] at hn2
      obtain ⟨⟨xy, nxD, nxZ, nxA, nxF⟩, ⟨nyD, nyZ, nyA, nyF⟩, _⟩ := hn2
      have yx := Ne.symm xy
      simp only [rot, gx, kid_setKid, gy, kid_setKid_not, kid_mk, Res.bind_ok, hz, hd,
        h_setKid]
      rw [if_neg hlt, show ((zh : Int) + 2 - xh) = ((zh + 2 : Nat) : Int) - xh by omega]
      simp only [setKid, setH, gx, gy, get_upd_same _ _ _ x0, get_upd_same _ _ _ y0,
        get_upd_ne _ _ _ xy, get_upd_ne _ _ _ yx, get_eta,
        Res.bind_ok, kid_setKid, kid_setKid_not, kid_setKid_not', kid_mk]
      refine rot_fin (p := xk.1) hT hn (hc.congr fun q hq => ?_) ?_ fun q hq => ?_
      · have h1 : q ≠ xk.1 := fun e => nxF (e ▸ hq)
        have h2 : q ≠ yk.1 := fun e => nyF (e ▸ hq)
        simp only [upd, h1, h2, if_false]
      · refine holds_mkDir.2 ⟨y0, ?_, hD.congr ?_, holds_mkDir.2 ⟨x0, ?_, hZ.congr ?_, hA.congr ?_⟩⟩
        any_goals simp only [upd, xy, yx, if_false, if_true, addr_mkDir]
        any_goals (cases dir <;> rfl)
        all_goals
          intro q hq
          have h1 : q ≠ xk.1 := fun e => by subst e; first | exact nxA hq | exact nxZ hq | exact nxD hq
          have h2 : q ≠ yk.1 := fun e => by subst e; first | exact nyA hq | exact nyZ hq | exact nyD hq
          simp only [h1, h2, if_false]
      · rw [hp.mem_iff] at hq
        simp only [List.mem_cons, not_or] at hq
        simp only [upd, hq.1, hq.2.1, if_false]

theorem rot_addr_eq {k : Nat × E} {a0 a1 : LT E} {h : Nat} {s : Heap E}
    (hh : Holds s.mem (node k a0 a1 h)) : get s k.1 = .ok ⟨k.2, addr a0, addr a1, h⟩ :=
  get_ok hh.1 hh.2.1

theorem balance_ok {s : Heap E} {fs : List (Frame (Nat × E))} {t t' : LT E} {d : Int}
    (ha : At s fs t) (hb : Tree.balance t = .ok (t', d)) :
    ∃ s', balance s (slotOf fs) = .ok (s', d) ∧ At s' fs t' ∧ (addrs t').Perm (addrs t) ∧
      ∀ q, q ∉ addrs t → q ∉ addrsF fs → s'.mem q = s.mem q := by
  cases t with
  | nil => simp [Tree.balance] at hb
  | node k a0 a1 h =>
    have hl : load s (slotOf fs) = .ok k.1 := load_slot ha.ctx
    have hg := rot_addr_eq ha.holds
    have hn := ha.nodup
    obtain ⟨k0, km, h0, h1⟩ := ha.holds
    simp only [Tree.balance] at hb
    simp only [balance, hl, hg, Res.bind_ok, height_ok h0, height_ok h1]
    split at hb
    · next hc =>
      rw [if_pos hc]
      simp only [Res.ok.injEq, Prod.mk.injEq] at hb
      obtain ⟨rfl, rfl⟩ := hb
      rw [setH_ok k0 km, Res.bind_ok]
      simp only [addrs, List.cons_append, List.nodup_cons, List.mem_append, not_or] at hn
      refine ⟨_, rfl, ⟨⟨k0, by simp only [upd_same], h0.congr ?_, h1.congr ?_⟩, ha.ctx.congr ?_,
        ha.nodup⟩, List.Perm.refl _, ?_⟩
      · intro q hq; exact upd_ne _ _ fun e => hn.1.1.1 (e ▸ hq)
      · intro q hq; exact upd_ne _ _ fun e => hn.1.1.2 (e ▸ hq)
      · intro q hq; exact upd_ne _ _ fun e => hn.1.2 (e ▸ hq)
      · intro q hq _
        simp only [addrs, List.mem_cons, not_or] at hq
        exact upd_ne _ _ hq.1
    · next hc =>
      rw [if_neg hc]
      exact rot_ok ha hb

theorem slots_cons (fs : List (Frame (Nat × E))) :
    ∃ a, slots fs = slotOf fs :: a ∧ ∀ f gs, fs = f :: gs → a = slots gs := by
  cases fs with
  | nil => exact ⟨[], rfl, by simp⟩
  | cons f fs => exact ⟨slots fs, rfl, by simp⟩

theorem fixup_step {f : Frame (Nat × E)} {fs : List (Frame (Nat × E))} {t T : LT E}
    (h : Tree.fixup (f :: fs) t = .ok T) :
    ∃ t' d, Tree.balance (plug f t) = .ok (t', d) ∧
      ((d = 0 ∧ T = unzip fs t') ∨ (d ≠ 0 ∧ Tree.fixup fs t' = .ok T)) := by
  unfold Tree.fixup at h
  split at h
  · next t' d hb =>
    refine ⟨t', d, hb, ?_⟩
    split at h
    · next h0 => exact .inl ⟨h0, by simpa using h.symm⟩
    · next h0 => exact .inr ⟨h0, h⟩
  · simp at h
  · simp at h

/-- the loop of `musl_tsearch` after the new node has been stored -/
theorem upIns_ok {fs : List (Frame (Nat × E))} : ∀ {s : Heap E} {t T : LT E}, At s fs t →
    Tree.fixup fs t = .ok T →
    ∃ s', upIns s (slots fs).tail = .ok s' ∧ At s' [] T ∧
      (addrs T).Perm (addrs t ++ addrsF fs) ∧
      ∀ q, q ∉ addrs t → q ∉ addrsF fs → s'.mem q = s.mem q := by
  induction fs with
  | nil =>
    intro s t T ha h
    simp only [Tree.fixup, Res.ok.injEq] at h
    subst h
    exact ⟨s, rfl, ha, by simp [addrsF], fun _ _ _ => rfl⟩
  | cons f fs ih =>
    intro s t T ha h
    obtain ⟨t', d, hb, hd⟩ := fixup_step h
    obtain ⟨s1, e1, a1, p1, o1⟩ := balance_ok (At.plug_iff.2 ha) hb
    have hp : (addrs t' ++ addrsF fs).Perm (addrs t ++ addrsF (f :: fs)) := by
      refine (p1.append_right _).trans (((addrs_plug f t).append_right _).trans ?_)
      simp only [addrsF]
      rw [List.cons_append, List.append_assoc]
      exact List.perm_middle.symm
    have off : ∀ q, q ∉ addrs t → q ∉ addrsF (f :: fs) → s1.mem q = s.mem q := by
      intro q h1 h2
      simp only [addrsF, List.mem_cons, List.mem_append, not_or] at h2
      refine o1 q ?_ h2.2.2
      rw [(addrs_plug f t).mem_iff]
      simp [h1, h2.1, h2.2.1]
    obtain ⟨a, es, hs⟩ := slots_cons fs
    rcases hd with ⟨rfl, rfl⟩ | ⟨hd, hf⟩
    · refine ⟨s1, ?_, ?_, (addrs_unzip fs t').trans hp, off⟩
      · simp only [slots, List.tail_cons, es, upIns, e1, Res.bind_ok, if_true]
      · exact At.unzip_iff.2 (by simpa using a1)
    · obtain ⟨s2, e2, a2, p2, o2⟩ := ih a1 hf
      refine ⟨s2, ?_, a2, p2.trans hp, fun q h1 h2 => ?_⟩
      · rw [es, List.tail_cons] at e2
        simp only [slots, List.tail_cons, es, upIns, e1, Res.bind_ok, hd, if_false, e2]
      · rw [o2 q, off q h1 h2]
        · intro hq
          have := hp.mem_iff.1 (List.mem_append_left _ hq)
          rcases List.mem_append.1 this with h | h
          · exact h1 h
          · exact h2 h
        · intro hq
          exact h2 (by simp [addrsF, hq])

theorem upDel_upIns (s : Heap E) (a : List Slot) (z : Slot) : upDel s (a ++ [z]) = upIns s a := by
  induction a generalizing s with
  | nil => rfl
  | cons p a ih =>
    cases a with
    | nil =>
      simp only [List.nil_append, List.cons_append, upDel, upIns]
    | cons q a =>
      simp only [List.cons_append] at ih ⊢
      simp only [upDel, ih]
      rfl

end Verif.TreeMem
