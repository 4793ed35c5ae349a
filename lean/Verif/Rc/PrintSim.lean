import Verif.Rc.PrintMem
import Verif.Json.PrintProps
import Mathlib.Data.List.Nodup

/-!
# The printer in memory does what the printer of values does (lemmas for C131)
-/

namespace Verif.Rc.PrintProps
open Verif.Chain (upd)
open Verif.Json (Byte Atom Out Libc Val Frame mkFrame toChar step afterArr afterObj sep pad delimiter strAppend atomText heightL_mem heightF_mem)

/-- the block of a value without parts -/
def atomIn (Q : QEnv) (H : JHeap) (j : Nat) : Atom → Prop
  | .undef => H.tag j = some .undefined
  | .null => H.tag j = some .null
  | .bool b => H.tag j = some .boolean ∧ (j = Q.yes ↔ b = true)
  | .str s => H.tag j = some .string ∧ ∃ b, H.held j = some b ∧ H.m.h.live b = true ∧ Q.txt b = s
  | .strn s => H.tag j = some .strn ∧ Q.cont j = .strn s
  | .blob n => H.tag j = some .blob ∧ ∃ b, H.held j = some b ∧ H.m.h.live b = true ∧ Q.cont b = .blob n
  | a => H.tag j = some .number ∧ ∃ b, H.held j = some b ∧ H.m.h.live b = true ∧ Q.cont b = a

mutual
/-- memory has the value at `j`.  The keys of objects are in memory, counted at least once and less than 65036 times, and are not
retained. -/
def shows (Q : QEnv) (H : JHeap) : Val → Nat → Prop
  | .atom a, j => H.m.h.live j = true ∧ atomIn Q H j a
  | .arr xs, j => H.m.h.live j = true ∧ H.tag j = some .array ∧ ∃ l vs, H.held j = some l ∧ H.m.h.live l = true ∧
      H.m.h.kids l = vs.map (fun v => (.rc, some v)) ∧ showsL Q H xs vs
  | .obj kvs, j => H.m.h.live j = true ∧ H.tag j = some .object ∧ ∃ m ps, H.held j = some m ∧ H.m.h.live m = true ∧
      (H.m.maps m).order = ps.map Prod.fst ∧ (H.m.maps m).pairs.Perm (ps.map fun p => (p.1, some p.2)) ∧ (kvs.map Prod.fst).Nodup ∧
      showsF Q H kvs ps
/-- the elements of an array -/
def showsL (Q : QEnv) (H : JHeap) : List Val → List Nat → Prop
  | [], [] => True
  | x :: xs, v :: vs => shows Q H x v ∧ showsL Q H xs vs
  | _, _ => False
/-- the entries of an object -/
def showsF (Q : QEnv) (H : JHeap) : List (List Byte × Val) → List (Nat × Nat) → Prop
  | [], [] => True
  | (k, x) :: xs, p :: ps => (Q.txt p.1 = k ∧ KeyOk H p.1 ∧ H.m.h.deg p.1 + 500 < 65536) ∧ shows Q H x p.2 ∧ showsF Q H xs ps
  | _, _ => False
end

section
variable {Q : QEnv} {H0 H : JHeap} {T : List (Nat × List Edge)} {ks : List Nat}

theorem showsL_get : ∀ {xs : List Val} {vs : List Nat}, showsL Q H xs vs → xs.length = vs.length ∧
    ∀ i : Nat, ∀ x, xs[i]? = some x → ∃ v, vs[i]? = some v ∧ shows Q H x v
  | [], [], _ => ⟨rfl, by simp⟩
  | x :: xs, v :: vs, h => by
    rw [showsL] at h
    obtain ⟨h1, h2⟩ := showsL_get h.2
    refine ⟨by simp [h1], fun i y hy => ?_⟩
    cases i with
    | zero => simp only [List.getElem?_cons_zero, Option.some.injEq] at hy ⊢; subst hy; exact ⟨v, rfl, h.1⟩
    | succ i => simp only [List.getElem?_cons_succ] at hy ⊢; exact h2 i y hy
  | [], _ :: _, h => by simp [showsL] at h
  | _ :: _, [], h => by simp [showsL] at h

theorem showsF_get : ∀ {xs : List (List Byte × Val)} {ps : List (Nat × Nat)}, showsF Q H xs ps →
    xs.map Prod.fst = ps.map (fun p => Q.txt p.1) ∧ (∀ p ∈ ps, KeyOk H p.1 ∧ H.m.h.deg p.1 + 500 < 65536) ∧
    ∀ i : Nat, ∀ k x, xs[i]? = some (k, x) → ∃ p, ps[i]? = some p ∧ Q.txt p.1 = k ∧ shows Q H x p.2
  | [], [], _ => ⟨rfl, by simp, by simp⟩
  | (k, x) :: xs, p :: ps, h => by
    rw [showsF] at h
    obtain ⟨⟨g1, g2⟩, h1, h2⟩ := h
    obtain ⟨e1, e2, e3⟩ := showsF_get h2
    refine ⟨by simp [e1, g1], ?_, fun i k' y hy => ?_⟩
    · intro q hq
      rcases List.mem_cons.1 hq with rfl | hq
      · exact g2
      · exact e2 q hq
    · cases i with
      | zero => simp only [List.getElem?_cons_zero, Option.some.injEq, Prod.mk.injEq] at hy ⊢; obtain ⟨rfl, rfl⟩ := hy; exact ⟨p, rfl, g1, h1⟩
      | succ i => simp only [List.getElem?_cons_succ] at hy ⊢; exact e3 i k' y hy
  | [], _ :: _, h => by simp [showsF] at h
  | _ :: _, [], h => by simp [showsF] at h

theorem shows_live {v : Val} {j : Nat} (h : shows Q H v j) : H.m.h.live j = true := by
  cases v with
  | atom a => rw [shows] at h; exact h.1
  | arr xs => rw [shows] at h; exact h.1
  | obj kvs => rw [shows] at h; exact h.1

/-- only objects have the tag of objects -/
theorem shows_tag {v : Val} {j : Nat} (h : shows Q H v j) : H.tag j = some .object ↔ ∃ kvs, v = .obj kvs := by
  cases v with
  | atom a => rw [shows] at h; cases a <;> simp [atomIn] at h <;> simp [h]
  | arr xs => rw [shows] at h; simp [h.2.1]
  | obj kvs => rw [shows] at h; simp [h.2.1]

theorem Over.heldEq (o : Over H0 H T ks) {j : Nat} (hj : H0.m.h.live j = true) : H.held j = H0.held j := by
  simp only [JHeap.held, o.kids j hj]

theorem Over.liveOf (o : Over H0 H T ks) {j : Nat} (hj : H0.m.h.live j = true) : H.m.h.live j = true := (o.live j).2 (.inl hj)

theorem Over.part (o : Over H0 H T ks) {j p : Nat} {t : Tag} (hj : H0.m.h.live j = true) (ht : H0.tag j = some t) (hp : H0.held j = some p) :
    toPart H j t = .ok p := by
  simp only [toPart, o.liveOf hj, if_true, o.tag j hj, ht, o.heldEq hj, hp]

/-- a frame of the stack in memory, its blocks and the keys that are counted -/
structure FOk (Q : QEnv) (H0 : JHeap) (fr : QFrame) (vf : Frame) (B : List (Nat × List Edge)) (kk : List Nat) : Prop where
  val : ∃ j, fr.j = some j ∧ shows Q H0 vf.j j ∧
    match fr.keys with
    | none => H0.tag j ≠ some .object ∧ kk = [] ∧ B = [(fr.tup, [(.del, some fr.cnt), (.noop, fr.j)]), (fr.cnt, [])]
    | some l => H0.tag j = some .object ∧ ∃ m, H0.held j = some m ∧ kk = (H0.m.maps m).order ∧
        B = [(fr.tup, [(.del, some fr.cnt), (.noop, fr.j)]), (fr.cnt, []), (l, kk.map fun k => (.rc, some k))]
  next : fr.next = vf.next
  tabs : fr.tabs = vf.tabs
  more : fr.more = vf.more

/-- the stack in memory -/
inductive Stack (Q : QEnv) (H0 : JHeap) : List QFrame → List Frame → List (Nat × List Edge) → List Nat → Prop
  | nil : Stack Q H0 [] [] [] []
  | cons {fr vf B kk frs vfs T ks} : FOk Q H0 fr vf B kk → Stack Q H0 frs vfs T ks → Stack Q H0 (fr :: frs) (vf :: vfs) (B ++ T) (kk ++ ks)

theorem Stack.length {frs : List QFrame} {vfs : List Frame} (h : Stack Q H0 frs vfs T ks) : frs.length = vfs.length := by
  induction h with
  | nil => rfl
  | cons _ _ ih => simp [ih]

theorem keys_nodup {kvs : List (List Byte × Val)} {ps : List (Nat × Nat)} (h : showsF Q H kvs ps) (hn : (kvs.map Prod.fst).Nodup) :
    (ps.map fun p => Q.txt p.1).Nodup ∧ (ps.map Prod.fst).Nodup := by
  rw [(showsF_get h).1] at hn
  refine ⟨hn, ?_⟩
  have : ps.map (fun p => Q.txt p.1) = (ps.map Prod.fst).map Q.txt := by rw [List.map_map]; rfl
  rw [this] at hn
  exact List.Pairwise.of_map Q.txt (fun a b h e => h (e ▸ rfl)) hn

/-- the keys of an object -/
theorem shows_order {v : Val} {j m : Nat} (h : shows Q H v j) (ht : H.tag j = some .object) (hm : H.held j = some m) :
    (H.m.maps m).order.Nodup ∧ ∀ k ∈ (H.m.maps m).order, KeyOk H k ∧ H.m.h.deg k + 500 < 65536 := by
  obtain ⟨kvs, rfl⟩ := (shows_tag h).1 ht
  rw [shows] at h
  obtain ⟨-, -, m', ps, h1, -, h3, -, h5, h6⟩ := h
  rw [hm] at h1
  cases h1
  rw [h3]
  refine ⟨(keys_nodup h6 h5).2, fun k hk => ?_⟩
  obtain ⟨p, hp, rfl⟩ := List.mem_map.1 hk
  exact (showsF_get h6).2.1 p hp

theorem Stack.count {frs : List QFrame} {vfs : List Frame} (h : Stack Q H0 frs vfs T ks) (y : Nat) : ks.count y ≤ frs.length := by
  induction h with
  | nil => simp
  | @cons fr vf B kk frs vfs T ks f _ ih =>
    have : kk.count y ≤ 1 := by
      obtain ⟨j, -, h2, h3⟩ := f.val
      cases hk : fr.keys with
      | none => rw [hk] at h3; rw [h3.2.1]; simp
      | some l =>
        rw [hk] at h3
        obtain ⟨ht, m, hm, e, -⟩ := h3
        rw [e]
        exact List.nodup_iff_count.1 (shows_order h2 ht hm).1 y
    rw [List.count_append, List.length_cons]
    omega

/-- a value is pushed -/
theorem push_sim (al : AlFree Q) (sn : Sane H0) {s : QSt} {vfs : List Frame} {left : List (Nat × List Edge)}
    (st : Stack Q H0 s.stk vfs T ks) (o : Over H0 s.H (T ++ left) ks) (hl : s.stk.length < 500) {v : Val} {j : Nat} (hv : shows Q H0 v j)
    (tabs : Int) (more : Bool) :
    ∃ s' T' ks', push Q s tabs more (some j) = .ok s' ∧ s'.o = s.o ∧ Stack Q H0 s'.stk (mkFrame tabs more v :: vfs) T' ks' ∧
      Over H0 s'.H (T' ++ left) ks' := by
  have hj := shows_live hv
  have or := o.raw sn al s.n
  simp only [push, o.liveOf hj, if_true]
  by_cases ht : s.H.tag j = some .object
  · rw [if_pos ht]
    rw [o.tag j hj] at ht
    obtain ⟨kvs, rfl⟩ := (shows_tag hv).1 ht
    have hv' := hv
    rw [shows] at hv'
    obtain ⟨-, -, m, ps, h1, h2, -⟩ := hv'
    obtain ⟨hnd, hok⟩ := shows_order hv ht h1
    rw [o.part hj ht h1, Res.bind_ok]
    have or2 := or.raw sn al (s.n + 1)
    obtain ⟨h, e, oa⟩ := or2.append (H0.m.maps m).order (fun k hk => (hok k hk).1) (fun k hk => by
      have h1 := (hok k hk).2
      have h2 := st.count k
      have h3 := List.nodup_iff_count.1 hnd k
      rw [List.count_append]
      omega)
    have hml := or.liveOf h2
    rw [orderedKeys, if_pos hml, or.maps]
    simp only [e, Res.map_ok', Res.bind_ok]
    obtain ⟨h', e', ot⟩ := oa.tuple (x := Q.al (s.n + 2) ((allocRaw Q (allocRaw Q s.H s.n).1 (s.n + 1)).1.on h).m.h.live)
      (c := (allocRaw Q s.H s.n).2) (p := some j) (oa.new sn al _) (by simp)
    simp only [pushFrame, e', Res.map_ok']
    refine ⟨_, _, _, rfl, rfl, .cons (B := [_, _, _]) ⟨⟨j, rfl, hv, ht, m, h1, rfl, rfl⟩, rfl, rfl, rfl⟩ st, ?_⟩
    refine ot.perm ?_ (List.Perm.refl _)
    simp only [List.nil_append, List.cons_append]
    exact (List.Perm.swap _ _ _).cons _
  · rw [if_neg ht]
    rw [o.tag j hj] at ht
    obtain ⟨h', e', ot⟩ := or.tuple (x := Q.al (s.n + 1) (allocRaw Q s.H s.n).1.m.h.live)
      (c := (allocRaw Q s.H s.n).2) (p := some j) (or.new sn al _) (by simp)
    simp only [pushFrame, e', Res.map_ok']
    exact ⟨_, _, _, rfl, rfl, .cons (B := [_, _]) (kk := []) ⟨⟨j, rfl, hv, ht, rfl, rfl⟩, rfl, rfl, rfl⟩ st, ot⟩

/-- `cee_map_find` of a key of the map -/
theorem find_sim (o : Over H0 H T ks) {m k v : Nat} {ps : List (Nat × Nat)} (hm : H0.m.h.live m = true)
    (hp : (H0.m.maps m).pairs.Perm (ps.map fun p => (p.1, some p.2))) (ho : (H0.m.maps m).order = ps.map Prod.fst)
    (hn : (ps.map fun p => Q.txt p.1).Nodup) (hl : ∀ p ∈ ps, H0.m.h.live p.1 = true) (hk : (k, v) ∈ ps) :
    findIn Q H m k = .ok (some v) := by
  have hr : readable H.m m k = true := by
    simp only [readable, o.liveOf hm, o.liveOf (hl _ hk), o.maps, Bool.true_or, Bool.true_and, Bool.and_eq_true, List.all_eq_true]
    constructor
    · intro q hq
      obtain ⟨p, hp', rfl⟩ := List.mem_map.1 (hp.mem_iff.1 hq)
      simp [o.liveOf (hl p hp')]
    · intro q hq
      rw [ho] at hq
      obtain ⟨p, hp', rfl⟩ := List.mem_map.1 hq
      simp [o.liveOf (hl p hp')]
  rw [findIn, if_pos hr, o.maps]
  have key : ∀ l : List (Nat × Ptr), (∀ q ∈ l, ∃ p ∈ ps, q = (p.1, some p.2)) → (k, some v) ∈ l →
      ∃ a b, findPair Q.eqv k l = some (a, (k, some v), b) := by
    intro l
    induction l with
    | nil => intro _ h; cases h
    | cons q l ih =>
      intro hq hin
      obtain ⟨p, hp', rfl⟩ := hq q (by simp)
      by_cases he : Q.eqv k p.1 = true
      · have : p = (k, v) := by
          have h1 : Q.txt k = Q.txt p.1 := by simpa [QEnv.eqv] using he
          exact List.inj_on_of_nodup_map hn hp' hk h1.symm
        subst this
        exact ⟨[], l, by rw [findPair, if_pos he]⟩
      · have hin' : (k, some v) ∈ l := by
          rcases List.mem_cons.1 hin with h | h
          · cases h; exact absurd (by simp [QEnv.eqv]) he
          · exact h
        obtain ⟨a, b, e⟩ := ih (fun q hq' => hq q (List.mem_cons_of_mem _ hq')) hin'
        exact ⟨_, _, by rw [findPair, if_neg he, e]; rfl⟩
  obtain ⟨a, b, e⟩ := key _ (fun q hq => by
    obtain ⟨p, hp', rfl⟩ := List.mem_map.1 (hp.mem_iff.1 hq)
    exact ⟨p, hp', rfl⟩) (hp.mem_iff.2 (List.mem_map.2 ⟨(k, v), hk, rfl⟩))
  rw [e]

end

end Verif.Rc.PrintProps
