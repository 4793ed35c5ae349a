import Verif.Rc.MergeRc
import Verif.Rc.JsonRcProps

/-!
# The steps of merging: references that a tuple holds for a while
-/

namespace Verif.Rc.JsonProps
open Verif.Chain (upd)
open Verif.Rc.Props Verif.Rc.MapProps

/-- one more reference of the program to `v` -/
def JS.hold (X : JS) (v : Nat) : JS := { X with x := { X.x with s := { X.x.s with ext := upd X.x.s.ext v (X.x.s.ext v + 1) } } }

/-- other contents of the map `m` -/
def JS.put (X : JS) (m : Nat) (c : MapC) : JS := { X with x := X.x.put m c }

section
variable {sg oth : Nat → Bool} {eqv : Nat → Nat → Bool}

theorem hold_rc (X : JS) (v z : Nat) : (X.hold v).x.s.rc z = X.x.s.rc z + if z = v then 1 else 0 := by
  simp only [JS.hold, Spec.rc, upd]
  split
  · rename_i h; subst h; omega
  · rfl

theorem hold_D (X : JS) (v : Nat) : (X.hold v).x.s.D = X.x.s.D := rfl
theorem hold_kind (X : JS) (v : Nat) : (X.hold v).kind = X.kind := rfl
theorem hold_maps (X : JS) (v : Nat) : (X.hold v).x.maps = X.x.maps := rfl
theorem hold_kids (X : JS) (v : Nat) : (X.hold v).x.s.kids = X.x.s.kids := rfl
theorem put_kind (X : JS) (m : Nat) (c : MapC) : (X.put m c).kind = X.kind := rfl
theorem put_D' (X : JS) (m : Nat) (c : MapC) : (X.put m c).x.s.D = X.x.s.D := rfl

/-- another graph with the same counts -/
theorem w_same {s s' : Spec} {h : RHeap} (w : W s h) (hD : s'.D = s.D) (hr : ∀ x ∈ s.D, s'.rc x = s.rc x)
    (ho : ∀ x ∈ s.D, s'.own x = s.own x) (ht : ∀ y ∈ s.D, ∀ x, Pts s'.kids y x → x ∈ s.D) (he : ∀ x, 0 < s'.ext x → x ∈ s.D) :
    W s' h := by
  refine ⟨rfl, hD ▸ w.nodup, fun x => by rw [hD]; exact w.live x, fun y hy x hx => ?_, fun x hx => by rw [hD]; exact he x hx,
    fun x hx => ?_, fun x hx => ?_, fun x hx hh => ?_⟩
  · rw [hD] at hy ⊢; exact ht y hy x hx
  · rw [hD] at hx; rw [hr x hx]; exact w.deg x hx
  · rw [hD] at hx; rw [ho x hx]; exact w.own x hx
  · rw [hD] at hx; rw [hr x hx]; exact w.excl x hx hh

/-- a reference of the program becomes one of a block -/
theorem w_give {s : Spec} {h : RHeap} {b : Nat} (w : W { s with ext := upd s.ext b (s.ext b + 1) } h) {y : Nat} (hy : y ∈ s.D) :
    W (addEdge s y (.rc, some b)) h := by
  have hb : b ∈ s.D := Rel.ext w b (by simp [upd])
  refine w_same w rfl (fun x hx => ?_) (fun x hx => ?_) (fun z hz x hx => ?_) (fun x hx => ?_)
  · have := addEdge_refs w.nodup hy (.rc, some b) .rc x
    simp only [Spec.rc]
    show refs (addEdge s y (.rc, some b)).kids s.D .rc x + s.ext x = _
    rw [show refs (addEdge s y (.rc, some b)).kids s.D .rc x = refs s.kids s.D .rc x + _ from this]
    by_cases e : x = b
    · subst e; simp [upd]; omega
    · have e' : ¬ b = x := fun h => e h.symm
      simp [upd, e, e']
  · exact (addEdge_own w.nodup hy (e := (.rc, some b)) (by simp) x).1
  · obtain ⟨pol, hn, hm⟩ := hx
    simp only [addEdge, upd] at hm
    split at hm
    · rename_i e
      subst e
      rcases List.mem_append.1 hm with hm | hm
      · exact w.tgt z hz x ⟨pol, hn, hm⟩
      · have : x = b := by simpa using congrArg (·.2) (List.mem_singleton.1 hm)
        rw [this]; exact hb
    · exact w.tgt z hz x ⟨pol, hn, hm⟩
  · refine Rel.ext w x ?_
    simp only [upd]
    split
    · omega
    · exact hx

/-- one more reference, without a bound on the counter for static blocks -/
theorem hold_any {s : Spec} {a c : RHeap} (w : W s a) (S : Sim sg a c) {b : Nat} (hb : b ∈ s.D) (ho : s.own b = 0)
    (hlt : sg b = true ∨ s.rc b + 1 < 65536) :
    ∃ a' c', incrIndegree c (.rc, some b) = .ok c' ∧ W { s with ext := upd s.ext b (s.ext b + 1) } a' ∧ Sim sg a' c' ∧
      a'.kids = a.kids ∧ a'.live = a.live := by
  rcases hlt with hs | hlt
  · have hrb : a.ret b = false := by
      have := w.own b hb
      rw [ho] at this
      cases hr : a.ret b with
      | false => rfl
      | true => simp [hr] at this
    have w' : W { s with ext := upd s.ext b (s.ext b + 1) } { a with deg := upd a.deg b (a.deg b + 1) } := by
      refine ⟨rfl, w.nodup, w.live, w.tgt, fun x hx => ?_, fun x hx => ?_, w.own, fun x hx hr => ?_⟩
      · simp only [upd] at hx
        split at hx
        · rename_i e; rw [e]; exact hb
        · exact Rel.ext w x hx
      · have h2 : a.deg x = s.rc x := w.deg x hx
        show upd a.deg b (a.deg b + 1) x = refs s.kids s.D .rc x + upd s.ext b (s.ext b + 1) x
        by_cases e : x = b
        · subst e; simp only [upd, if_true, h2, Spec.rc]; omega
        · simp only [upd, e, if_false, h2, Spec.rc]
      · have hxb : x ≠ b := by rintro rfl; have : a.ret x = true := hr; rw [hrb] at this; cases this
        have := w.excl x hx hr
        simp only [Spec.rc, upd, hxb, if_false] at this ⊢
        exact this
    have hl : c.live b = true := by rw [S.live]; exact (w.live b).2 hb
    have S' := S.left hs (a.deg b + 1)
    simp only [incrIndegree, incrRc, hl, if_true]
    split
    · exact ⟨_, _, rfl, w', S', rfl, rfl⟩
    · exact ⟨_, _, rfl, w', S'.right hs _, rfl, rfl⟩
  · obtain ⟨a', e, w'⟩ := w.hold hb ho hlt
    obtain ⟨c', f, S'⟩ := S.incr e
    exact ⟨a', c', f, w', S', (incr_frame e).1, (incr_frame e).2⟩

/-- the program, or a tuple, takes a reference -/
theorem hold_ok {X : JS} {C : JHeap} (J : JG sg eqv oth X C) {v : Nat} (hv : v ∈ X.x.s.D) (hr : Few sg X v 1) :
    ∃ c, incrIndegree C.m.h (.rc, some v) = .ok c ∧ JG sg eqv oth (X.hold v) (C.on c) := by
  obtain ⟨A, G, S⟩ := J.mem
  obtain ⟨a, c, f, w, S', hK, -⟩ := hold_any (W.of G.rel) S.h hv (J.typed.own G v) hr
  have R : Rel (X.hold v).x.s a := w.to (by rw [hK]; exact G.rel.kids)
  refine ⟨c, f, J.typed.sub rfl rfl rfl rfl (fun y hy => hy) (fun s hs => ?_),
    ⟨{ A with h := a }, ⟨R, G.maps, fun y hy hM => (G.wf y hy hM).frame rfl⟩, S', S.maps, S.other⟩, J.tag, J.single, J.foreign⟩
  have := (J.typed.static s hs).1
  simp only [JS.hold, upd]
  split
  · omega
  · exact this

theorem JG.notStatic {X : JS} {C : JHeap} (J : JG sg eqv oth X C) {k : Nat} (hk : X.kind k = .raw) : sg k = false := by
  cases h : sg k with
  | false => rfl
  | true =>
    obtain ⟨-, t, ht, -⟩ := J.typed.static k h
    rw [hk] at ht; cases ht

/-- a reference goes that is not the last one -/
theorem unhold_ok {X : JS} {C : JHeap} (J : JG sg eqv oth (X.hold k) C) (hk : k ∈ X.x.s.D) (hkk : X.kind k = .raw)
    (hr : 0 < X.x.s.rc k) (fuel : Nat) :
    ∃ c, delRefWith (traceS sg fuel) C.m.h (some k) = .ok (some c) ∧ JG sg eqv oth X (C.on c) := by
  obtain ⟨A, G, S⟩ := J.mem
  have hs := J.notStatic (k := k) hkk
  have hl : C.m.h.live k = true := (J.live k).2 hk
  have hA : A.h.ret k = false := by
    have := G.rel.own k hk
    rw [J.typed.own G k] at this
    cases h : A.h.ret k with
    | false => rfl
    | true => simp [h] at this
  have hret : C.m.h.ret k = false := by rw [S.h.ret k hs]; exact hA
  have hdegA : A.h.deg k = X.x.s.rc k + 1 := by
    have := G.rel.deg k hk
    rw [this, hold_rc, if_pos rfl]
  have hdeg : C.m.h.deg k = X.x.s.rc k + 1 := by rw [S.h.deg k hs]; exact hdegA
  have hR : Rel X.x.s { A.h with deg := upd A.h.deg k (X.x.s.rc k) } := by
    refine ⟨G.rel.kids, G.rel.nodup, G.rel.live, G.rel.tgt, fun x hx => G.rel.ext x ?_, fun x hx => ?_, G.rel.own,
      fun x hx hh => ?_⟩
    · simp only [JS.hold, upd]
      split
      · omega
      · exact hx
    · by_cases e : x = k
      · subst e; simp [upd]
      · have := G.rel.deg x hx
        rw [hold_rc, if_neg e] at this
        simp only [upd, e, if_false]
        rw [this]; rfl
    · have := G.rel.excl x hx hh
      rw [hold_rc] at this
      omega
  refine ⟨{ C.m.h with deg := upd C.m.h.deg k (X.x.s.rc k) }, ?_, J.typed.sub rfl rfl rfl rfl (fun y hy => hy) (fun s hs' => ?_),
    ⟨{ A with h := { A.h with deg := upd A.h.deg k (X.x.s.rc k) } },
      ⟨hR, G.maps, fun y hy hM => (G.wf y hy hM).frame rfl⟩, S.h.degree k _ _ (fun _ => rfl), S.maps, S.other⟩,
    J.tag, J.single, J.foreign⟩
  · rw [delRefWith, if_pos hl]
    have h1 : C.m.h.deg k ≠ 0 := by omega
    have h2 : upd C.m.h.deg k (C.m.h.deg k - 1) k ≠ 0 := by simp only [upd, if_true]; omega
    simp only [if_pos h1, hret, Bool.false_eq_true, if_false, if_neg h2]
    rw [hdeg, Nat.add_sub_cancel]
  · have := (J.typed.static s hs').1
    have hne : s ≠ k := by rintro rfl; rw [hs] at hs'; cases hs'
    simp only [JS.hold, upd, hne, if_false] at this
    exact this

/-- what the counts say about a map and its pairs -/
theorem flat_edges {X : JS} {C : JHeap} (J : JG sg eqv oth X C) {m : Nat} (hm : m ∈ X.x.s.D) (hkm : X.kind m = .map)
    {p : Nat × Ptr} (hp : p ∈ (X.x.maps m).pairs) :
    p.1 ∈ X.x.s.D ∧ X.kind p.1 = .raw ∧ 0 < refs X.x.s.kids X.x.s.D .rc p.1 ∧ ∃ v t, p.2 = some v ∧ v ∈ X.x.s.D ∧ X.kind v = .json t := by
  obtain ⟨A, G, S⟩ := J.mem
  have sh := J.typed.shape m hm
  rw [hkm] at sh
  obtain ⟨h1, h2, h3⟩ := sh
  have hM := (J.typed.isMap m hm).2 hkm
  obtain ⟨hk, v, t, hv, ht⟩ := h3 p hp
  obtain ⟨hD, hvD⟩ := Good.pair G hm hM h1 h2 hp
  refine ⟨hD, hk, ?_, v, t, hv, hvD v hv, ht⟩
  have wf := G.wf m hm hM
  have he : (Policy.rc, some p.1) ∈ X.x.s.kids m := by
    rw [wf.kids, MapC.flat]
    refine List.mem_append_right _ (List.mem_flatMap.2 ⟨p, hp, ?_⟩)
    rw [h1]; simp
  exact refs_pos hm he

theorem JG.putMap {X : JS} {C : JHeap} {Y : JS} {m : Nat} {c : MapC} (T : Typed sg (Y.put m c)) (J : JG sg eqv oth X C)
    (hD : Y.x.s.D = X.x.s.D) (hkind : Y.kind = X.kind) (hK : Y.x.s.kids = X.x.s.kids) (hmaps : Y.x.maps = X.x.maps)
    (hM : Y.x.isMap = X.x.isMap) (hc : c.kp = .rc) (hv : ∀ p ∈ c.pairs, p.2 ≠ none)
    (hp : (c.pairs.map (·.1)).Perm c.order) (hd : c.pairs.Pairwise (fun p q => eqv p.1 q.1 = false))
    {A : MHeap} (G : Good eqv X.x A) (S : SimM sg A C.m) {a c' : RHeap} (R : Rel (Y.put m c).x.s a) (S' : Sim sg a c') :
    JG sg eqv oth (Y.put m c) { C with m := { C.m.put m c with h := c' } } := by
  refine ⟨T, ⟨{ A with h := a, maps := upd A.maps m c }, ⟨R, ?_, fun y hy hy' => ?_⟩, S', ?_, S.other⟩, fun x hx => ?_, J.single,
    J.foreign⟩
  · rw [G.maps, ← hmaps]; rfl
  · by_cases h : y = m
    · subst h
      have e : (Y.put y c).x.maps y = c := by simp [JS.put, SM.put, upd]
      rw [e]
      exact ⟨by simp [JS.put, SM.put, upd], by rw [hc]; simp, fun p hp => .inr (hv p hp), hp, hd⟩
    · have e : (Y.put m c).x.maps y = X.x.maps y := by simp [JS.put, SM.put, upd, h, hmaps]
      rw [e]
      have hy1 : y ∈ X.x.s.D := hD ▸ hy
      have hy2 : X.x.isMap y = true := hM ▸ hy'
      exact (G.wf y hy1 hy2).frame (by simp [JS.put, SM.put, upd, h, hK])
  · show upd C.m.maps m c = upd A.maps m c
    rw [S.maps]
  · have hx : x ∈ X.x.s.D := hD ▸ hx
    rw [put_kind, hkind]; exact J.tag x hx

/-- a new key, whose tuple is counted already -/
theorem fresh_ok {X : JS} {C : JHeap} (E : Eqv eqv) {m k v : Nat} (T : Typed sg X) (J : JG sg eqv oth ((X.hold k).hold v) C) {t : Tag}
    (hm : m ∈ X.x.s.D) (hkm : X.kind m = .map) (hk : k ∈ X.x.s.D) (hkk : X.kind k = .raw) (hvt : X.kind v = .json t)
    (hn : look eqv (X.x.maps m) k = none) (hrc : X.x.s.rc k + 2 < 65536) :
    let c := X.x.maps m
    let c' := { c with order := c.order ++ [k], pairs := c.pairs ++ [(k, some v)] }
    ∃ h, incrIndegree (C.m.put m c').h (.rc, some k) = .ok h ∧
      JG sg eqv oth (X.put m c') { C with m := { C.m.put m c' with h := h } } ∧
      ∀ z, (X.put m c').x.s.rc z ≤ X.x.s.rc z + 2 := by
  intro c c'
  obtain ⟨A, G, S⟩ := J.mem
  have hM : X.x.isMap m = true := (J.typed.isMap m hm).2 hkm
  have wf : Wf eqv ((X.hold k).hold v).x.s m c := G.wf m hm hM
  have wk : X.x.s.kids m = c.flat := wf.kids
  have hvk : v ≠ k := by rintro rfl; rw [hkk] at hvt; cases hvt
  have sh := J.typed.shape m hm
  rw [show ((X.hold k).hold v).kind m = .map from hkm] at sh
  obtain ⟨s1, s2, s3⟩ : c.kp = .rc ∧ c.vp = .rc ∧ _ := sh
  have w1 : W (addEdge (X.hold k).x.s m (.rc, some v)) A.h := w_give (s := (X.hold k).x.s) (W.of G.rel) hm
  have w2 : W (addEdge (addEdge X.x.s m (.rc, some v)) m (.rc, some k)) A.h :=
    w_give (s := addEdge X.x.s m (.rc, some v)) w1 hm
  have hnd : X.x.s.D.Nodup := G.rel.nodup
  have hnd1 : (addEdge X.x.s m (.rc, some v)).D.Nodup := hnd
  have r1 : ∀ z, (addEdge X.x.s m (.rc, some v)).rc z = X.x.s.rc z + if v = z then 1 else 0 := by
    intro z
    have := addEdge_refs hnd hm (.rc, some v) .rc z
    simp only [Spec.rc, Prod.mk.injEq, true_and, Option.some.injEq] at this ⊢
    show refs (addEdge X.x.s m (.rc, some v)).kids X.x.s.D .rc z + X.x.s.ext z = _
    omega
  have r2 : ∀ z, (addEdge (addEdge X.x.s m (.rc, some v)) m (.rc, some k)).rc z =
      (addEdge X.x.s m (.rc, some v)).rc z + if k = z then 1 else 0 := by
    intro z
    have := addEdge_refs hnd1 (s := addEdge X.x.s m (.rc, some v)) hm (.rc, some k) .rc z
    simp only [Spec.rc, Prod.mk.injEq, true_and, Option.some.injEq] at this ⊢
    show refs (addEdge (addEdge X.x.s m (.rc, some v)) m (.rc, some k)).kids X.x.s.D .rc z + X.x.s.ext z = _
    have h : refs (addEdge (addEdge X.x.s m (.rc, some v)) m (.rc, some k)).kids X.x.s.D .rc z = _ := this
    rw [h]
    show _ = refs _ X.x.s.D .rc z + X.x.s.ext z + _
    have : (addEdge X.x.s m (.rc, some v)).D = X.x.s.D := rfl
    rw [this]; omega
  have o1 : ∀ z, X.x.s.own z = 0 := J.typed.own G
  have o2 : (addEdge (addEdge X.x.s m (.rc, some v)) m (.rc, some k)).own k = 0 := by
    rw [(addEdge_own (s := addEdge X.x.s m (.rc, some v)) hnd1 hm (e := (.rc, some k)) (by simp) k).1,
      (addEdge_own hnd hm (e := (.rc, some v)) (by simp) k).1]
    exact o1 k
  obtain ⟨a3, c3, f3, w3, S3, hK3, hL3⟩ := count_ok w2 S.h (y := m) hm (b := k) hk o2 (.inr (by
    rw [r2, r1, if_neg hvk, if_pos rfl]; omega))
  have hperm : ((addEdge (addEdge (addEdge X.x.s m (.rc, some v)) m (.rc, some k)) m (.rc, some k)).kids m).Perm c'.flat := by
    refine List.Perm.trans ?_ (flat_append c k (some v))
    rw [s1, s2]
    simp only [addEdge, upd, if_true, wk]
    rw [List.perm_iff_count]
    intro e
    simp only [List.count_append]
    omega
  have w4 := w3.perm hperm
  have hspec : ({ addEdge (addEdge (addEdge X.x.s m (.rc, some v)) m (.rc, some k)) m (.rc, some k) with
      kids := upd (addEdge (addEdge (addEdge X.x.s m (.rc, some v)) m (.rc, some k)) m (.rc, some k)).kids m c'.flat } : Spec) =
      (X.put m c').x.s := by
    simp only [addEdge, upd_upd, JS.put, SM.put]
  rw [hspec] at w4
  have hKC : C.m.h.kids = X.x.s.kids := J.kids
  have f3' := incrIndegree_kids f3 (upd X.x.s.kids m c'.flat)
  refine ⟨{ c3 with kids := upd X.x.s.kids m c'.flat }, ?_, ?_, fun z => ?_⟩
  · rw [MHeap.put, hKC]; exact f3'
  · refine JG.putMap (Y := X) (c := c') ?_ J rfl rfl rfl rfl rfl s1 ?_ ?_ ?_ G S (a := { a3 with kids := upd X.x.s.kids m c'.flat }) ?_
      (S3.put _)
    · exact T.put hkm ⟨s1, s2, fun p hp => by
        rcases List.mem_append.1 hp with hp | hp
        · exact s3 p hp
        · rw [List.mem_singleton] at hp
          subst hp
          exact ⟨hkk, v, t, rfl, hvt⟩⟩
    · intro p hp
      rcases List.mem_append.1 hp with hp | hp
      · exact (wf.vals p hp).resolve_left (by rw [s2]; simp)
      · rw [List.mem_singleton] at hp
        subst hp; simp
    · simpa [c'] using wf.perm.append_right [k]
    · refine List.pairwise_append.2 ⟨wf.dist, List.pairwise_singleton _ _, ?_⟩
      intro p hp q hq
      rw [List.mem_singleton] at hq
      subst hq
      have h1 : (X.x.maps m).pairs.find? (fun p => eqv k p.1) = none := by simpa [look] using hn
      have h0 := List.find?_eq_none.1 h1 p hp
      cases h : eqv p.1 k
      · rfl
      · exact absurd (E.symm _ _ h) (by simpa using h0)
    · exact W.to w4 rfl
  · have h1 := refs_upd (kids := X.x.s.kids) hnd hm c'.flat .rc z
    have h2 : c'.flat.count (Policy.rc, some z) = c.flat.count (Policy.rc, some z) + ([(Policy.rc, some k)] : List Edge).count (.rc, some z) +
        ([(Policy.rc, some v)] : List Edge).count (.rc, some z) + ([(Policy.rc, some k)] : List Edge).count (.rc, some z) :=
      ((flat_append c k (some v)).count_eq _).symm.trans (by rw [s1, s2]; simp only [List.count_append])
    rw [wk] at h1
    show refs (upd X.x.s.kids m c'.flat) X.x.s.D .rc z + X.x.s.ext z ≤ refs X.x.s.kids X.x.s.D .rc z + X.x.s.ext z + 2
    have cnt : ∀ y, ([(Policy.rc, some y)] : List Edge).count (.rc, some z) = if y = z then 1 else 0 := by
      intro y
      by_cases e : y = z
      · subst e; simp
      · rw [if_neg e]; exact List.count_eq_zero.2 (by simp; exact fun h => e h.symm)
    rw [cnt, cnt] at h2
    by_cases e1 : k = z
    · have e2 : v ≠ z := by rintro rfl; exact hvk e1.symm
      rw [if_pos e1, if_neg e2] at h2
      omega
    · rw [if_neg e1] at h2
      split at h2 <;> omega

/-- the value of a key is replaced by one that is counted already -/
theorem over_ok {Y : JS} {C : JHeap} {m k v old : Nat} (T : Typed sg Y) (J : JG sg eqv oth ((Y.hold k).hold v) C) {t : Tag}
    (hm : m ∈ Y.x.s.D) (hkm : Y.kind m = .map) (hvt : Y.kind v = .json t) {a z : List (Nat × Ptr)} {p : Nat × Ptr}
    (hl : (Y.x.maps m).pairs = a ++ p :: z) (hp2 : p.2 = some old) :
    let c := Y.x.maps m
    let c' := { c with pairs := a ++ (p.1, some v) :: z }
    ∃ h, decrIndegree (C.m.put m c').h (.rc, some old) = .ok h ∧
      JG sg eqv oth ((Y.put m c').hold k) { C with m := { C.m.put m c' with h := h } } ∧
      ∀ x, (Y.put m c').x.s.rc x ≤ Y.x.s.rc x + if x = v then 1 else 0 := by
  intro c c'
  obtain ⟨A, G, S⟩ := J.mem
  have hM : Y.x.isMap m = true := (J.typed.isMap m hm).2 hkm
  have wf : Wf eqv ((Y.hold k).hold v).x.s m c := G.wf m hm hM
  have wk : Y.x.s.kids m = c.flat := wf.kids
  have sh := J.typed.shape m hm
  rw [show ((Y.hold k).hold v).kind m = .map from hkm] at sh
  obtain ⟨s1, s2, s3⟩ : c.kp = .rc ∧ c.vp = .rc ∧ _ := sh
  have w1 : W (addEdge (Y.hold k).x.s m (.rc, some v)) A.h := w_give (s := (Y.hold k).x.s) (W.of G.rel) hm
  have hnd : Y.x.s.D.Nodup := G.rel.nodup
  have hfl : (c.flat ++ [(Policy.rc, some v)]).Perm ((Policy.rc, some old) :: c'.flat) := by
    have := flat_replace c a z p (some v) hl
    rw [hp2] at this
    have e1 : ∀ q : Ptr, (c.vp, q) = (Policy.rc, q) := fun q => by rw [s2]
    rw [e1, e1] at this
    exact this
  obtain ⟨a3, e3, w3⟩ := w1.decr (y := m) hm (e := (.rc, some old)) (es := c'.flat) (by
    simp only [addEdge, upd, if_true, hold_kids, wk]; exact hfl) (.inr (by simp))
  obtain ⟨c3, f3, S3⟩ := S.h.decr e3
  have hKC : C.m.h.kids = Y.x.s.kids := J.kids
  have f3' := decrIndegree_kids f3 (upd Y.x.s.kids m c'.flat)
  have hkeys : (a ++ (p.1, some v) :: z).map (·.1) = c.pairs.map (·.1) := by rw [hl]; simp
  refine ⟨{ c3 with kids := upd Y.x.s.kids m c'.flat }, ?_, ?_, fun x => ?_⟩
  · rw [MHeap.put, hKC]; exact f3'
  · refine JG.putMap (Y := Y.hold k) (c := c') ?_ J rfl rfl rfl rfl rfl s1 ?_ ?_ ?_ G S
      (a := { a3 with kids := upd Y.x.s.kids m c'.flat }) ?_ (S3.put _)
    · have T' : Typed sg (Y.hold k) := by
        refine T.sub rfl rfl rfl rfl (fun y hy => hy) fun s hs => ?_
        have := (T.static s hs).1
        simp only [JS.hold, upd]
        split
        · omega
        · exact this
      refine T'.put hkm ⟨s1, s2, fun q hq => ?_⟩
      rcases List.mem_append.1 hq with hq | hq
      · exact s3 q (by show q ∈ (Y.x.maps m).pairs; rw [hl]; simp [hq])
      · rcases List.mem_cons.1 hq with rfl | hq
        · exact ⟨(s3 p (by show p ∈ (Y.x.maps m).pairs; rw [hl]; simp)).1, v, t, rfl, hvt⟩
        · exact s3 q (by show q ∈ (Y.x.maps m).pairs; rw [hl]; simp [hq])
    · intro q hq
      have hv := fun q hq => (wf.vals q hq).resolve_left (by rw [s2]; simp)
      rcases List.mem_append.1 hq with hq | hq
      · exact hv q (by rw [hl]; simp [hq])
      · rcases List.mem_cons.1 hq with rfl | hq
        · simp
        · exact hv q (by rw [hl]; simp [hq])
    · show ((a ++ (p.1, some v) :: z).map (·.1)).Perm c.order
      rw [hkeys]; exact wf.perm
    · have h0 : (c.pairs.map (·.1)).Pairwise (fun x y => eqv x y = false) := List.pairwise_map.2 wf.dist
      rw [← hkeys] at h0
      exact List.pairwise_map.1 h0
    · have := w3
      rw [W] at this
      simp only [addEdge, upd_upd] at this
      exact this
  · have h1 := refs_upd (kids := Y.x.s.kids) hnd hm c'.flat .rc x
    have h2 := hfl.count_eq (Policy.rc, some x)
    rw [wk] at h1
    rw [List.count_append] at h2
    have h3 : c'.flat.count (Policy.rc, some x) ≤ ((Policy.rc, some old) :: c'.flat).count (Policy.rc, some x) := List.count_le_count_cons
    show refs (upd Y.x.s.kids m c'.flat) Y.x.s.D .rc x + Y.x.s.ext x ≤ refs Y.x.s.kids Y.x.s.D .rc x + Y.x.s.ext x + _
    have cnt : ([(Policy.rc, some v)] : List Edge).count (.rc, some x) = if x = v then 1 else 0 := by
      by_cases e : x = v
      · subst e; simp
      · rw [if_neg e]; exact List.count_eq_zero.2 (by simp; exact e)
    omega

end
end Verif.Rc.JsonProps
