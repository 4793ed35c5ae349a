import Verif.Rc.MergeHold

/-!
# C109: merging keeps the counts of all blocks
-/

namespace Verif.Rc.JsonProps
open Verif.Chain (upd)
open Verif.Rc.Props Verif.Rc.MapProps

/-- `b` entries may be added to `X`: counters are wide enough, except those of static blocks, and so are the indices of lists -/
structure Room (sg : Nat → Bool) (X : JS) (b : Nat) : Prop where
  few : ∀ v ∈ X.x.s.D, Few sg X v (2 * b)
  short : ∀ y ∈ X.x.s.D, X.kind y = .list → (X.x.s.kids y).length + b < 2 ^ 31

/-- what additions may do: no block goes; lists and maps get longer, and maps may have other values; the program may have
more references.  `b` and `b'` are the numbers of entries that might be added before and after. -/
structure Grow (X X' : JS) (b b' : Nat) : Prop where
  D : X'.x.s.D = X.x.s.D
  kind : X'.kind = X.kind
  ext : ∀ v, X.x.s.ext v ≤ X'.x.s.ext v
  rc : ∀ v, X'.x.s.rc v + 2 * b' ≤ X.x.s.rc v + 2 * b
  list : ∀ y ∈ X.x.s.D, X.kind y = .list → X.x.s.kids y <+: X'.x.s.kids y ∧ (X'.x.s.kids y).length + b' ≤ (X.x.s.kids y).length + b
  map : ∀ y ∈ X.x.s.D, X.kind y = .map → (X.x.maps y).order <+: (X'.x.maps y).order ∧
    (X.x.maps y).pairs.map (·.1) <+: (X'.x.maps y).pairs.map (·.1)
  rest : ∀ y ∈ X.x.s.D, X.kind y ≠ .list → X.kind y ≠ .map → X'.x.s.kids y = X.x.s.kids y

theorem hold_ext (X : JS) (v z : Nat) : (X.hold v).x.s.ext z = X.x.s.ext z + if z = v then 1 else 0 := by
  simp only [JS.hold, upd]
  split
  · subst_vars; rfl
  · rfl

/-- two values that `cee_json_merge` puts together (value.c:234, 241) -/
def Both (X : JS) (d s : Nat) : Prop :=
  (X.kind d = .json .object ∧ X.kind s = .json .object) ∨ (X.kind d = .json .array ∧ X.kind s = .json .array)

/-- what becomes of a map when `k` is given the value `v` -/
def put1 (eqv : Nat → Nat → Bool) (c : MapC) (k v : Nat) : MapC :=
  match findPair eqv k c.pairs with
  | none => { c with order := c.order ++ [k], pairs := c.pairs ++ [(k, some v)] }
  | some (a, p, z) => { c with pairs := a ++ (p.1, some v) :: z }

/-- `k` is not a key of `c`, or has another value there that is not to be put together with `v` -/
def Flat (eqv : Nat → Nat → Bool) (X : JS) (c : MapC) (k v : Nat) : Prop :=
  ∀ old, look eqv c k = some (some old) → old ≠ v ∧ ¬ Both X old v

/-- a JSON value -/
def JV (X : JS) (v : Nat) : Prop := v ∈ X.x.s.D ∧ ∃ t, X.kind v = .json t

section
variable {sg oth : Nat → Bool} {eqv : Nat → Nat → Bool}

theorem Grow.refl (X : JS) (b : Nat) : Grow X X b b :=
  ⟨rfl, rfl, fun _ => Nat.le_refl _, fun _ => Nat.le_refl _, fun _ _ _ => ⟨List.prefix_rfl, Nat.le_refl _⟩,
    fun _ _ _ => ⟨List.prefix_rfl, List.prefix_rfl⟩, fun _ _ _ _ => rfl⟩

theorem Grow.trans {X Y Z : JS} {a b c : Nat} (h : Grow X Y a b) (g : Grow Y Z b c) : Grow X Z a c := by
  refine ⟨g.D.trans h.D, g.kind.trans h.kind, fun v => Nat.le_trans (h.ext v) (g.ext v), fun v => Nat.le_trans (g.rc v) (h.rc v),
    fun y hy hk => ?_, fun y hy hk => ?_, fun y hy h1 h2 => ?_⟩
  · obtain ⟨p1, q1⟩ := h.list y hy hk
    obtain ⟨p2, q2⟩ := g.list y (by rw [h.D]; exact hy) (by rw [h.kind]; exact hk)
    exact ⟨p1.trans p2, Nat.le_trans q2 q1⟩
  · obtain ⟨p1, q1⟩ := h.map y hy hk
    obtain ⟨p2, q2⟩ := g.map y (by rw [h.D]; exact hy) (by rw [h.kind]; exact hk)
    exact ⟨p1.trans p2, q1.trans q2⟩
  · rw [g.rest y (by rw [h.D]; exact hy) (by rw [h.kind]; exact h1) (by rw [h.kind]; exact h2), h.rest y hy h1 h2]

theorem Room.grow {X X' : JS} {b b' : Nat} (R : Room sg X b) (g : Grow X X' b b') : Room sg X' b' := by
  refine ⟨fun v hv => ?_, fun y hy hk => ?_⟩
  · rw [g.D] at hv
    refine (R.few v hv).imp_right fun h => ?_
    have := g.rc v
    omega
  · rw [g.D] at hy
    rw [g.kind] at hk
    have := R.short y hy hk
    have := (g.list y hy hk).2
    omega

theorem JV.grow {X X' : JS} {b b' v : Nat} (h : JV X v) (g : Grow X X' b b') : JV X' v :=
  ⟨by rw [g.D]; exact h.1, by rw [g.kind]; exact h.2⟩

theorem JG.maps {X : JS} {C : JHeap} (J : JG sg eqv oth X C) : C.m.maps = X.x.maps := by
  obtain ⟨A, G, S⟩ := J.mem
  rw [S.maps, G.maps]

theorem JG.readable {X : JS} {C : JHeap} (J : JG sg eqv oth X C) {m k : Nat} (hm : m ∈ X.x.s.D) (hkm : X.kind m = .map)
    (hk : k ∈ X.x.s.D) : readable C.m m k = true := by
  obtain ⟨A, G, S⟩ := J.mem
  rw [S.readable]
  exact readable_of (h := A.h) (G.wf m hm ((J.typed.isMap m hm).2 hkm)) G.maps G.rel rfl hm hk

/-! ### arrays -/

theorem append_grow {X : JS} {C : JHeap} (J : JG sg eqv oth X C) {l v : Nat} (hl : l ∈ X.x.s.D) (hk : X.kind l = .list) (b : Nat) :
    Grow X (stepM eqv X (.plain (.append l (.rc, some v)))) (b + 1) b := by
  obtain ⟨A, G, S⟩ := J.mem
  refine ⟨rfl, rfl, fun _ => Nat.le_refl _, fun z => ?_, fun y hy hy' => ?_, fun y hy hy' => ⟨List.prefix_rfl, List.prefix_rfl⟩,
    fun y hy h1 h2 => ?_⟩
  · have := (addEdge_own G.rel.nodup hl (e := (.rc, some v)) (by simp) z).2
    show (addEdge X.x.s l (.rc, some v)).rc z + _ ≤ _
    omega
  · simp only [stepM, mstep, specStep, addEdge, upd]
    split
    · rename_i e; subst e
      exact ⟨List.prefix_append _ _, by simp; omega⟩
    · exact ⟨List.prefix_rfl, by omega⟩
  · simp only [stepM, mstep, specStep, addEdge, upd]
    rw [if_neg (by rintro rfl; exact h1 hk)]

theorem listMerge_ok (d s : Nat) : ∀ (b i : Nat) {X : JS} {C : JHeap}, JG sg eqv oth X C → Room sg X b →
    d ∈ X.x.s.D → s ∈ X.x.s.D → X.kind d = .list → X.kind s = .list →
    (listMerge d s b i C.m.h = .ok none ∧ (d ≠ s → b + i < (X.x.s.kids s).length)) ∨
    ∃ c b' X', listMerge d s b i C.m.h = .ok (some (c, b')) ∧ JG sg eqv oth X' (C.on c) ∧ Grow X X' b b' ∧
      (d ≠ s → b' + ((X.x.s.kids s).length - i) = b ∧ X'.x.s.ext = X.x.s.ext ∧ X'.x.maps = X.x.maps ∧
        X'.x.s.kids = upd X.x.s.kids d (X.x.s.kids d ++ (X.x.s.kids s).drop i)) := by
  intro b
  induction b with
  | zero =>
    intro i X C J R hd hs kd ks
    rw [listMerge, if_pos ((J.live s).2 hs)]
    cases hi : (C.m.h.kids s)[i]? with
    | none =>
      rw [J.kids] at hi
      have hle := List.getElem?_eq_none_iff.1 hi
      exact .inr ⟨_, _, X, rfl, J, .refl X 0, fun _ => ⟨by omega, rfl, rfl, by rw [List.drop_eq_nil_of_le hle, List.append_nil, upd_self]⟩⟩
    | some e =>
      rw [J.kids] at hi
      obtain ⟨hlt, -⟩ := List.getElem?_eq_some_iff.1 hi
      exact .inl ⟨rfl, fun _ => by omega⟩
  | succ b ih =>
    intro i X C J R hd hs kd ks
    rw [listMerge, if_pos ((J.live s).2 hs)]
    cases hi : (C.m.h.kids s)[i]? with
    | none =>
      rw [J.kids] at hi
      have hle := List.getElem?_eq_none_iff.1 hi
      exact .inr ⟨_, _, X, rfl, J, .refl X _, fun _ => ⟨by omega, rfl, rfl, by rw [List.drop_eq_nil_of_le hle, List.append_nil, upd_self]⟩⟩
    | some e =>
      rw [J.kids] at hi
      have hm := List.mem_of_getElem? hi
      obtain ⟨v, t, rfl, hv⟩ := J.elems hs ks e hm
      obtain ⟨A, G, S⟩ := J.mem
      have hvD := Good.tgt G hs hm
      obtain ⟨hlt, hge⟩ := List.getElem?_eq_some_iff.1 hi
      have hsh := R.short s hs ks
      obtain ⟨c, f, J'⟩ := append_ok J hd kd (v := v) ⟨hvD, ⟨t, hv⟩, (R.few v hvD).imp_right fun h => by omega⟩
      have g := append_grow J hd kd (v := v) b
      simp only [f, Res.bind_ok]
      rw [if_neg (by omega)]
      have R' := R.grow g
      have hks : d ≠ s → (stepM eqv X (.plain (.append d (.rc, some v)))).x.s.kids s = X.x.s.kids s := fun h => by
        simp only [stepM, mstep, specStep, addEdge, upd]
        rw [if_neg (fun e => h e.symm)]
      rcases ih (i + 1) J' R' hd hs kd ks with ⟨h, hn⟩ | ⟨c', b', X', h, J'', g', hx⟩
      · exact .inl ⟨h, fun e => by have := hn e; rw [hks e] at this; omega⟩
      · refine .inr ⟨c', b', X', h, J'', g.trans g', fun e => ?_⟩
        obtain ⟨h1, h2, h3, h4⟩ := hx e
        rw [hks e] at h1 h4
        refine ⟨by omega, h2, h3, ?_⟩
        rw [h4]
        simp only [stepM, mstep, specStep, addEdge, upd_upd]
        congr 1
        simp only [upd, if_true]
        rw [List.drop_eq_getElem_cons hlt, hge, List.append_assoc]
        rfl

/-! ### objects -/

/-- `cee_json_merge` of two values, as `addKv` sees it -/
def RecOk (sg oth : Nat → Bool) (eqv : Nat → Nat → Bool) (rec : Nat → JHeap → Ptr → Ptr → Res (Option (JHeap × Nat × Bool))) : Prop :=
  ∀ (b : Nat) (X : JS) (C : JHeap) (d s : Nat), JG sg eqv oth X C → Room sg X b → JV X d → JV X s →
    (rec b C (some d) (some s) = .ok none ∧ Both X d s) ∨ ∃ C' b' r X', rec b C (some d) (some s) = .ok (some (C', b', r)) ∧
      JG sg eqv oth X' C' ∧ Grow X X' b b' ∧ (r = false → X' = X ∧ C' = C) ∧
      (¬ Both X d s → rec b C (some d) (some s) = .ok (some (C, b, false)))

theorem find_of_key {k q : Nat} {l : List (Nat × Ptr)} (hq : q ∈ l.map (·.1)) (he : eqv k q = true) :
    ∃ a p z, findPair eqv k l = some (a, p, z) := by
  cases h : findPair eqv k l with
  | none =>
    obtain ⟨p, hp, rfl⟩ := List.mem_map.1 hq
    have := List.find?_eq_none.1 (findPair_none.1 h) p hp
    exact absurd he (by simpa using this)
  | some r => exact ⟨r.1, r.2.1, r.2.2, rfl⟩

/-- the key of an entry of `sm` stays when it is not held any more -/
theorem endKey_ok {Z : JS} {C : JHeap} {sm k : Nat} (J : JG sg eqv oth (Z.hold k) C) (hsm : sm ∈ Z.x.s.D) (hks : Z.kind sm = .map)
    (hk : k ∈ (Z.x.maps sm).pairs.map (·.1)) (fuel : Nat) :
    ∃ c, delE (traceS sg fuel) C.m.h (.rc, some k) = .ok (some c) ∧ JG sg eqv oth Z (C.on c) := by
  obtain ⟨p, hp, rfl⟩ := List.mem_map.1 hk
  obtain ⟨h1, h2, h3, -⟩ := flat_edges J (m := sm) hsm hks hp
  have h3 : 0 < refs Z.x.s.kids Z.x.s.D .rc p.1 := h3
  exact unhold_ok J h1 h2 (by rw [Spec.rc]; omega) fuel

theorem addKv_ok (E : Eqv eqv) {rec : Nat → JHeap → Ptr → Ptr → Res (Option (JHeap × Nat × Bool))} (hrec : RecOk sg oth eqv rec)
    (fuel b : Nat) {X : JS} {C : JHeap} (J : JG sg eqv oth X C) (R : Room sg X b) {m sm k v : Nat} (hm : m ∈ X.x.s.D)
    (hkm : X.kind m = .map) (hsm : sm ∈ X.x.s.D) (hks : X.kind sm = .map) (hk : k ∈ (X.x.maps sm).pairs.map (·.1)) (hv : JV X v) :
    (addKv rec eqv fuel b C m k (some v) = .ok none ∧ (Flat eqv X (X.x.maps m) k v → b = 0)) ∨
    ∃ C' b' X', addKv rec eqv fuel b C m k (some v) = .ok (some (C', b')) ∧ JG sg eqv oth X' C' ∧ Grow X X' b b' ∧
      (Flat eqv X (X.x.maps m) k v → X' = X.put m (put1 eqv (X.x.maps m) k v) ∧ b' + 1 = b) := by
  cases b with
  | zero => exact .inl ⟨rfl, fun _ => rfl⟩
  | succ b =>
    obtain ⟨q, hq, hqk⟩ := List.mem_map.1 hk
    obtain ⟨hkD, hkk, -, -⟩ := flat_edges J hsm hks hq
    rw [hqk] at hkD hkk
    obtain ⟨hvD, t, hvt⟩ := hv
    have hvk : v ≠ k := by rintro rfl; rw [hkk] at hvt; cases hvt
    obtain ⟨hM, ord, prs, hc⟩ := J.map hm hkm
    have hkp : (X.x.maps m).kp = .rc := by rw [hc]
    have hvp : (X.x.maps m).vp = .rc := by rw [hc]
    obtain ⟨c1, f1, J1⟩ := hold_ok J hkD ((R.few k hkD).imp_right fun h => by omega)
    obtain ⟨c2, f2, J2⟩ := hold_ok J1 (v := v) hvD ((R.few v hvD).imp_right fun h => by
      rw [hold_rc, if_neg hvk]; omega)
    have hrd := J2.readable (m := m) (k := k) hm hkm hkD
    have f2' : incrIndegree c1 (.rc, some v) = .ok c2 := f2
    have hrd' : readable (C.on c2).m m k = true := hrd
    have hC2 : (C.on c1).on c2 = C.on c2 := rfl
    rw [hC2] at J2
    have hmaps2 : (C.on c2).m.maps = X.x.maps := J2.maps
    simp only [addKv, (J.live m).2 hm, if_true, J.maps, hkp, hvp, f1, Res.bind_ok, f2', hrd']
    have gH : Grow X ((X.hold k).hold v) (b + 1) b := by
      refine ⟨rfl, rfl, fun z => ?_, fun z => ?_, fun y hy hy' => ⟨List.prefix_rfl, by rw [hold_kids, hold_kids]; omega⟩,
        fun y hy hy' => ⟨List.prefix_rfl, List.prefix_rfl⟩, fun y hy h1 h2 => rfl⟩
      · rw [hold_ext, hold_ext]; omega
      · rw [hold_rc, hold_rc]
        split <;> split <;> omega
    cases hfp : findPair eqv k (X.x.maps m).pairs with
    | none =>
      have hn : look eqv (X.x.maps m) k = none := by
        rw [look, findPair_none.1 hfp]; rfl
      have hsk := J.notStatic hkk
      have hfew : X.x.s.rc k + 2 < 65536 := by
        have := (R.few k hkD).resolve_left (by simp [hsk])
        omega
      obtain ⟨h, f3, J3, r3⟩ := fresh_ok E J.typed J2 hm hkm hkD hkk hvt hn hfew
      simp only [hkp, hvp] at f3 J3 r3
      refine .inr ⟨_, b, _, by simp only [f3]; rfl, J3, ⟨rfl, rfl, fun _ => Nat.le_refl _, fun z => ?_, fun y hy hy' => ?_,
        fun y hy hy' => ?_, fun y hy h1 h2 => ?_⟩, fun _ => ⟨?_, rfl⟩⟩
      · have := r3 z; omega
      · have : y ≠ m := by rintro rfl; rw [hkm] at hy'; cases hy'
        simp only [JS.put, SM.put, upd, this, if_false]
        exact ⟨List.prefix_rfl, by omega⟩
      · simp only [JS.put, SM.put, upd]
        split
        · rename_i e; subst e
          refine ⟨List.prefix_append _ _, ?_⟩
          rw [List.map_append]; exact List.prefix_append _ _
        · exact ⟨List.prefix_rfl, List.prefix_rfl⟩
      · have : y ≠ m := by rintro rfl; exact h2 hkm
        simp only [JS.put, SM.put, upd, this, if_false]
      · rw [put1, hfp, hkp, hvp]
    | some r =>
      obtain ⟨a, p, z⟩ := r
      obtain ⟨hl, hkp', ha, hfd⟩ := findPair_some hfp
      have hpm : p ∈ (X.x.maps m).pairs := by rw [hl]; simp
      obtain ⟨-, -, -, old, ot, hp2, holdD, hot⟩ := flat_edges J hm hkm hpm
      simp only [hp2]
      have R2 : Room sg ((X.hold k).hold v) b := R.grow gH
      have hlook : look eqv (X.x.maps m) k = some (some old) := by
        rw [look, hfd, ← hp2]; rfl
      rcases hrec b _ _ old v J2 R2 ⟨holdD, ot, hot⟩ ⟨hvD, t, hvt⟩ with ⟨h, hb⟩ | ⟨C3, b3, r3, X3, h, J3, g3, hfalse, hflat⟩
      · rw [h]; exact .inl ⟨rfl, fun F => absurd hb (F old hlook).2⟩
      rw [h]
      simp only [Res.bind_ok]
      -- the references held
      have e3 := g3.ext
      have hk3 : 0 < X3.x.s.ext k := by
        have := e3 k
        rw [hold_ext, hold_ext, if_pos rfl] at this
        omega
      obtain ⟨Z, hZ⟩ : ∃ Z : JS, Z = { X3 with x := { X3.x with s := { X3.x.s with ext := upd X3.x.s.ext k (X3.x.s.ext k - 1) } } } := ⟨_, rfl⟩
      have hZk : Z.kind = X3.kind := by rw [hZ]
      have hZD : Z.x.s.D = X3.x.s.D := by rw [hZ]
      have hZK : Z.x.s.kids = X3.x.s.kids := by rw [hZ]
      have hZm : Z.x.maps = X3.x.maps := by rw [hZ]
      have hX3 : X3 = Z.hold k := by
        rw [hZ]
        have : upd (upd X3.x.s.ext k (X3.x.s.ext k - 1)) k (upd X3.x.s.ext k (X3.x.s.ext k - 1) k + 1) = X3.x.s.ext := by
          rw [upd_upd]
          have e : upd X3.x.s.ext k (X3.x.s.ext k - 1) k + 1 = X3.x.s.ext k := by simp only [upd, if_true]; omega
          rw [e, upd_self]
        simp only [JS.hold, this]
      have hm3 : m ∈ X3.x.s.D := by rw [g3.D]; exact hm
      have hkm3 : X3.kind m = .map := by rw [g3.kind]; exact hkm
      have hsm3 : sm ∈ X3.x.s.D := by rw [g3.D]; exact hsm
      have hks3 : X3.kind sm = .map := by rw [g3.kind]; exact hks
      obtain ⟨-, ord3, prs3, hc3⟩ := J3.map hm3 hkm3
      have hpk : p.1 ∈ (X3.x.maps m).pairs.map (·.1) :=
        (g3.map m hm hkm).2.subset (List.mem_map.2 ⟨p, hpm, rfl⟩)
      obtain ⟨a3, p3, z3, hfp3⟩ := find_of_key hpk hkp'
      have hk3' : k ∈ (X3.x.maps sm).pairs.map (·.1) := (g3.map sm hsm hks).2.subset hk
      have keep : ∃ c, delE (traceS sg fuel) C3.m.h (.rc, some k) = .ok (some c) ∧ JG sg eqv oth Z (C3.on c) :=
        endKey_ok (Z := Z) (sm := sm) (by rw [← hX3]; exact J3) (by rw [hZD]; exact hsm3) (by rw [hZk]; exact hks3)
          (by rw [hZm]; exact hk3') fuel
      have gXZ : Grow X Z (b + 1) b3 := by
        have g := gH.trans g3
        refine ⟨by rw [hZD]; exact g.D, by rw [hZk]; exact g.kind, fun w => ?_, fun w => ?_, fun y hy hy' => ?_, fun y hy hy' => ?_,
          fun y hy h1 h2 => ?_⟩
        · have h1 := e3 w
          have h2 := hold_ext Z k w
          rw [hold_ext, hold_ext] at h1
          rw [← hX3] at h2
          omega
        · have h1 := g.rc w
          have h2 : X3.x.s.rc w = Z.x.s.rc w + if w = k then 1 else 0 := by
            have := hold_rc Z k w
            rw [← hX3] at this; exact this
          omega
        · rw [hZK]; exact g.list y hy hy'
        · rw [hZm]; exact g.map y hy hy'
        · rw [hZK]; exact g.rest y hy h1 h2
      have hfp3' : findPair eqv k prs3 = some (a3, p3, z3) := by rw [hc3] at hfp3; exact hfp3
      simp only [mergeEnd, J3.maps, hc3, hfp3']
      by_cases hsame : r3 = true ∨ old = v
      · have hnv : (if r3 = true then some old else some v) = some old := by
          rcases hsame with h | h
          · rw [if_pos h]
          · rw [h]; simp
        obtain ⟨c, f, J4⟩ := keep
        simp only [hnv, ne_eq, not_true_eq_false, if_false, Res.bind_ok, J3.single, f, Res.map_ok', Option.map_some]
        refine .inr ⟨_, b3, Z, rfl, J4, gXZ, fun F => ?_⟩
        have hf := hflat (F old hlook).2
        rw [h] at hf
        rcases hsame with h | h
        · subst h; cases hf
        · exact absurd h (F old hlook).1
      · rw [not_or] at hsame
        obtain ⟨hr, hne⟩ := hsame
        obtain ⟨rfl, rfl⟩ := hfalse (by simpa using hr)
        have hl3 := (findPair_some hfp3).1
        have hfe : (a3, p3, z3) = (a, p, z) := by
          have : findPair eqv k (X.x.maps m).pairs = some (a3, p3, z3) := hfp3
          rw [hfp] at this
          exact (Option.some.inj this).symm
        cases hfe
        obtain ⟨h4, f4, J4, r4⟩ := over_ok (k := k) J.typed J2 hm hkm hvt hl hp2
        have hcX : X.x.maps m = ⟨.rc, .rc, ord3, prs3⟩ := hc3
        simp only [hcX] at f4 J4 r4
        have hmem : k ∈ ((X.put m ⟨.rc, .rc, ord3, a ++ (p.1, some v) :: z⟩).x.maps sm).pairs.map (·.1) := by
          simp only [JS.put, SM.put, upd]
          split
          · rename_i e
            subst e
            rw [hl] at hk
            simpa using hk
          · exact hk
        obtain ⟨c, f5, J5⟩ := endKey_ok (sm := sm) J4 hsm hks hmem fuel
        have hnv : (if r3 = true then some old else some v) ≠ some old := by
          rw [if_neg hr]; simpa using fun h : v = old => hne h.symm
        have hnv' : (if r3 = true then some old else some v) = some v := by rw [if_neg hr]
        rw [if_pos hnv]
        simp only [hnv', f4, Res.map_ok', Res.bind_ok, J3.single]
        simp only [f5, Res.map_ok', Option.map_some]
        simp only [J3.single] at J5
        refine .inr ⟨_, b3, X.put m ⟨.rc, .rc, ord3, a ++ (p.1, some v) :: z⟩, rfl, J5, ⟨rfl, rfl, fun _ => Nat.le_refl _, fun w => ?_,
          fun y hy hy' => ?_, fun y hy hy' => ?_, fun y hy h1 h2 => ?_⟩, fun F => ⟨?_, ?_⟩⟩
        · have h1 := r4 w
          have h2 := g3.rc w
          have : (if w = v then 1 else 0) ≤ 1 := by split <;> omega
          omega
        · have : y ≠ m := by rintro rfl; rw [hkm] at hy'; cases hy'
          have h2 := g3.rc 0
          simp only [JS.put, SM.put, upd, this, if_false]
          exact ⟨List.prefix_rfl, by omega⟩
        · simp only [JS.put, SM.put, upd]
          split
          · rename_i e; subst e
            rw [hcX] at hl ⊢
            have hl : prs3 = _ := hl
            refine ⟨List.prefix_rfl, ?_⟩
            rw [hl]; simp
          · exact ⟨List.prefix_rfl, List.prefix_rfl⟩
        · have : y ≠ m := by rintro rfl; exact h2 hkm
          simp only [JS.put, SM.put, upd, this, if_false]
        · rw [put1, hfp, hcX]
        · have hf := hflat (F old hlook).2
          rw [h] at hf
          cases hf; rfl

/-- every entry of `l` is one of `sm` -/
theorem addKvs_ok (E : Eqv eqv) {rec : Nat → JHeap → Ptr → Ptr → Res (Option (JHeap × Nat × Bool))} (hrec : RecOk sg oth eqv rec)
    (fuel : Nat) {m sm : Nat} : ∀ (l : List (Nat × Ptr)) (b : Nat) {X : JS} {C : JHeap}, JG sg eqv oth X C → Room sg X b →
    m ∈ X.x.s.D → X.kind m = .map → sm ∈ X.x.s.D → X.kind sm = .map →
    (∀ p ∈ l, p.1 ∈ (X.x.maps sm).pairs.map (·.1) ∧ ∃ v, p.2 = some v ∧ JV X v) →
    addKvs rec eqv fuel m l b C = .ok none ∨ ∃ C' b' X', addKvs rec eqv fuel m l b C = .ok (some (C', b')) ∧
      JG sg eqv oth X' C' ∧ Grow X X' b b' := by
  intro l
  induction l with
  | nil => intro b X C J R hm hkm hsm hks hl; exact .inr ⟨C, b, X, rfl, J, .refl X b⟩
  | cons p l ih =>
    intro b X C J R hm hkm hsm hks hl
    obtain ⟨hp, v, hpv, hv⟩ := hl p (by simp)
    rw [addKvs, hpv]
    rcases addKv_ok E hrec fuel b J R hm hkm hsm hks hp hv with ⟨h, -⟩ | ⟨C1, b1, X1, h, J1, g1, -⟩
    · rw [h]; exact .inl rfl
    rw [h]
    simp only [Res.bind_ok]
    rcases ih b1 J1 (R.grow g1) (by rw [g1.D]; exact hm) (by rw [g1.kind]; exact hkm) (by rw [g1.D]; exact hsm)
      (by rw [g1.kind]; exact hks) (fun q hq => by
        obtain ⟨h1, w, h2, h3⟩ := hl q (by simp [hq])
        exact ⟨(g1.map sm hsm hks).2.subset h1, w, h2, h3.grow g1⟩) with h | ⟨C2, b2, X2, h, J2, g2⟩
    · exact .inl h
    · exact .inr ⟨C2, b2, X2, h, J2, g1.trans g2⟩

theorem mergeJ_ok (E : Eqv eqv) (fuel : Nat) : ∀ (n b : Nat) (X : JS) (C : JHeap) (d s : Nat), JG sg eqv oth X C → Room sg X b →
    JV X d → JV X s →
    (mergeJ eqv fuel n b C (some d) (some s) = .ok none ∧ Both X d s) ∨
    ∃ C' b' r X', mergeJ eqv fuel n b C (some d) (some s) = .ok (some (C', b', r)) ∧
      JG sg eqv oth X' C' ∧ Grow X X' b b' ∧ (r = true ↔ Both X d s) ∧ (r = false → X' = X ∧ C' = C ∧ b' = b) := by
  intro n
  induction n with
  | zero =>
    intro b X C d s J R hd hs
    obtain ⟨hdD, td, hdt⟩ := hd
    obtain ⟨hsD, ts, hst⟩ := hs
    have ed : C.tag d = some td := by rw [J.tag d hdD, hdt]; rfl
    have es : C.tag s = some ts := by rw [J.tag s hsD, hst]; rfl
    rw [mergeJ.eq_def]
    simp only [(J.live d).2 hdD, (J.live s).2 hsD, Bool.and_self, if_true, ed, es, Option.some.injEq]
    by_cases ho : td = .object ∧ ts = .object
    · obtain ⟨rfl, rfl⟩ := ho
      rw [if_pos ⟨rfl, rfl⟩]; exact .inl ⟨rfl, .inl ⟨hdt, hst⟩⟩
    rw [if_neg ho]
    by_cases ha : td = .array ∧ ts = .array
    · obtain ⟨rfl, rfl⟩ := ha
      obtain ⟨-, hh, hlD, hlk, -⟩ := J.held (j := d) (t := .array) ⟨hdD, hdt⟩ (kd := .list) rfl
      obtain ⟨-, hh', hlD', hlk', -⟩ := J.held (j := s) (t := .array) ⟨hsD, hst⟩ (kd := .list) rfl
      simp only [hh, hh']
      rcases listMerge_ok _ _ b 0 J R hlD hlD' hlk hlk' with ⟨h, -⟩ | ⟨c, b', X', h, J', g, -⟩
      · rw [h]; exact .inl ⟨rfl, .inr ⟨hdt, hst⟩⟩
      · rw [h]
        exact .inr ⟨_, b', true, X', rfl, J', g, ⟨fun _ => .inr ⟨hdt, hst⟩, fun _ => rfl⟩, fun h => by cases h⟩
    · rw [if_neg ha]
      refine .inr ⟨C, b, false, X, rfl, J, .refl X b, ⟨fun h => absurd h (by simp), fun h => ?_⟩, fun _ => ⟨rfl, rfl, rfl⟩⟩
      rcases h with ⟨h1, h2⟩ | ⟨h1, h2⟩
      · rw [hdt] at h1; rw [hst] at h2; cases h1; cases h2; exact absurd ⟨rfl, rfl⟩ ho
      · rw [hdt] at h1; rw [hst] at h2; cases h1; cases h2; exact absurd ⟨rfl, rfl⟩ ha
  | succ n ih =>
    intro b X C d s J R hd hs
    obtain ⟨hdD, td, hdt⟩ := hd
    obtain ⟨hsD, ts, hst⟩ := hs
    have ed : C.tag d = some td := by rw [J.tag d hdD, hdt]; rfl
    have es : C.tag s = some ts := by rw [J.tag s hsD, hst]; rfl
    rw [mergeJ.eq_def]
    simp only [(J.live d).2 hdD, (J.live s).2 hsD, Bool.and_self, if_true, ed, es, Option.some.injEq]
    by_cases ho : td = .object ∧ ts = .object
    · rw [if_pos ho]
      obtain ⟨rfl, rfl⟩ := ho
      obtain ⟨-, hh, hlD, hlk, -⟩ := J.held (j := d) (t := .object) ⟨hdD, hdt⟩ (kd := .map) rfl
      obtain ⟨-, hh', hlD', hlk', hlv'⟩ := J.held (j := s) (t := .object) ⟨hsD, hst⟩ (kd := .map) rfl
      simp only [hh, hh', hlv', if_true, J.maps]
      have hrec : RecOk sg oth eqv (mergeJ eqv fuel n) := by
        intro b X C d s J R hd hs
        rcases ih b X C d s J R hd hs with h | ⟨C', b', r, X', h, J', g, h2, h3⟩
        · exact .inl h
        · refine .inr ⟨C', b', r, X', h, J', g, fun e => ⟨(h3 e).1, (h3 e).2.1⟩, fun e => ?_⟩
          have hr : r = false := by
            cases r
            · rfl
            · exact absurd (h2.1 rfl) e
          obtain ⟨-, e1, e2⟩ := h3 hr
          rw [h, e1, e2, hr]
      rcases addKvs_ok E hrec fuel (m := X.held d) (sm := X.held s) _ b J R hlD hlk hlD' hlk' (fun p hp => by
        obtain ⟨-, -, -, v, t, h1, h2, h3⟩ := flat_edges J hlD' hlk' hp
        exact ⟨List.mem_map.2 ⟨p, hp, rfl⟩, v, h1, h2, t, h3⟩) with h | ⟨c, b', X', h, J', g⟩
      · rw [h]; exact .inl ⟨rfl, .inl ⟨hdt, hst⟩⟩
      · rw [h]
        exact .inr ⟨_, b', true, X', rfl, J', g, ⟨fun _ => .inl ⟨hdt, hst⟩, fun _ => rfl⟩, fun h => by cases h⟩
    rw [if_neg ho]
    by_cases ha : td = .array ∧ ts = .array
    · obtain ⟨rfl, rfl⟩ := ha
      obtain ⟨-, hh, hlD, hlk, -⟩ := J.held (j := d) (t := .array) ⟨hdD, hdt⟩ (kd := .list) rfl
      obtain ⟨-, hh', hlD', hlk', -⟩ := J.held (j := s) (t := .array) ⟨hsD, hst⟩ (kd := .list) rfl
      simp only [hh, hh']
      rcases listMerge_ok _ _ b 0 J R hlD hlD' hlk hlk' with ⟨h, -⟩ | ⟨c, b', X', h, J', g, -⟩
      · rw [h]; exact .inl ⟨rfl, .inr ⟨hdt, hst⟩⟩
      · rw [h]
        exact .inr ⟨_, b', true, X', rfl, J', g, ⟨fun _ => .inr ⟨hdt, hst⟩, fun _ => rfl⟩, fun h => by cases h⟩
    · rw [if_neg ha]
      refine .inr ⟨C, b, false, X, rfl, J, .refl X b, ⟨fun h => absurd h (by simp), fun h => ?_⟩, fun _ => ⟨rfl, rfl, rfl⟩⟩
      rcases h with ⟨h1, h2⟩ | ⟨h1, h2⟩
      · rw [hdt] at h1; rw [hst] at h2; cases h1; cases h2; exact absurd ⟨rfl, rfl⟩ ho
      · rw [hdt] at h1; rw [hst] at h2; cases h1; cases h2; exact absurd ⟨rfl, rfl⟩ ha

theorem mergeJ_rec (E : Eqv eqv) (fuel n : Nat) : RecOk sg oth eqv (mergeJ eqv fuel n) := by
  intro b X C d s J R hd hs
  rcases mergeJ_ok E fuel n b X C d s J R hd hs with h | ⟨C', b', r, X', h, J', g, h2, h3⟩
  · exact .inl h
  · refine .inr ⟨C', b', r, X', h, J', g, fun e => ⟨(h3 e).1, (h3 e).2.1⟩, fun e => ?_⟩
    have hr : r = false := by
      cases r
      · rfl
      · exact absurd (h2.1 rfl) e
    obtain ⟨-, e1, e2⟩ := h3 hr
    rw [h, e1, e2, hr]

/-! ### values that are not put together -/

theorem look_put1 (E : Eqv eqv) (c : MapC) (k v q : Nat) :
    look eqv (put1 eqv c k v) q = if eqv q k then some (some v) else look eqv c q := by
  rw [put1]
  cases h : findPair eqv k c.pairs with
  | none =>
    simp only [look, List.find?_append]
    cases hq : eqv q k
    · simp [hq]
    · have : c.pairs.find? (fun p => eqv q p.1) = none := by
        rw [List.find?_eq_none]
        intro p hp hh
        have := List.find?_eq_none.1 (findPair_none.1 h) p hp
        exact this (E.trans _ _ _ (E.symm _ _ hq) hh)
      simp [this, hq]
  | some r =>
    obtain ⟨a, p, z⟩ := r
    obtain ⟨hl, hk, ha, -⟩ := findPair_some h
    simp only [look, hl, List.find?_append, List.find?_cons]
    cases hq : eqv q k
    · have : eqv q p.1 = false := by
        cases h' : eqv q p.1
        · rfl
        · rw [← hq, E.trans _ _ _ h' (E.symm _ _ hk)]
      simp [this]
    · have h1 : eqv q p.1 = true := E.trans _ _ _ hq hk
      have h2 : a.find? (fun p => eqv q p.1) = none := by
        rw [List.find?_eq_none]
        intro r hr hh
        exact absurd (ha r hr) (by simp [E.trans _ _ _ (E.symm _ _ hq) hh])
      simp [h1, h2]

theorem put1_order (c : MapC) (k v : Nat) :
    (put1 eqv c k v).order = c.order ++ if look eqv c k = none then [k] else [] := by
  rw [put1]
  cases h : findPair eqv k c.pairs with
  | none =>
    have : look eqv c k = none := by rw [look, findPair_none.1 h]; rfl
    simp [this]
  | some r =>
    obtain ⟨a, p, z⟩ := r
    have : look eqv c k ≠ none := by rw [look, (findPair_some h).2.2.2]; simp
    simp [this]

theorem addKvs_flat (E : Eqv eqv) {rec : Nat → JHeap → Ptr → Ptr → Res (Option (JHeap × Nat × Bool))} (hrec : RecOk sg oth eqv rec)
    (fuel : Nat) {m sm : Nat} : ∀ (l : List (Nat × Ptr)) (b : Nat) {X : JS} {C : JHeap}, JG sg eqv oth X C → Room sg X b →
    m ∈ X.x.s.D → X.kind m = .map → sm ∈ X.x.s.D → X.kind sm = .map → l.length ≤ b →
    l.Pairwise (fun p q => eqv p.1 q.1 = false) →
    (∀ p ∈ l, p.1 ∈ (X.x.maps sm).pairs.map (·.1) ∧ ∃ v, p.2 = some v ∧ JV X v ∧ Flat eqv X (X.x.maps m) p.1 v) →
    ∃ C' X', addKvs rec eqv fuel m l b C = .ok (some (C', b - l.length)) ∧ JG sg eqv oth X' C' ∧ X'.x.s.D = X.x.s.D ∧
      X'.kind = X.kind ∧ X'.x.s.ext = X.x.s.ext ∧ (∀ y, y ≠ m → X'.x.s.kids y = X.x.s.kids y ∧ X'.x.maps y = X.x.maps y) ∧
      (X'.x.maps m).order = (X.x.maps m).order ++ (l.map (·.1)).filter (fun k => (look eqv (X.x.maps m) k).isNone) ∧
      ∀ k, look eqv (X'.x.maps m) k = ((l.find? (fun p => eqv k p.1)).map (·.2)).or (look eqv (X.x.maps m) k) := by
  intro l
  induction l with
  | nil =>
    intro b X C J R hm hkm hsm hks hb hd hl
    exact ⟨C, X, rfl, J, rfl, rfl, rfl, fun _ _ => ⟨rfl, rfl⟩, by simp, fun k => rfl⟩
  | cons p l ih =>
    intro b X C J R hm hkm hsm hks hb hd hl
    obtain ⟨hp, v, hpv, hv, hF⟩ := hl p (by simp)
    rw [List.length_cons] at hb
    rw [List.pairwise_cons] at hd
    rw [addKvs, hpv]
    rcases addKv_ok E hrec fuel b J R hm hkm hsm hks hp hv with ⟨-, h⟩ | ⟨C1, b1, X1, h, J1, g1, hx⟩
    · exact absurd (h hF) (by omega)
    obtain ⟨rfl, rfl⟩ := hx hF
    rw [h]
    simp only [Res.bind_ok]
    have hmap : (X.put m (put1 eqv (X.x.maps m) p.1 v)).x.maps m = put1 eqv (X.x.maps m) p.1 v := by
      simp only [JS.put, SM.put, upd, if_true]
    have hlk : ∀ q, look eqv ((X.put m (put1 eqv (X.x.maps m) p.1 v)).x.maps m) q =
        if eqv q p.1 then some (some v) else look eqv (X.x.maps m) q := fun q => by rw [hmap, look_put1 E]
    have hdl : ∀ q ∈ l, eqv q.1 p.1 = false := fun q hq => by
      cases h' : eqv q.1 p.1
      · rfl
      · rw [← hd.1 q hq, E.symm _ _ h']
    obtain ⟨C2, X2, f2, J2, hD, hK, hE, hO, hord, hL⟩ := ih b1 J1 (R.grow g1) hm hkm hsm hks (by omega) hd.2 (fun q hq => by
      obtain ⟨h1, w, h2, h3, h4⟩ := hl q (by simp [hq])
      refine ⟨(g1.map sm hsm hks).2.subset h1, w, h2, h3.grow g1, ?_⟩
      intro old ho
      rw [hlk, hdl q hq] at ho
      exact h4 old ho)
    refine ⟨C2, X2, by rw [f2, List.length_cons, Nat.add_sub_add_right], J2, hD, hK, hE, fun y hy => ?_, ?_, fun k => ?_⟩
    · obtain ⟨h1, h2⟩ := hO y hy
      rw [h1, h2]
      simp only [JS.put, SM.put, upd, hy, if_false, and_self]
    · rw [hord, hmap, put1_order, List.append_assoc, List.map_cons, List.filter_cons]
      congr 1
      have e : (l.map (·.1)).filter (fun k => (look eqv (put1 eqv (X.x.maps m) p.1 v) k).isNone) =
          (l.map (·.1)).filter (fun k => (look eqv (X.x.maps m) k).isNone) := by
        apply List.filter_congr
        intro k hk
        obtain ⟨q, hq, rfl⟩ := List.mem_map.1 hk
        rw [look_put1 E, hdl q hq]; rfl
      rw [e]
      cases hn : look eqv (X.x.maps m) p.1 <;> simp
    · rw [hL, hlk, List.find?_cons]
      cases hk : eqv k p.1
      · simp
      · have : l.find? (fun q => eqv k q.1) = none := by
          rw [List.find?_eq_none]
          intro q hq hh
          exact absurd (E.trans _ _ _ (E.symm _ _ hk) hh) (by simp [hd.1 q hq])
        simp [this, hpv]

/-! ### C109 -/

/-- **C109, whatever is put together.**  With room for `b` more references to every block, `cee_json_merge` on two values is defined
for a depth of calls and a number of entries that may be any (`ok none` tells that there are more); it returns true exactly for two
objects and for two arrays, and changes nothing otherwise; nothing is deleted, and all counts are right: `X'` has the same
blocks as `X`; lists and maps have what they had, in the same order, and possibly more, and keys of maps possibly have other values.

What is missing: the program may have more references afterwards (`ext`) than before.  These are references to values that were
put together with others, see `C109_leak_false`. -/
theorem C109_partial (E : Eqv eqv) (fuel n b : Nat) {X : JS} {C : JHeap} (J : JG sg eqv oth X C) (R : Room sg X b) {d s : Nat}
    (hd : JV X d) (hs : JV X s) :
    (mergeJ eqv fuel n b C (some d) (some s) = .ok none ∧ Both X d s) ∨
    ∃ C' b' r X', mergeJ eqv fuel n b C (some d) (some s) = .ok (some (C', b', r)) ∧ JG sg eqv oth X' C' ∧ Grow X X' b b' ∧
      (r = true ↔ Both X d s) ∧ (r = false → X' = X ∧ C' = C ∧ b' = b) :=
  mergeJ_ok E fuel n b X C d s J R hd hs

/-- **C109, objects.**  If the keys that both have, have values that are not put together (`Flat`: not two objects, not two arrays, not the
same value twice), then the destination has the keys of both, with the values of the source where there are such; its new keys come after the
old ones; the program has as many references to all blocks as before, and nothing else changes. -/
theorem C109_objects (E : Eqv eqv) (fuel n b : Nat) {X : JS} {C : JHeap} (J : JG sg eqv oth X C) (R : Room sg X b) {d s : Nat}
    (hd : IsA X d .object) (hs : IsA X s .object) (hb : (X.x.maps (X.held s)).pairs.length ≤ b)
    (hF : ∀ k v, (k, some v) ∈ (X.x.maps (X.held s)).pairs → Flat eqv X (X.x.maps (X.held d)) k v) :
    ∃ C' b' X', mergeJ eqv fuel (n + 1) b C (some d) (some s) = .ok (some (C', b', true)) ∧ JG sg eqv oth X' C' ∧
      X'.x.s.D = X.x.s.D ∧ X'.kind = X.kind ∧ X'.x.s.ext = X.x.s.ext ∧
      (∀ y, y ≠ X.held d → X'.x.s.kids y = X.x.s.kids y ∧ X'.x.maps y = X.x.maps y) ∧
      (X'.x.maps (X.held d)).order = (X.x.maps (X.held d)).order ++
        ((X.x.maps (X.held s)).pairs.map (·.1)).filter (fun k => (look eqv (X.x.maps (X.held d)) k).isNone) ∧
      ∀ k, look eqv (X'.x.maps (X.held d)) k =
        (look eqv (X.x.maps (X.held s)) k).or (look eqv (X.x.maps (X.held d)) k) := by
  obtain ⟨-, hh, hlD, hlk, -⟩ := J.held hd (kd := .map) rfl
  obtain ⟨-, hh', hlD', hlk', hlv'⟩ := J.held hs (kd := .map) rfl
  have ed : C.tag d = some .object := by rw [J.tag d hd.1, hd.2]; rfl
  have es : C.tag s = some .object := by rw [J.tag s hs.1, hs.2]; rfl
  obtain ⟨A, G, S⟩ := J.mem
  have wf := G.wf _ hlD' ((J.typed.isMap _ hlD').2 hlk')
  obtain ⟨C', X', f, J', hD, hK, hE, hO, hord, hL⟩ := addKvs_flat E (mergeJ_rec E fuel n) fuel (m := X.held d) (sm := X.held s) _ b J R hlD hlk
    hlD' hlk' hb wf.dist (fun p hp => by
      obtain ⟨-, -, -, v, t, h1, h2, h3⟩ := flat_edges J hlD' hlk' hp
      exact ⟨List.mem_map.2 ⟨p, hp, rfl⟩, v, h1, ⟨h2, t, h3⟩, hF p.1 v (by rw [← h1]; exact hp)⟩)
  refine ⟨C', b - (X.x.maps (X.held s)).pairs.length, X', ?_, J', hD, hK, hE, hO, hord, hL⟩
  rw [mergeJ.eq_def]
  simp only [(J.live d).2 hd.1, (J.live s).2 hs.1, Bool.and_self, if_true, ed, es, and_self, hh, hh', hlv', J.maps, f]
  rfl

/-- **C109, arrays.**  For two arrays with different lists the destination gets the elements of the source after its own; nothing else
changes. -/
theorem C109_arrays (fuel n b : Nat) {X : JS} {C : JHeap} (J : JG sg eqv oth X C) (R : Room sg X b) {d s : Nat}
    (hd : IsA X d .array) (hs : IsA X s .array) (hne : X.held d ≠ X.held s) (hb : (X.x.s.kids (X.held s)).length ≤ b) :
    ∃ C' b' X', mergeJ eqv fuel n b C (some d) (some s) = .ok (some (C', b', true)) ∧ JG sg eqv oth X' C' ∧
      X'.x.s.D = X.x.s.D ∧ X'.kind = X.kind ∧ X'.x.s.ext = X.x.s.ext ∧ X'.x.maps = X.x.maps ∧
      X'.x.s.kids = upd X.x.s.kids (X.held d) (X.x.s.kids (X.held d) ++ X.x.s.kids (X.held s)) := by
  obtain ⟨-, hh, hlD, hlk, -⟩ := J.held hd (kd := .list) rfl
  obtain ⟨-, hh', hlD', hlk', -⟩ := J.held hs (kd := .list) rfl
  have ed : C.tag d = some .array := by rw [J.tag d hd.1, hd.2]; rfl
  have es : C.tag s = some .array := by rw [J.tag s hs.1, hs.2]; rfl
  rcases listMerge_ok _ _ b 0 J R hlD hlD' hlk hlk' with ⟨-, h⟩ | ⟨c, b', X', h, J', g, hx⟩
  · exact absurd (h hne) (by omega)
  obtain ⟨-, h2, h3, h4⟩ := hx hne
  refine ⟨C.on c, b', X', ?_, J', g.D, g.kind, h2, h3, by simpa using h4⟩
  rw [mergeJ.eq_def]
  simp only [(J.live d).2 hd.1, (J.live s).2 hs.1, Bool.and_self, if_true, ed, es, reduceCtorEq, and_self, if_false, hh, hh', h]
  rfl

/-- **C109, memory.**  Merging frees nothing, and the count of no block is less than the number of references to it afterwards, so nothing
is freed too early later on. -/
theorem C109_memory (E : Eqv eqv) (fuel n b : Nat) {X : JS} {C : JHeap} (J : JG sg eqv oth X C) (R : Room sg X b) {d s : Nat}
    (hd : JV X d) (hs : JV X s) {C' : JHeap} {b' : Nat} {r : Bool}
    (h : mergeJ eqv fuel n b C (some d) (some s) = .ok (some (C', b', r))) :
    C'.m.h.live = C.m.h.live ∧ (∀ x, C.m.h.live x = true → C'.tag x = C.tag x) ∧
      ∀ x, C.m.h.live x = true → sg x = false →
        refs C'.m.h.kids X.x.s.D .rc x + X.x.s.ext x ≤ C'.m.h.deg x ∧ C'.m.h.deg x + 2 * b' ≤ C.m.h.deg x + 2 * b := by
  rcases mergeJ_ok E fuel n b X C d s J R hd hs with ⟨h', -⟩ | ⟨C1, b1, r1, X', h', J', g, -, -⟩
  · rw [h] at h'; cases h'
  rw [h] at h'
  cases h'
  obtain ⟨A, G, M⟩ := J.mem
  obtain ⟨A', G', M'⟩ := J'.mem
  refine ⟨?_, fun x hx => ?_, fun x hx hsx => ?_⟩
  · funext x
    rw [Bool.eq_iff_iff, J'.live, J.live, g.D]
  · have hx := (J.live x).1 hx
    rw [J.tag x hx, J'.tag x (by rw [g.D]; exact hx), g.kind]
  · have hx := (J.live x).1 hx
    rw [M.h.deg x hsx, M'.h.deg x hsx, G.rel.deg x hx, G'.rel.deg x (by rw [g.D]; exact hx)]
    refine ⟨?_, g.rc x⟩
    rw [Spec.rc, g.D, J'.kids]
    have := g.ext x
    omega

/-- **C109, `cee_json_merge_or_return`.**  Without a destination the source is taken for it, and is not counted; without a source nothing
happens; otherwise the two are merged.  True is returned if the source went into the destination. -/
theorem C109_or_return (E : Eqv eqv) (fuel n b : Nat) {X : JS} {C : JHeap} (J : JG sg eqv oth X C) (R : Room sg X b) {d s : Ptr}
    (hd : ∀ x, d = some x → JV X x) (hs : ∀ x, s = some x → JV X x) :
    mergeOrReturn eqv fuel n b C (some d) s = .ok none ∨
    ∃ C' r X' b', mergeOrReturn eqv fuel n b C (some d) s = .ok (some (C', some (d.or s), r)) ∧ JG sg eqv oth X' C' ∧ Grow X X' b b' ∧
      (r = true ↔ ∃ x, s = some x ∧ (d = none ∨ ∃ y, d = some y ∧ Both X y x)) ∧ (r = false ∨ d = none → X' = X ∧ C' = C) := by
  cases s with
  | none =>
    refine .inr ⟨C, false, X, b, by cases d <;> rfl, J, .refl X b, ⟨fun h => absurd h (by simp), ?_⟩, fun _ => ⟨rfl, rfl⟩⟩
    rintro ⟨x, h, -⟩; cases h
  | some s =>
    cases d with
    | none => exact .inr ⟨C, true, X, b, rfl, J, .refl X b, ⟨fun _ => ⟨s, rfl, .inl rfl⟩, fun _ => rfl⟩, fun _ => ⟨rfl, rfl⟩⟩
    | some d =>
      rw [mergeOrReturn]
      rcases mergeJ_ok E fuel n b X C d s J R (hd d rfl) (hs s rfl) with ⟨h, -⟩ | ⟨C', b', r, X', h, J', g, h2, h3⟩
      · rw [h]; exact .inl rfl
      · rw [h]
        refine .inr ⟨C', r, X', b', rfl, J', g, ?_, ?_⟩
        · rw [h2]
          refine ⟨fun h => ⟨s, rfl, .inr ⟨d, rfl, h⟩⟩, ?_⟩
          rintro ⟨x, hx, h | ⟨y, hy, h⟩⟩
          · cases h
          · cases hx; cases hy; exact h
        · rintro (h | h)
          · exact ⟨(h3 h).1, (h3 h).2.1⟩
          · cases h

end

/-! ### examples, and where the claim fails -/

/-- `{"1": 31}` at 11, and `{"1": 41, "2": null}` at 51 -/
def demoM : List JOp :=
  [.object 10 11, .setScalar 11 1 30 31 .number, .object 50 51, .setScalar 51 101 40 41 .string, .setStatic 51 2 900]

/-- `[true]` at 21 and `[31]` at 41 -/
def demoL : List JOp := [.array 20 21, .appendStatic 21 901, .array 40 41, .appendScalar 41 30 31 .number]

theorem room_of {sg : Nat → Bool} {X : JS} {b : Nat} (h1 : ∀ v ∈ X.x.s.D, X.x.s.rc v + 2 * b < 65536)
    (h2 : ∀ y ∈ X.x.s.D, X.kind y = .list → (X.x.s.kids y).length + b < 2 ^ 31) : Room sg X b :=
  ⟨fun v hv => .inr (h1 v hv), h2⟩

/-- the hypotheses of `C109_objects`, `C109_partial`, `C109_memory` and `C109_or_return` are met -/
example : ∃ X C, JG (fun x => [900, 901].contains x) eq2 oth2 X C ∧ Room (fun x => [900, 901].contains x) X 2 ∧ IsA X 11 .object ∧ IsA X 51 .object ∧
    (X.x.maps (X.held 51)).pairs.length ≤ 2 ∧
    (∀ k v, (k, some v) ∈ (X.x.maps (X.held 51)).pairs → Flat eq2 X (X.x.maps (X.held 11)) k v) ∧ JV X 11 ∧ JV X 51 := by
  obtain ⟨C, -, J⟩ := jexecAll_spec eq2_eqv demoM
    (start_good eq2 (S := [900, 901]) (ty := ty2) (by decide) (by decide) oth2) (by
      simp [demoM, JLegal, JOk, jstep, stepNew, stepTag, stepMap, stepM, mstep, specStep, mkBlock, addEdge, addEdges, IsA, OkVal, Few,
        JS.held, specJ, ty2, part, upd, look, stepAdd, SM.put, MapC.flat, eq2, Spec.rc, refs]) (fuel := 17)
    (by simp [specJ, demoM])
  refine ⟨_, C, J, room_of ?_ ?_, ?_, ?_, ?_, ?_, ?_, ?_⟩ <;>
  simp [demoM, jrun, jstep, stepNew, stepTag, stepMap, stepM, mstep, specStep, mkBlock, addEdge, addEdges, IsA, JV, Flat, Both,
    JS.held, specJ, upd, look, stepAdd, SM.put, MapC.flat, Spec.rc, refs, eq2]
  rintro k v (⟨-, rfl⟩ | ⟨-, rfl⟩) - <;> decide

/-- the hypotheses of `C109_arrays` are met -/
example : ∃ X C, JG (fun x => [900, 901].contains x) eq2 oth2 X C ∧ Room (fun x => [900, 901].contains x) X 2 ∧ IsA X 21 .array ∧ IsA X 41 .array ∧
    X.held 21 ≠ X.held 41 ∧ (X.x.s.kids (X.held 41)).length ≤ 2 := by
  obtain ⟨C, -, J⟩ := jexecAll_spec eq2_eqv demoL
    (start_good eq2 (S := [900, 901]) (ty := ty2) (by decide) (by decide) oth2) (by
      simp [demoL, JLegal, JOk, jstep, stepNew, stepTag, stepM, mstep, specStep, mkBlock, addEdge, addEdges, IsA, OkVal, Few,
        JS.held, specJ, ty2, part, upd, Spec.rc, refs]) (fuel := 14)
    (by simp [specJ, demoL])
  refine ⟨_, C, J, room_of ?_ ?_, ?_, ?_, ?_, ?_⟩ <;>
  simp [demoL, jrun, jstep, stepNew, stepTag, stepM, mstep, specStep, mkBlock, addEdge, addEdges, IsA,
    JS.held, specJ, upd, Spec.rc, refs]

/-- the run `r` ends in a memory with `P` -/
def holds {α : Type} (r : Res (Option α)) (P : α → Bool) : Bool :=
  match r with
  | .ok (some x) => P x
  | _ => false

theorem holds_iff {α : Type} {r : Res (Option α)} {P : α → Bool} : holds r P = true ↔ ∃ x, r = .ok (some x) ∧ P x = true := by
  constructor
  · intro h
    match r, h with
    | .ok (some x), h => exact ⟨x, rfl, h⟩
  · rintro ⟨x, rfl, h⟩; exact h

/-- what they do -/
example : holds (jexecAll eq2 40 (startJ [900, 901] ty2 oth2) demoM) (fun C => holds (mergeJ eq2 40 3 5 C (some 11) (some 51)) fun q =>
    decide (q.2 = (3, true) ∧ (q.1.m.maps 10).pairs = [(1, some 41), (2, some 900)] ∧
      (q.1.m.maps 10).order = [1, 2] ∧ (q.1.m.maps 50).pairs = [(101, some 41), (2, some 900)] ∧
      q.1.m.h.deg 41 = 2 ∧ q.1.m.h.deg 2 = 4 ∧ q.1.m.h.deg 101 = 2)) = true := by
  decide +kernel

example : holds (jexecAll eq2 40 (startJ [900, 901] ty2 oth2) demoL) (fun C => holds (mergeJ eq2 40 0 5 C (some 21) (some 41)) fun q =>
    decide (q.2 = (4, true) ∧ q.1.m.h.kids 20 = [(.rc, some 901), (.rc, some 31)] ∧ q.1.m.h.deg 31 = 2) &&
    holds (mergeJ eq2 40 0 5 C (some 21) (some 901)) fun q => decide (q.2 = (5, false))) = true := by
  decide +kernel

/-- nested objects: `{"1": {"2": null}}` and `{"1": {"3": true}}`; the destination gets both, the source keeps what it has -/
example : holds (jexecAll eq2 40 (startJ [900, 901] ty2 oth2)
      [.object 10 11, .object 20 21, .setStatic 21 2 900, .set 11 1 21, .object 30 31, .object 40 41, .setStatic 41 3 901, .set 31 101 41])
    (fun C => holds (mergeJ eq2 40 5 5 C (some 11) (some 31)) fun q =>
      decide (q.2 = (3, true) ∧ (q.1.m.maps 10).pairs = [(1, some 21)] ∧ (q.1.m.maps 20).pairs = [(2, some 900), (3, some 901)] ∧
        (q.1.m.maps 30).pairs = [(101, some 41)] ∧ (q.1.m.maps 40).pairs = [(3, some 901)])) = true := by
  decide +kernel

/-- **C109 is false** for values that are put together: the value of the source is counted as if the destination had it.  It stays in memory
when source and destination are deleted. -/
theorem C109_leak_false : ∃ C C' C'', jexecAll eq2 40 (startJ [900, 901] ty2 oth2)
      [.object 10 11, .object 20 21, .set 11 1 21, .object 30 31, .object 40 41, .set 31 101 41] = .ok (some C) ∧
    mergeJ eq2 40 5 5 C (some 11) (some 31) = .ok (some (C', 4, true)) ∧
    jexecAll eq2 40 C' [.delRef 31, .delRef 11] = .ok (some C'') ∧ C.m.h.deg 41 = 1 ∧ (C'.m.maps 10).pairs = [(1, some 21)] ∧
    C'.m.h.deg 41 = 2 ∧ C''.m.h.live 31 = false ∧
    C''.m.h.live 11 = false ∧ C''.m.h.live 21 = false ∧ C''.m.h.live 41 = true ∧ C''.m.h.deg 41 = 1 := by
  have k : holds (jexecAll eq2 40 (startJ [900, 901] ty2 oth2)
      [.object 10 11, .object 20 21, .set 11 1 21, .object 30 31, .object 40 41, .set 31 101 41]) (fun C =>
      holds (mergeJ eq2 40 5 5 C (some 11) (some 31)) fun q => holds (jexecAll eq2 40 q.1 [.delRef 31, .delRef 11]) fun C'' =>
      decide (q.2 = (4, true) ∧ C.m.h.deg 41 = 1 ∧ (q.1.m.maps 10).pairs = [(1, some 21)] ∧
        q.1.m.h.deg 41 = 2 ∧ C''.m.h.live 31 = false ∧
        C''.m.h.live 11 = false ∧ C''.m.h.live 21 = false ∧ C''.m.h.live 41 = true ∧ C''.m.h.deg 41 = 1)) = true := by
    decide +kernel
  obtain ⟨C, h1, k⟩ := holds_iff.1 k
  obtain ⟨⟨C', q⟩, h2, k⟩ := holds_iff.1 k
  obtain ⟨C'', h3, k⟩ := holds_iff.1 k
  obtain ⟨rfl, k⟩ := of_decide_eq_true k
  exact ⟨C, C', C'', h1, h2, h3, k⟩

/-- **C109 is false** for values that are replaced: the old value stays in memory without references. -/
theorem C109_overwritten_false : ∃ C C' C'', jexecAll eq2 40 (startJ [900, 901] ty2 oth2) demoM = .ok (some C) ∧
    mergeJ eq2 40 5 5 C (some 11) (some 51) = .ok (some (C', 3, true)) ∧
    jexecAll eq2 40 C' [.delRef 11, .delRef 51] = .ok (some C'') ∧ C'.m.h.live 31 = true ∧ C'.m.h.deg 31 = 0 ∧
    C''.m.h.live 11 = false ∧ C''.m.h.live 51 = false ∧
    C''.m.h.live 41 = false ∧ C''.m.h.live 31 = true ∧ C''.m.h.live 30 = true := by
  have k : holds (jexecAll eq2 40 (startJ [900, 901] ty2 oth2) demoM) (fun C =>
      holds (mergeJ eq2 40 5 5 C (some 11) (some 51)) fun q => holds (jexecAll eq2 40 q.1 [.delRef 11, .delRef 51]) fun C'' =>
      decide (q.2 = (3, true) ∧ q.1.m.h.live 31 = true ∧ q.1.m.h.deg 31 = 0 ∧
        C''.m.h.live 11 = false ∧ C''.m.h.live 51 = false ∧
        C''.m.h.live 41 = false ∧ C''.m.h.live 31 = true ∧ C''.m.h.live 30 = true)) = true := by
    decide +kernel
  obtain ⟨C, h1, k⟩ := holds_iff.1 k
  obtain ⟨⟨C', q⟩, h2, k⟩ := holds_iff.1 k
  obtain ⟨C'', h3, k⟩ := holds_iff.1 k
  obtain ⟨rfl, k⟩ := of_decide_eq_true k
  exact ⟨C, C', C'', h1, h2, h3, k⟩

/-- **C109 is false** for an object that is merged into itself: its values are counted again. -/
theorem C109_same_false : ∃ C C' C'', jexecAll eq2 40 (startJ [900, 901] ty2 oth2)
      [.object 10 11, .setScalar 11 1 30 31 .number] = .ok (some C) ∧
    mergeJ eq2 40 5 5 C (some 11) (some 11) = .ok (some (C', 4, true)) ∧
    jexecAll eq2 40 C' [.delRef 11] = .ok (some C'') ∧ (C'.m.maps 10).pairs = [(1, some 31)] ∧
    C'.m.h.deg 31 = 2 ∧ C''.m.h.live 11 = false ∧ C''.m.h.live 31 = true := by
  have k : holds (jexecAll eq2 40 (startJ [900, 901] ty2 oth2) [.object 10 11, .setScalar 11 1 30 31 .number]) (fun C =>
      holds (mergeJ eq2 40 5 5 C (some 11) (some 11)) fun q => holds (jexecAll eq2 40 q.1 [.delRef 11]) fun C'' =>
      decide (q.2 = (4, true) ∧ (q.1.m.maps 10).pairs = [(1, some 31)] ∧ q.1.m.h.deg 31 = 2 ∧
        C''.m.h.live 11 = false ∧ C''.m.h.live 31 = true)) = true := by
    decide +kernel
  obtain ⟨C, h1, k⟩ := holds_iff.1 k
  obtain ⟨⟨C', q⟩, h2, k⟩ := holds_iff.1 k
  obtain ⟨C'', h3, k⟩ := holds_iff.1 k
  obtain ⟨rfl, k⟩ := of_decide_eq_true k
  exact ⟨C, C', C'', h1, h2, h3, k⟩

/-- **C109 is false** for an array that is merged into itself: whatever the number of entries, the loop is not at its end. -/
theorem C109_self_false (n b : Nat) : ∃ C, jexecAll eq2 40 (startJ [900, 901] ty2 oth2)
    [.array 20 21, .appendStatic 21 901] = .ok (some C) ∧ (b < 2 ^ 30 → mergeJ eq2 40 n b C (some 21) (some 21) = .ok none) := by
  have key : ∀ (b i : Nat) (h : RHeap), i + b < 2 ^ 31 → h.live 20 = true → h.live 901 = true → i < (h.kids 20).length →
      (∀ e ∈ h.kids 20, e = (Policy.rc, some 901)) → listMerge 20 20 b i h = .ok none := by
    intro b
    induction b with
    | zero =>
      intro i h _ h1 h2 h3 h4
      rw [listMerge, if_pos h1, List.getElem?_eq_getElem h3]
    | succ b ih =>
      intro i h h0 h1 h2 h3 h4
      rw [listMerge, if_pos h1, List.getElem?_eq_getElem h3, h4 _ (List.getElem_mem h3)]
      have : ∃ h', listAppend h 20 (.rc, some 901) = .ok h' ∧ h'.live = h.live ∧
          h'.kids = upd h.kids 20 (h.kids 20 ++ [(.rc, some 901)]) := by
        simp only [listAppend, h1, if_true, incrIndegree, incrRc, h2]
        split <;> exact ⟨_, rfl, rfl, rfl⟩
      obtain ⟨h', e, l, k⟩ := this
      simp only [e, Res.bind_ok]
      rw [if_neg (by omega)]
      have hk : h'.kids 20 = h.kids 20 ++ [(.rc, some 901)] := by rw [k]; simp [upd]
      refine ih (i + 1) h' (by omega) (by rw [l]; exact h1) (by rw [l]; exact h2) (by rw [hk]; simp; omega) ?_
      intro e he
      rw [hk] at he
      rcases List.mem_append.1 he with he | he
      · exact h4 e he
      · simpa using he
  have k : holds (jexecAll eq2 40 (startJ [900, 901] ty2 oth2) [.array 20 21, .appendStatic 21 901]) (fun C =>
      decide (C.m.h.live 21 = true ∧ C.tag 21 = some .array ∧ C.held 21 = some 20 ∧ C.m.h.live 20 = true ∧ C.m.h.live 901 = true ∧
        C.m.h.kids 20 = [(Policy.rc, some 901)])) = true := by
    decide +kernel
  obtain ⟨C, h1, k⟩ := holds_iff.1 k
  obtain ⟨k1, k2, k3, k4, k5, k6⟩ := of_decide_eq_true k
  refine ⟨C, h1, fun hb => ?_⟩
  have := key b 0 C.m.h (by omega) k4 k5 (by rw [k6]; decide) (by rw [k6]; simp)
  rw [mergeJ.eq_def]
  simp only [k1, k2, k3, this, Bool.and_self, if_true, Option.some.injEq, reduceCtorEq, and_self, if_false]
  rfl

end Verif.Rc.JsonProps
