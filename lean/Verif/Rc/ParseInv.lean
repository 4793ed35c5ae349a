import Verif.Rc.ParseGrow

/-!
# What the blocks that the parser has made are (lemmas for C106)
-/

namespace Verif.Rc.ParseProps
open Verif.Chain (upd)
open Verif.Json (Byte Tok Atom PState)
open Verif.Rc.Props Verif.Rc.MapProps Verif.Rc.JsonProps

/-- memory `X` has the blocks of `X0`, unchanged, and others that do not refer to them, with at most two references -/
structure Grown (sg : Nat → Bool) (X0 X : JS) (l r : Nat) : Prop where
  dom : ∃ L, X.x.s.D = X0.x.s.D ++ L ∧ L.length ≤ l
  ext : X.x.s.ext = X0.x.s.ext
  kids : ∀ y ∈ X0.x.s.D, X.x.s.kids y = X0.x.s.kids y
  maps : ∀ y ∈ X0.x.s.D, X.x.maps y = X0.x.maps y
  kind : ∀ y ∈ X0.x.s.D, X.kind y = X0.kind y
  edges : ∀ y ∈ X.x.s.D, y ∉ X0.x.s.D → ∀ b, (Policy.rc, some b) ∈ X.x.s.kids y → sg b = true ∨ b ∉ X0.x.s.D
  rcs : ∀ s, sg s = true → X.x.s.rc s ≤ X0.x.s.rc s + r
  static : ∀ s, sg s = true → s ∈ X0.x.s.D
  few : ∀ y, y ∉ X0.x.s.D → X.x.s.rc y ≤ 2

theorem Grown.sub {sg : Nat → Bool} {X0 X : JS} {l r : Nat} (g : Grown sg X0 X l r) {y : Nat} (h : y ∈ X0.x.s.D) :
    y ∈ X.x.s.D := by
  obtain ⟨L, hL, -⟩ := g.dom
  rw [hL]; exact List.mem_append_left _ h

theorem Grown.step {sg : Nat → Bool} {X0 X X' : JS} {N R K : Nat → Prop} {c l r l' r' : Nat} (g : Grown sg X0 X l r)
    (a : Chg sg X X' N R K c l' r') (hc : c ∉ X0.x.s.D) (hR : ∀ y ∈ X0.x.s.D, ¬ R y)
    (hK : ∀ b, K b → sg b = true ∨ b ∉ X0.x.s.D) : Grown sg X0 X' (l + l') (r + r') := by
  have hne : ∀ y ∈ X0.x.s.D, y ≠ c := by rintro y hy rfl; exact hc hy
  refine ⟨?_, a.ext.trans g.ext, fun y hy => (a.kids y (g.sub hy) (hne y hy)).trans (g.kids y hy),
    fun y hy => (a.maps y (g.sub hy) (hne y hy)).trans (g.maps y hy), fun y hy => (a.kind y (g.sub hy)).trans (g.kind y hy),
    fun y hy hn b hb => ?_, fun s hs => ?_, g.static, fun y hy => ?_⟩
  · obtain ⟨L, hL, hl⟩ := g.dom
    obtain ⟨L', h1, h2⟩ := a.dom _ _ hL hR
    exact ⟨L', h1, by omega⟩
  · rcases a.edges y hy b hb with ⟨h1, h2⟩ | ⟨-, h | h | h⟩
    · exact g.edges y h1 hn b h2
    · exact .inl h
    · exact .inr fun hb => a.fresh b h (g.sub hb)
    · exact hK b h
  · have := g.rcs s hs; have := a.rcs s hs; omega
  · have hs : sg y = false := by
      cases h : sg y with
      | false => rfl
      | true => exact absurd (g.static y h) hy
    have := a.few y hs
    have := g.few y hy
    omega

/-- containers come before what they hold, JSON values before their lists, maps, strings and numbers -/
def rnk (X : JS) (idx : Nat → Nat) (y : Nat) : Nat :=
  match X.kind y with
  | .json _ => 2 * idx y
  | _ => 2 * idx y + 3

theorem rank_json {X : JS} {idx : Nat → Nat} {y : Nat} {t : Tag} (h : X.kind y = .json t) : rnk X idx y = 2 * idx y := by
  rw [rnk, h]

theorem rank_part {X : JS} {idx : Nat → Nat} {y : Nat} (h : ∀ t, X.kind y ≠ .json t) : rnk X idx y = 2 * idx y + 3 := by
  rw [rnk]
  split
  · next t e => exact absurd e (h t)
  · rfl

/-- memory while parsing: `idx` says which block was made when, `n` blocks were made so far -/
structure Core (sg : Nat → Bool) (eqv : Nat → Nat → Bool) (oth : Nat → Bool) (X0 X : JS) (H : JHeap) (idx : Nat → Nat)
    (n l r : Nat) : Prop where
  J : JG sg eqv oth X H
  old : Grown sg X0 X l r
  rank : ∀ y ∈ X.x.s.D, y ∉ X0.x.s.D → ∀ b, (Policy.rc, some b) ∈ X.x.s.kids y → b ∉ X0.x.s.D → rnk X idx y < rnk X idx b
  idx : ∀ y ∈ X.x.s.D, y ∉ X0.x.s.D → idx y < n

/-- the blocks that nothing refers to are `T` and `Q`, if no key was given twice (`d = 0`) -/
structure Own (sg : Nat → Bool) (X0 X : JS) (T Q : List Nat) (d : Nat) : Prop where
  nodup : T.Nodup
  temps : ∀ t ∈ T, Iso sg X t ∧ t ∉ X0.x.s.D
  roots : ∀ q ∈ Q, q ∈ X.x.s.D ∧ q ∉ X0.x.s.D ∧ X.x.s.rc q = 0 ∧ X.kind q ≠ .raw
  clean : d = 0 → ∀ b ∈ X.x.s.D, b ∉ X0.x.s.D → X.x.s.rc b = 0 → b ∈ T ∨ b ∈ Q

/-- only `c` was changed -/
structure SameBut (X X' : JS) (idx idx' : Nat → Nat) (c : Nat) : Prop where
  keep : ∀ y ∈ X.x.s.D, X.kind y ≠ .raw → y ∈ X'.x.s.D
  kids : ∀ y ∈ X.x.s.D, y ≠ c → X'.x.s.kids y = X.x.s.kids y
  maps : ∀ y ∈ X.x.s.D, y ≠ c → X'.x.maps y = X.x.maps y
  kind : ∀ y ∈ X.x.s.D, X'.kind y = X.kind y
  idx : ∀ y ∈ X.x.s.D, idx' y = idx y

theorem SameBut.trans {X X' X'' : JS} {idx idx' idx'' : Nat → Nat} {c : Nat} (s : SameBut X X' idx idx' c)
    (h : ∀ y ∈ X.x.s.D, y ∈ X'.x.s.D) (s' : SameBut X' X'' idx' idx'' c) : SameBut X X'' idx idx'' c :=
  ⟨fun y hy hk => s'.keep y (h y hy) (by rw [s.kind y hy]; exact hk),
    fun y hy hc => (s'.kids y (h y hy) hc).trans (s.kids y hy hc), fun y hy hc => (s'.maps y (h y hy) hc).trans (s.maps y hy hc),
    fun y hy => (s'.kind y (h y hy)).trans (s.kind y hy), fun y hy => (s'.idx y (h y hy)).trans (s.idx y hy)⟩

theorem SameBut.refl (X : JS) (idx : Nat → Nat) (c : Nat) : SameBut X X idx idx c :=
  ⟨fun _ h _ => h, fun _ _ _ => rfl, fun _ _ _ => rfl, fun _ _ => rfl, fun _ _ => rfl⟩

section
variable {sg oth : Nat → Bool} {eqv : Nat → Nat → Bool} {X0 X : JS} {H : JHeap} {idx : Nat → Nat} {n l r d c : Nat} {T Q : List Nat}

theorem Core.step {X' : JS} {H' : JHeap} {N R K : Nat → Prop} {idx' : Nat → Nat} {n' l' r' : Nat}
    (k : Core sg eqv oth X0 X H idx n l r) (J' : JG sg eqv oth X' H') (a : Chg sg X X' N R K c l' r') (hc : c ∉ X0.x.s.D)
    (hR : ∀ y ∈ X0.x.s.D, ¬ R y) (hK : ∀ b, K b → sg b = true ∨ b ∉ X0.x.s.D) (hi : ∀ y ∈ X.x.s.D, idx' y = idx y)
    (hn : n ≤ n') (hN : ∀ y, N y → idx' y < n')
    (hr : ∀ y ∈ X'.x.s.D, ∀ b, (Policy.rc, some b) ∈ X'.x.s.kids y → (y = c ∨ N y) → b ∉ X0.x.s.D → (N b ∨ K b) →
      rnk X' idx' y < rnk X' idx' b) : Core sg eqv oth X0 X' H' idx' n' (l + l') (r + r') := by
  have old := k.old.step a hc hR hK
  have hrk : ∀ y ∈ X.x.s.D, rnk X' idx' y = rnk X idx y := by
    intro y hy
    unfold rnk
    rw [a.kind y hy, hi y hy]
  obtain ⟨A, G, -⟩ := k.J.mem
  refine ⟨J', old, fun y hy hy0 b hb hb0 => ?_, fun y hy hy0 => ?_⟩
  · rcases a.edges y hy b hb with ⟨h1, h2⟩ | ⟨h1, h2 | h2⟩
    · rw [hrk y h1, hrk b (Good.tgt G h1 h2)]
      exact k.rank y h1 hy0 b h2 hb0
    · exact absurd (k.old.static b h2) hb0
    · exact hr y hy b hb h1 hb0 h2
  · rcases (a.mem y).1 hy with ⟨h, -⟩ | h
    · rw [hi y h]
      exact Nat.lt_of_lt_of_le (k.idx y h hy0) hn
    · exact hN y h

theorem Own.step {X' : JS} {N R K : Nat → Prop} {l' r' d' : Nat} {T' Q' : List Nat} (o : Own sg X0 X T Q d)
    (k : Core sg eqv oth X0 X H idx n l r) (a : Chg sg X X' N R K c l' r') (hk : d' = 0 → d = 0 ∧ Keep X X') (hnd : T'.Nodup)
    (hT : ∀ t ∈ T', (t ∈ T ∧ ¬ K t ∧ ¬ R t) ∨ (Iso sg X' t ∧ t ∉ X0.x.s.D))
    (hQ : ∀ q ∈ Q', (q ∈ Q ∧ ¬ K q ∧ ¬ R q) ∨ (q ∈ X'.x.s.D ∧ q ∉ X0.x.s.D ∧ X'.x.s.rc q = 0 ∧ X'.kind q ≠ .raw))
    (hg : ∀ b ∈ X'.x.s.D, X'.x.s.rc b = 0 → (b ∈ T ∨ b ∈ Q ∨ N b) → b ∈ T' ∨ b ∈ Q') : Own sg X0 X' T' Q' d' := by
  refine ⟨hnd, fun t ht => ?_, fun q hq => ?_, fun hd b hb hb0 hrc => ?_⟩
  · rcases hT t ht with ⟨h, hK, hR⟩ | h
    · obtain ⟨i, h0⟩ := o.temps t h
      exact ⟨a.iso i hK hR, h0⟩
    · exact h
  · rcases hQ q hq with ⟨h, hK, hR⟩ | h
    · obtain ⟨h1, h2, h3, h4⟩ := o.roots q h
      have hs : sg q = false := by
        cases e : sg q with
        | false => rfl
        | true => exact absurd (k.old.static q e) h2
      exact ⟨(a.mem q).2 (.inl ⟨h1, hR⟩), h2, a.rc0 h1 h3 hs hK, by rw [a.kind q h1]; exact h4⟩
    · exact h
  · obtain ⟨h1, h2⟩ := hk hd
    refine hg b hb hrc ?_
    rcases (a.mem b).1 hb with ⟨h, -⟩ | h
    · exact (o.clean h1 b h hb0 (h2.rc a.ext hrc)).imp id .inl
    · exact .inr (.inr h)

theorem Chg.same {X' : JS} {N R K : Nat → Prop} {l' r' : Nat} {idx' : Nat → Nat} (a : Chg sg X X' N R K c l' r')
    (hR : ∀ y ∈ X.x.s.D, R y → X.kind y = .raw) (hi : ∀ y ∈ X.x.s.D, idx' y = idx y) : SameBut X X' idx idx' c :=
  ⟨fun y hy hk => (a.mem y).2 (.inl ⟨hy, fun h => hk (hR y hy h)⟩), a.kids, a.maps, a.kind, hi⟩

theorem Own.perm {T' Q' : List Nat} (o : Own sg X0 X T Q d) (hT : T'.Perm T) (hQ : Q'.Perm Q) : Own sg X0 X T' Q' d :=
  ⟨hT.nodup_iff.2 o.nodup, fun t ht => o.temps t (hT.mem_iff.1 ht), fun q hq => o.roots q (hQ.mem_iff.1 hq),
    fun h b hb h0 hr => (o.clean h b hb h0 hr).imp hT.mem_iff.2 hQ.mem_iff.2⟩

/-! ## the operations -/

theorem upd_old {b n : Nat} (hb : b ∉ X.x.s.D) : ∀ y ∈ X.x.s.D, upd idx b n y = idx y := by
  intro y hy
  have : y ≠ b := by rintro rfl; exact hb hy
  simp [upd, this]

theorem Core.fresh (k : Core sg eqv oth X0 X H idx n l r) {b : Nat} (hb : b ∉ X.x.s.D) : b ∉ X0.x.s.D :=
  fun h => hb (k.old.sub h)

variable (E : Eqv eqv)

include E in
/-- a new string or tuple -/
theorem op_raw (k : Core sg eqv oth X0 X H idx n l r) (o : Own sg X0 X T Q d) {b : Nat} (hb : b ∉ X.x.s.D) (c : Nat) :
    ∃ X', Core sg eqv oth X0 X' (rawMk H b) (upd idx b n) (n + 1) (l + 1) r ∧ Own sg X0 X' (b :: T) Q d ∧
      SameBut X X' idx (upd idx b n) c ∧ ∀ y ∈ X.x.s.D, y ∈ X'.x.s.D := by
  obtain ⟨J', a, hk, hrc⟩ := grow_new E k.J hb (kd := .raw) (.inl rfl) b
  obtain ⟨-, a2, -, -⟩ := grow_new E k.J hb (kd := .raw) (.inl rfl) c
  have hb0 := k.fresh hb
  have hbD : b ∈ (stepNew eqv X b .raw).x.s.D := (a.mem b).2 (.inr rfl)
  have hi : Iso sg (stepNew eqv X b .raw) b := ⟨hbD, by simp [stepNew, upd], hrc, not_static k.J hb⟩
  refine ⟨_, k.step (n' := n + 1) J' a hb0 (fun _ _ h => h) (fun _ h => h.elim) (upd_old hb) (by omega)
    (by rintro y rfl; simp [upd]) (fun y hy z hz hy' _ _ => ?_), o.step k a (fun h => ⟨h, hk⟩)
      (List.nodup_cons.2 ⟨fun h => hb (o.temps b h).1.mem, o.nodup⟩) (fun t ht => ?_) (fun q hq => .inl ⟨hq, id, id⟩)
      (fun z hz hz0 h => ?_), a2.same (fun _ _ h => h.elim) (upd_old hb),
      fun y hy => (a.mem y).2 (.inl ⟨hy, id⟩)⟩
  · have : y = b := hy'.elim id id
    subst this
    rw [iso_kids J' hi] at hz
    cases hz
  · rcases List.mem_cons.1 ht with rfl | ht
    · exact .inr ⟨hi, hb0⟩
    · exact .inl ⟨ht, id, id⟩
  · rcases h with h | h | h
    · exact .inl (List.mem_cons_of_mem _ h)
    · exact .inr h
    · exact .inl (by rw [h]; exact List.mem_cons_self)

/-- a temporary block goes -/
theorem op_drop (k : Core sg eqv oth X0 X H idx n l r) {t : Nat} (o : Own sg X0 X (t :: T) Q d) {fuel : Nat}
    (hf : X.x.s.D.length ≤ fuel) (c : Nat) :
    ∃ H' X', mdel fuel H t = .ok (some H') ∧ Core sg eqv oth X0 X' H' idx n l r ∧ Own sg X0 X' T Q d ∧
      SameBut X X' idx idx c := by
  obtain ⟨i, h0⟩ := o.temps t (by simp)
  obtain ⟨H', e, J', a, hk⟩ := iso_del k.J i hf t
  obtain ⟨-, -, -, a2, -⟩ := iso_del k.J i hf c
  obtain ⟨hn1, hn2⟩ := List.nodup_cons.1 o.nodup
  refine ⟨H', _, e, k.step J' a h0 (by rintro y hy rfl; exact h0 hy) (fun _ h => h.elim) (fun _ _ => rfl) (Nat.le_refl _)
    (fun _ h => h.elim) (fun _ _ _ _ _ _ h => (h.elim id id).elim), o.step k a (fun h => ⟨h, hk⟩) hn2 (fun u hu => ?_)
    (fun q hq => .inl ⟨hq, id, ?_⟩) (fun z hz hz0 h => ?_), a2.same ?_ (fun _ _ => rfl)⟩
  · exact .inl ⟨List.mem_cons_of_mem _ hu, id, by rintro rfl; exact hn1 hu⟩
  · rintro rfl; exact (o.roots q hq).2.2.2 i.kind
  · have hzt : z ≠ t := by
      rcases (a.mem z).1 hz with h | h
      · exact h.2
      · exact h.elim
    rcases h with h | h | h
    · rcases List.mem_cons.1 h with h | h
      · exact absurd h hzt
      · exact .inl h
    · exact .inr h
    · exact h.elim
  · rintro y hy rfl; exact i.kind

include E in
/-- a new list -/
theorem op_list (k : Core sg eqv oth X0 X H idx n l r) (o : Own sg X0 X T Q d) {b : Nat} (hb : b ∉ X.x.s.D) (c : Nat) :
    ∃ X', Core sg eqv oth X0 X' (rawMk H b) (upd idx b n) (n + 1) (l + 1) r ∧ Own sg X0 X' T (b :: Q) d ∧
      SameBut X X' idx (upd idx b n) c ∧ X'.kind b = .list ∧ X'.x.s.kids b = [] ∧
      ∀ y ∈ X.x.s.D, y ∈ X'.x.s.D := by
  obtain ⟨J', a, hk, hrc⟩ := grow_new E k.J hb (kd := .list) (.inr rfl) b
  obtain ⟨-, a2, -, -⟩ := grow_new E k.J hb (kd := .list) (.inr rfl) c
  have hb0 := k.fresh hb
  have hbD : b ∈ (stepNew eqv X b .list).x.s.D := (a.mem b).2 (.inr rfl)
  have hkd : (stepNew eqv X b .list).kind b = .list := by simp [stepNew, upd]
  have hK : (stepNew eqv X b .list).x.s.kids b = [] := by simp [stepNew, mstep, specStep, mkBlock, upd]
  refine ⟨_, k.step (n' := n + 1) J' a hb0 (fun _ _ h => h) (fun _ h => h.elim) (upd_old hb) (by omega)
    (by rintro y rfl; simp [upd]) (fun y hy z hz hy' _ _ => ?_), o.step k a (fun h => ⟨h, hk⟩) o.nodup
      (fun t ht => .inl ⟨ht, id, id⟩) (fun q hq => ?_) (fun z hz hz0 h => ?_), a2.same (fun _ _ h => h.elim) (upd_old hb), hkd, hK,
      fun y hy => (a.mem y).2 (.inl ⟨hy, id⟩)⟩
  · have : y = b := hy'.elim id id
    subst this
    rw [hK] at hz
    cases hz
  · rcases List.mem_cons.1 hq with rfl | ht
    · exact .inr ⟨hbD, hb0, hrc, by rw [hkd]; simp⟩
    · exact .inl ⟨ht, id, id⟩
  · rcases h with h | h | h
    · exact .inl h
    · exact .inr (List.mem_cons_of_mem _ h)
    · exact .inr (by rw [h]; exact List.mem_cons_self)

include E in
/-- a new map -/
theorem op_map (k : Core sg eqv oth X0 X H idx n l r) (o : Own sg X0 X T Q d) {b : Nat} (hb : b ∉ X.x.s.D) (c : Nat) :
    ∃ X', Core sg eqv oth X0 X' { H with m := mapMk H.m b .rc .rc, tag := upd H.tag b none } (upd idx b n) (n + 1) (l + 1) r ∧
      Own sg X0 X' T (b :: Q) d ∧
      SameBut X X' idx (upd idx b n) c ∧ X'.kind b = .map ∧ (X'.x.maps b).pairs = [] ∧ (X'.x.maps b).order = [] ∧
      ∀ y ∈ X.x.s.D, y ∈ X'.x.s.D := by
  obtain ⟨J', a, hk, hrc⟩ := grow_map E k.J hb b
  obtain ⟨-, a2, -, -⟩ := grow_map E k.J hb c
  have hb0 := k.fresh hb
  have hbD : b ∈ (stepMap eqv X b).x.s.D := (a.mem b).2 (.inr rfl)
  have hkd : (stepMap eqv X b).kind b = .map := by simp [stepMap, upd]
  have hK : (stepMap eqv X b).x.s.kids b = [] := by simp [stepMap, mstep, mkBlock, upd]
  refine ⟨_, k.step (n' := n + 1) J' a hb0 (fun _ _ h => h) (fun _ h => h.elim) (upd_old hb) (by omega)
    (by rintro y rfl; simp [upd]) (fun y hy z hz hy' _ _ => ?_), o.step k a (fun h => ⟨h, hk⟩) o.nodup
      (fun t ht => .inl ⟨ht, id, id⟩) (fun q hq => ?_) (fun z hz hz0 h => ?_), a2.same (fun _ _ h => h.elim) (upd_old hb), hkd,
      by simp [stepMap, mstep, upd], by simp [stepMap, mstep, upd], fun y hy => (a.mem y).2 (.inl ⟨hy, id⟩)⟩
  · have : y = b := hy'.elim id id
    subst this
    rw [hK] at hz
    cases hz
  · rcases List.mem_cons.1 hq with rfl | ht
    · exact .inr ⟨hbD, hb0, hrc, by rw [hkd]; simp⟩
    · exact .inl ⟨ht, id, id⟩
  · rcases h with h | h | h
    · exact .inl h
    · exact .inr (List.mem_cons_of_mem _ h)
    · exact .inr (by rw [h]; exact List.mem_cons_self)

include E in
theorem op_tag (k : Core sg eqv oth X0 X H idx n l r) (o : Own sg X0 X T Q d) {j p : Nat} {t : Tag} {kd : Kind}
    (hj : j ∉ X.x.s.D) (ht : part t = some kd) (hp : p ∈ X.x.s.D) (hp0 : p ∉ X0.x.s.D) (hpk : X.kind p = kd)
    (hpr : X.x.s.rc p = 0) (hpi : idx p + 1 = n) (T' Q' : List Nat) (hnd : T'.Nodup) (hT : ∀ x, x ∈ T' ↔ x ∈ T ∧ x ≠ p)
    (hQ : ∀ x, x ∈ Q' ↔ x ∈ Q ∧ x ≠ p) (c : Nat) :
    ∃ H' X', jsonMk H j t p = .ok H' ∧ Core sg eqv oth X0 X' H' (upd idx j n) (n + 1) (l + 1) r ∧ Own sg X0 X' T' (j :: Q') d ∧
      SameBut X X' idx (upd idx j n) c ∧ X'.kind j = .json t ∧ X'.x.s.kids j = [(.rc, some p)] ∧ j ∈ X'.x.s.D ∧
      ∀ y ∈ X.x.s.D, y ∈ X'.x.s.D := by
  obtain ⟨H', e, J', a, hk, hK, hkd, hrc⟩ := grow_tag E k.J hj hp ht hpk hpr j
  obtain ⟨-, -, -, a2, -⟩ := grow_tag E k.J hj hp ht hpk hpr c
  have hj0 := k.fresh hj
  have hjD : j ∈ (stepTag eqv X j t p).x.s.D := (a.mem j).2 (.inr rfl)
  have hpj : p ≠ j := by rintro rfl; exact hj hp
  have hpk' : ∀ u, kd ≠ .json u := by intro u e; rw [e] at ht; cases t <;> cases ht
  refine ⟨H', _, e, k.step (n' := n + 1) J' a hj0 (fun _ _ h => h) (by rintro b rfl; exact .inr hp0) (upd_old hj) (by omega)
    (by rintro y rfl; simp [upd]) (fun y hy z hz hy' _ _ => ?_), o.step k a (fun h => ⟨h, hk⟩) hnd
      (fun x hx => .inl ⟨((hT x).1 hx).1, ((hT x).1 hx).2, id⟩) (fun q hq => ?_) (fun z hz hz0 h => ?_),
      a2.same (fun _ _ h => h.elim) (upd_old hj), hkd, hK, hjD, fun y hy => (a.mem y).2 (.inl ⟨hy, id⟩)⟩
  · have : y = j := hy'.elim id id
    subst this
    rw [hK] at hz
    have hzp : z = p := by simpa using hz
    subst hzp
    rw [rank_json hkd, rank_part (by rw [a.kind z hp, hpk]; exact hpk')]
    simp only [upd, if_true, hpj, if_false]
    omega
  · rcases List.mem_cons.1 hq with rfl | hq
    · exact .inr ⟨hjD, hj0, hrc, by rw [hkd]; simp⟩
    · exact .inl ⟨((hQ q).1 hq).1, ((hQ q).1 hq).2, id⟩
  · have hzp : z ≠ p := by
      rintro rfl
      exact (rc_zero.1 hz0).2 j hjD (by rw [hK]; simp)
    rcases h with h | h | h
    · exact .inl ((hT z).2 ⟨h, hzp⟩)
    · exact .inr (List.mem_cons_of_mem _ ((hQ z).2 ⟨h, hzp⟩))
    · exact .inr (by rw [h]; exact List.mem_cons_self)

/-- a value that is put into the container `b`: a static one, or a new one -/
def Fits (sg : Nat → Bool) (X : JS) (idx : Nat → Nat) (Q : List Nat) (b v : Nat) : Prop :=
  sg v = true ∨ (v ∈ Q ∧ (∃ t, X.kind v = .json t) ∧ idx b + 2 ≤ idx v)

theorem Fits.val (k : Core sg eqv oth X0 X H idx n l r) (o : Own sg X0 X T Q d) {b v : Nat}
    (h : Fits sg X idx Q b v) : OkVal sg X v 1 ∧ (sg v = true ∨ X.x.s.rc v = 0) ∧ (sg v = true ∨ v ∉ X0.x.s.D) := by
  rcases h with h1 | ⟨h1, h2, h3⟩
  · exact ⟨k.J.staticVal h1, .inl h1, .inl h1⟩
  · obtain ⟨g1, g2, g3, g4⟩ := o.roots v h1
    exact ⟨⟨g1, h2, .inr (by omega)⟩, .inr g3, .inr g2⟩

theorem Fits.rank (k : Core sg eqv oth X0 X H idx n l r) (o : Own sg X0 X T Q d) {b v : Nat}
    (h : Fits sg X idx Q b v) (hv : v ∉ X0.x.s.D) (hb : ∀ t, X.kind b ≠ .json t) : rnk X idx b < rnk X idx v := by
  rcases h with h1 | ⟨h1, ⟨t, h2⟩, h3⟩
  · exact absurd (k.old.static v h1) hv
  · rw [rank_part hb, rank_json h2]; omega

theorem op_append (k : Core sg eqv oth X0 X H idx n l r) (o : Own sg X0 X T Q d) {b v : Nat} (hb : b ∈ X.x.s.D)
    (hb0 : b ∉ X0.x.s.D) (hbk : X.kind b = .list) (hv : Fits sg X idx Q b v) (Q' : List Nat)
    (hQ : ∀ x, x ∈ Q' ↔ x ∈ Q ∧ x ≠ v) :
    ∃ c X', listAppend H.m.h b (.rc, some v) = .ok c ∧ Core sg eqv oth X0 X' (H.on c) idx n l (r + 1) ∧ Own sg X0 X' T Q' d ∧
      SameBut X X' idx idx b ∧ X'.x.s.kids b = X.x.s.kids b ++ [(.rc, some v)] := by
  obtain ⟨v1, v2, v3⟩ := hv.val k o
  obtain ⟨c, X', e, J', a, hk, hK, hrc⟩ := grow_append (eqv := eqv) k.J hb hbk v1 v2
  refine ⟨c, X', e, k.step J' a hb0 (fun _ _ h => h) (by rintro z rfl; exact v3) (fun _ _ => rfl) (Nat.le_refl _)
    (fun _ h => h.elim) (fun y hy z hz hy' hz0 hzv => ?_), o.step k a (fun h => ⟨h, hk⟩) o.nodup
      (fun x hx => .inl ⟨hx, ?_, id⟩) (fun q hq => .inl ⟨((hQ q).1 hq).1, ((hQ q).1 hq).2, id⟩) (fun z hz hz0 h => ?_),
      a.same (fun _ _ h => h.elim) (fun _ _ => rfl), hK⟩
  · have : y = b := hy'.elim id False.elim
    subst this
    have : z = v := hzv.elim False.elim id
    subst this
    have := hv.rank k o hz0 (by rw [hbk]; simp)
    unfold rnk at this ⊢
    rw [a.kind y hb, a.kind z v1.1]; exact this
  · rintro rfl
    obtain ⟨i, -⟩ := o.temps x hx
    obtain ⟨-, ⟨t, ht⟩, -⟩ := v1
    rw [i.kind] at ht; cases ht
  · rcases h with h | h | h
    · exact .inl h
    · exact .inr ((hQ z).2 ⟨h, by rintro rfl; exact hrc hz0⟩)
    · exact h.elim

include E in
theorem op_put (k : Core sg eqv oth X0 X H idx n l r) {m key v : Nat} (o : Own sg X0 X (key :: T) Q d) (hm : m ∈ X.x.s.D)
    (hm0 : m ∉ X0.x.s.D) (hmk : X.kind m = .map) (hki : idx m < idx key) (hv : Fits sg X idx Q m v) (Q' : List Nat)
    (hQ : ∀ x, x ∈ Q' ↔ x ∈ Q ∧ x ≠ v) {fuel : Nat} (hf : X.x.s.D.length ≤ fuel) :
    ∃ H' X', putIn eqv fuel H m key v = .ok (some H') ∧ Core sg eqv oth X0 X' H' idx n l (r + 1) ∧
      Own sg X0 X' T Q' (d + if (look eqv (X.x.maps m) key).isSome then 1 else 0) ∧
      SameBut X X' idx idx m ∧ (X'.x.maps m).pairs = insP eqv key (some v) (X.x.maps m).pairs ∧
      ((X.x.maps m).order = (X.x.maps m).pairs.map Prod.fst → (X'.x.maps m).order = (X'.x.maps m).pairs.map Prod.fst) := by
  obtain ⟨v1, v2, v3⟩ := hv.val k o
  obtain ⟨i, i0⟩ := o.temps key (by simp)
  obtain ⟨hn1, hn2⟩ := List.nodup_cons.1 o.nodup
  obtain ⟨H', X', e, J', a, hk, hP, hrc, hrk, hO⟩ := grow_put E k.J hm hmk i v1 v2 hf
  refine ⟨H', X', e, k.step J' a hm0 ?_ ?_ (fun _ _ => rfl) (Nat.le_refl _)
    (fun _ h => h.elim) (fun y hy z hz hy' hz0 hzv => ?_), o.step k a (fun h => ⟨by omega, hk ?_⟩) hn2
      (fun x hx => .inl ⟨List.mem_cons_of_mem _ hx, ?_, ?_⟩) (fun q hq => .inl ⟨((hQ q).1 hq).1, ?_, ?_⟩) (fun z hz hz0 h => ?_),
      a.same ?_ (fun _ _ => rfl), hP, hO⟩
  · rintro y hy ⟨-, rfl⟩; exact i0 hy
  · rintro z (rfl | rfl)
    · exact v3
    · exact .inr i0
  · have : y = m := hy'.elim id False.elim
    subst this
    have hr : rnk X idx y < rnk X idx z := by
      rcases hzv.elim False.elim id with rfl | rfl
      · exact hv.rank k o hz0 (by rw [hmk]; simp)
      · rw [rank_part (by rw [hmk]; simp), rank_part (by rw [i.kind]; simp)]; omega
    have hzD : z ∈ X.x.s.D := by
      rcases hzv.elim False.elim id with rfl | rfl
      · exact v1.1
      · exact i.mem
    unfold rnk at hr ⊢
    rw [a.kind y hm, a.kind z hzD]; exact hr
  · cases hl : look eqv (X.x.maps m) key with
    | none => rfl
    | some w => rw [hl] at h; simp at h
  · rintro (rfl | rfl)
    · obtain ⟨i, -⟩ := o.temps x (List.mem_cons_of_mem _ hx)
      obtain ⟨-, ⟨t, ht⟩, -⟩ := v1
      rw [i.kind] at ht; cases ht
    · exact hn1 hx
  · rintro ⟨-, rfl⟩; exact hn1 hx
  · rintro (rfl | rfl)
    · exact ((hQ q).1 hq).2 rfl
    · exact (o.roots q ((hQ q).1 hq).1).2.2.2 i.kind
  · rintro ⟨-, rfl⟩; exact (o.roots q ((hQ q).1 hq).1).2.2.2 i.kind
  · rcases h with h | h | h
    · rcases List.mem_cons.1 h with rfl | h
      · exact absurd hz0 (hrk hz)
      · exact .inl h
    · exact .inr ((hQ z).2 ⟨h, by rintro rfl; exact hrc hz0⟩)
    · exact h.elim
  · rintro y hy ⟨-, rfl⟩; exact i.kind

end

end Verif.Rc.ParseProps
