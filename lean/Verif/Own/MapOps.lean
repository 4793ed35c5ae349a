import Verif.Own.Maps

/-! # Maps, their tuples and their lists of keys -/

namespace Verif.Own

open Verif.Chain (upd)
open Verif.Map.Spec (IsOrd)
open Verif.TreeMem (TNode)

variable {al : Malloc} {text : Nat → Hash.Key} {s : St} {L : List Nat} {A : Abs} {G : Nat → Option Nat}
variable {cmp : Nat → Nat → Int} {m k : Nat} {kp vp : Policy} {es : List Bind}

/-! ## Bindings -/

/-- the binding of a key -/
def bindOf (cmp : Nat → Nat → Int) (es : List Bind) (key : Nat) : Option Bind := es.find? (fun e => cmp key e.key = 0)

theorem find_tup (hn : (es.map Bind.tup).Nodup) {e : Bind} (he : e ∈ es) : es.find? (fun e' => e'.tup = e.tup) = some e := by
  induction es with
  | nil => simp at he
  | cons a es ih =>
    simp only [List.map_cons, List.nodup_cons] at hn
    by_cases h : a.tup = e.tup
    · rcases List.mem_cons.1 he with rfl | he
      · simp
      · exact absurd (List.mem_map.2 ⟨e, he, h.symm⟩) hn.1
    · rcases List.mem_cons.1 he with rfl | he
      · exact absurd rfl h
      · simp only [List.find?_cons, h, decide_false]
        exact ih hn.2 he

theorem keyIn_of (hn : (es.map Bind.tup).Nodup) {e : Bind} (he : e ∈ es) : keyIn es e.tup = e.key := by
  simp only [keyIn, find_tup hn he]

/-- the value of a tuple -/
def valIn (es : List Bind) (t : Nat) : Nat :=
  match es.find? (fun e => e.tup = t) with
  | some e => e.val
  | none => 0

theorem valIn_of (hn : (es.map Bind.tup).Nodup) {e : Bind} (he : e ∈ es) : valIn es e.tup = e.val := by
  simp only [valIn, find_tup hn he]

theorem bindOf_none {key : Nat} (h : ∀ e ∈ es, cmp key e.key ≠ 0) : bindOf cmp es key = none := by
  simp only [bindOf, List.find?_eq_none, decide_eq_true_eq]
  exact h

theorem bindOf_some (ho : IsOrd cmp) (hu : es.Pairwise (fun e e' => cmp e.key e'.key ≠ 0)) {key : Nat} {e : Bind} (he : e ∈ es)
    (h : cmp key e.key = 0) : bindOf cmp es key = some e := by
  induction es with
  | nil => simp at he
  | cons a es ih =>
    rw [List.pairwise_cons] at hu
    unfold bindOf
    rcases List.mem_cons.1 he with rfl | he
    · simp [h]
    · have : cmp key a.key ≠ 0 := fun h' => hu.1 e he (Map.ord_congr0 ho h' h)
      simp only [List.find?_cons, this, decide_false]
      exact ih hu.2 he

theorem bindOf_mem {key : Nat} {e : Bind} (h : bindOf cmp es key = some e) : e ∈ es ∧ cmp key e.key = 0 :=
  ⟨List.mem_of_find?_eq_some h, by simpa using List.find?_some h⟩

/-- what a map, its list of keys and its tuples are -/
structure IsMap (text : Nat → Hash.Key) (s : St) (A : Abs) (G : Nat → Option Nat) (m : Nat) (kp vp : Policy) (cmp : Nat → Nat → Int) (k : Nat)
    (es : List Bind) (root : Nat) : Prop where
  ord : IsOrd cmp
  len : es.length ≤ 2 ^ 31
  obj : s.obj m = .map kp vp cmp k root
  keys : A k = some (.list (some m) (es.map fun e => some e.key))
  tups : ∀ e ∈ es, A e.tup = some (.pair m e.key e.val)
  nodup : (es.map Bind.tup).Nodup
  pair : ∀ e ∈ es, pairOf s e.tup = .ok (e.key, e.val)
  key : ∀ e ∈ es, keyOf s e.tup = e.key
  tree : TreeIn (nodes s.mem) root (keyOf s) cmp (es.map Bind.tup) (fun b => G b = some m)
  uniq : es.Pairwise (fun e e' => cmp e.key e'.key ≠ 0)

theorem Inv.isMap (I : Inv text s L A G) (hm : A m = some (.map kp vp cmp k es))
    (hk : A k = some (.list (some m) (es.map fun e => some e.key))) (ht : ∀ e ∈ es, A e.tup = some (.pair m e.key e.val))
    (hn : (es.map Bind.tup).Nodup) : ∃ root, IsMap text s A G m kp vp cmp k es root := by
  obtain ⟨ho, hl, root, hobj, T⟩ := I.holds m _ hm
  have hp : ∀ e ∈ es, s.obj e.tup = .pair e.key e.val := fun e he => (I.holds _ _ (ht e he)).1
  have hkey : ∀ e ∈ es, keyOf s e.tup = e.key := fun e he => by simp only [keyOf, hp e he]
  have T' : TreeIn (nodes s.mem) root (keyOf s) cmp (es.map Bind.tup) (fun b => G b = some m) := by
    refine T.congr (fun _ _ => rfl) (fun x hx => ?_) (fun _ => Iff.rfl)
    obtain ⟨e, he, rfl⟩ := List.mem_map.1 hx
    rw [hkey e he, keyIn_of hn he]
  refine ⟨root, ho, hl, hobj, hk, ht, hn, fun e he => ?_, hkey, T', ?_⟩
  · simp only [pairOf, I.getObj (ht e he), Res.bind_ok, hp e he]
  · have := List.pairwise_map.1 (T'.uniq ho)
    exact this.imp_of_mem fun h1 h2 h => by rwa [hkey _ h1, hkey _ h2] at h

theorem Inv.isMap' (I : Inv text s L A G) (K : Links A) (hm : A m = some (.map kp vp cmp k es)) :
    ∃ root, IsMap text s A G m kp vp cmp k es root :=
  I.isMap hm (K.map hm).1 (K.map hm).2.1 (K.map hm).2.2

variable {root : Nat}

theorem IsMap.reads (M : IsMap text s A G m kp vp cmp k es root) (c : Nat → Int) : keysRead s c 96 root = .ok () :=
  M.tree.reads (by have := M.len; simp; omega) c fun x hx => by
    obtain ⟨e, he, rfl⟩ := List.mem_map.1 hx
    exact ⟨_, M.pair e he⟩

theorem IsMap.tlen (M : IsMap text s A G m kp vp cmp k es root) : (es.map Bind.tup).length ≤ 2 ^ 31 := by
  have := M.len; simpa using this

/-! ## Find -/

theorem mapFind_ok (I : Inv text s L A G) (K : Links A) (hm : A m = some (.map kp vp cmp k es)) {key : Nat} (h0 : key ≠ 0) :
    mapFind s m key = .ok (answer ((bindOf cmp es key).map Bind.val)) := by
  obtain ⟨root, M⟩ := I.isMap' K hm
  rcases treeFind_ok M.ord M.tree M.tlen key with ⟨e, hno⟩ | ⟨pp, x, e, hpp, hk, hx, hq⟩
  · have : bindOf cmp es key = none := bindOf_none fun e he => by
      rw [← M.key e he]; exact hno _ (List.mem_map.2 ⟨e, he, rfl⟩)
    simp only [mapFind, h0, if_false, I.getObj hm, Res.bind_ok, M.obj, M.reads, e, if_true, this, Option.map_none, answer,
      Option.getD_none]
  · obtain ⟨b, hb, rfl⟩ := List.mem_map.1 hx
    rw [M.key b hb] at hq
    have : bindOf cmp es key = some b := bindOf_some M.ord M.uniq hb hq
    simp only [mapFind, h0, if_false, I.getObj hm, Res.bind_ok, M.obj, M.reads, e, hpp, hk, M.pair b hb, this, Option.map_some, answer,
      Option.getD_some]

/-! ## Creation -/

theorem mapMk_ok (hal : al.Sound) (I : Inv text s L A G) (kp vp : Policy) (ho : IsOrd cmp) :
    ∃ s' r k G', mapMk al s kp vp cmp = .ok (s', r) ∧ r ≠ 0 ∧ s'.obj r = .map kp vp cmp k 0 ∧ A k = none ∧ A r = none ∧ k ≠ r ∧
      Inv text s' ((L ++ [k]) ++ [r]) (upd (upd A k (some (.list (some r) []))) r (some (.map kp vp cmp k []))) G' := by
  obtain ⟨s1, k, G1, e1, k0, kL, kA, I1⟩ := listMk_ok hal I none (cap := 16) (by decide)
  obtain ⟨s2, r, e2, r0, rL, rA, ro, I2⟩ := plainMk_ok hal I1 (.map kp vp cmp k 0) (.map kp vp cmp k [])
    (fun s' G' r h1 h2 => ⟨ho, by simp, 0, h1, TreeIn.nil _ _ _ h2⟩)
  have hkr : k ≠ r := by rintro rfl; simp [upd_same] at rA
  have I3 := I2.disown (l := k) (by rw [upd_ne _ _ hkr, upd_same]) (some r)
  rw [upd_comm _ hkr, upd_upd, upd_comm _ hkr.symm] at I3
  refine ⟨s2, r, k, G1, ?_, r0, ro, kA, by rwa [upd_ne _ _ hkr.symm] at rA, hkr, ?_⟩
  · simp only [mapMk, e1, Res.bind_ok, e2]
  · exact I3

/-! ## Addition -/

/-- the binding of a key gets another value -/
def setVal (cmp : Nat → Nat → Int) (es : List Bind) (key value : Nat) : List Bind :=
  es.map fun e => if cmp key e.key = 0 then ⟨e.key, value, e.tup⟩ else e

theorem setVal_tup (es : List Bind) (key value : Nat) : (setVal cmp es key value).map Bind.tup = es.map Bind.tup := by
  simp only [setVal, List.map_map]
  refine List.map_congr_left fun e _ => ?_
  simp only [Function.comp]
  split <;> rfl

theorem setVal_key (es : List Bind) (key value : Nat) :
    (setVal cmp es key value).map (fun e => some e.key) = es.map (fun e => some e.key) := by
  simp only [setVal, List.map_map]
  refine List.map_congr_left fun e _ => ?_
  simp only [Function.comp]
  split <;> rfl

theorem setVal_keyIn (es : List Bind) (key value t : Nat) : keyIn (setVal cmp es key value) t = keyIn es t := by
  induction es with
  | nil => rfl
  | cons a es ih =>
    have hh : (if cmp key a.key = 0 then (⟨a.key, value, a.tup⟩ : Bind) else a).tup = a.tup ∧
        (if cmp key a.key = 0 then (⟨a.key, value, a.tup⟩ : Bind) else a).key = a.key := by split <;> exact ⟨rfl, rfl⟩
    unfold keyIn setVal
    rw [List.map_cons, List.find?_cons, List.find?_cons, hh.1]
    by_cases h : a.tup = t
    · subst h
      simp only [decide_true]
      exact hh.2
    · simp only [h, decide_false]
      exact ih

/-- `cee_map_add`: an old key -/
def withOld (A : Abs) (m : Nat) (kp vp : Policy) (cmp : Nat → Nat → Int) (k : Nat) (es : List Bind) (e : Bind) (key value : Nat) : Abs :=
  upd (upd A e.tup (some (.pair m e.key value))) m (some (.map kp vp cmp k (setVal cmp es key value)))

/-- `cee_map_add`: a new key -/
def withNew (A : Abs) (m : Nat) (kp vp : Policy) (cmp : Nat → Nat → Int) (k : Nat) (es : List Bind) (t key value : Nat) : Abs :=
  upd (upd (upd A t (some (.pair m key value))) m (some (.map kp vp cmp k (es ++ [⟨key, value, t⟩]))))
    k (some (.list (some m) (es.map (fun e => some e.key) ++ [some key])))

theorem mapAdd_ok (hal : al.Sound) (I : Inv text s L A G) (K : Links A) (hm : A m = some (.map kp vp cmp k es))
    (hlen : es.length < 2 ^ 31) {key value : Nat} (h0 : key ≠ 0) (hv : value ≠ 0) :
    (∃ e s' L' G', bindOf cmp es key = some e ∧ mapAdd al s m key value = .ok (s', e.val, 0) ∧
      Inv text s' L' (withOld A m kp vp cmp k es e key value) G' ∧ Kept s s' A G m ∧
      (∀ b, s'.mem b = s.mem b) ∧ s'.obj m = s.obj m) ∨
    (bindOf cmp es key = none ∧ ((∃ t s' L' G', t ≠ 0 ∧ A t = none ∧ mapAdd al s m key value = .ok (s', 0, t) ∧
      Inv text s' L' (withNew A m kp vp cmp k es t key value) G' ∧ Kept s s' A G m) ∨
      (mapAdd al s m key value = .segv ∧ ∃ i, al.fails i = true))) := by
  obtain ⟨root0, M0⟩ := I.isMap' K hm
  obtain ⟨s1, t, e1, t0, tL, tA, hto, I1⟩ := plainMk_ok hal I (.pair key value) (.pair m key value)
    (fun s' G' r h1 h2 => ⟨h1, h2⟩)
  have hmt : m ≠ t := by rintro rfl; rw [hm] at tA; simp at tA
  have hkt : k ≠ t := by rintro rfl; rw [M0.keys] at tA; simp at tA
  have het : ∀ e ∈ es, e.tup ≠ t := by rintro e he rfl; rw [M0.tups e he] at tA; simp at tA
  have hem : ∀ e ∈ es, e.tup ≠ m := by
    intro e he h
    have := M0.tups e he
    rw [h, hm] at this; simp at this
  have hkm : k ≠ m := by
    intro h
    have := M0.keys
    rw [h, hm] at this; simp at this
  have hm1 : upd A t (some (.pair m key value)) m = some (.map kp vp cmp k es) := by rw [upd_ne _ _ hmt]; exact hm
  obtain ⟨root, M⟩ := I1.isMap hm1 (by rw [upd_ne _ _ hkt]; exact M0.keys) (fun e he => by rw [upd_ne _ _ (het e he)]; exact M0.tups e he)
    M0.nodup
  have hr0 : s.obj m = .map kp vp cmp k root := by
    have h1 := M0.obj
    have : s1.obj m = s.obj m := by
      have := e1
      obtain ⟨s1', r', e1', _, _, _, _, ho, _⟩ := mkObj_ok hal I (.pair key value)
      rw [e1'] at this
      simp only [Res.ok.injEq, Prod.mk.injEq] at this
      obtain ⟨rfl, rfl⟩ := this
      rw [ho, upd_ne _ _ hmt]
    rw [← this]; exact M.obj
  have hself : upd s1.obj m (.map kp vp cmp k root) = s1.obj := by rw [← M.obj, upd_self]
  have hkt1 : keyOf s1 t = key := by simp only [keyOf, hto]
  rcases treeSearch_ok hal I1 M.ord M.tree M.tlen key t hkt1 with
    ⟨x, pp, hx, hq, hpp, hk, e⟩ | ⟨hno, hrest⟩
  · left
    obtain ⟨b, hb, rfl⟩ := List.mem_map.1 hx
    rw [M.key b hb] at hq
    have hbo : bindOf cmp es key = some b := bindOf_some M.ord M.uniq hb hq
    have hbt := het b hb
    have hGb : ∀ c, G c ≠ some b.tup := (I1.holds b.tup _ (M.tups b hb)).2
    -- the old tuple gets the new value
    have I2 : Inv text { s1 with obj := upd s1.obj b.tup (.pair b.key value), n := s1.n + 1 } (L ++ [t])
        (upd (upd A t (some (.pair m key value))) b.tup (some (.pair m b.key value))) G :=
      I1.change (M.tups b hb) rfl (fun p hp => by simp only [upd_ne _ _ hp]) (fun _ _ _ => rfl) (fun _ _ _ => Iff.rfl) I1.own
        (fun c hc => absurd hc (hGb c)) ⟨[], fun c hc => absurd hc (hGb c)⟩ ⟨upd_same .., hGb⟩
    have I3 := I2.relabel (l := m) (x' := .map kp vp cmp k (setVal cmp es key value))
      (by rw [upd_ne _ _ (hem b hb).symm, upd_ne _ _ hmt]; exact hm) (by
        rintro ⟨ho, hl, root', hobj, T⟩
        refine ⟨ho, by simpa [setVal] using hl, root', hobj, ?_⟩
        rw [setVal_tup]
        exact T.congr (fun _ _ => rfl) (fun x _ => setVal_keyIn ..) (fun _ => Iff.rfl))
    obtain ⟨s4, e4, I4, ho4⟩ := plainFree_ok I3 (p := t) (x := .pair m key value)
      (by rw [upd_ne _ _ hmt.symm, upd_ne _ _ hbt.symm, upd_same]) (fun c hc => tL (I.ownL c t hc))
    have hm4 : s4.mem = s.mem := (plainFree_mem e4).trans (mkObj_frame e1).1
    have hq4 : ∀ q, q ≠ t → q ≠ b.tup → s4.obj q = s.obj q := fun q h1 h2 => by
      rw [ho4]
      show upd s1.obj b.tup _ q = _
      rw [upd_ne _ _ h2, (mkObj_frame e1).2, upd_ne _ _ h1]
    refine ⟨b, s4, L, G, hbo, ?_, ?_, ⟨fun c n _ h => by rw [hm4]; exact h, fun q x hqx hx hqm => hq4 q ?_ ?_⟩,
      fun c => by rw [hm4], hq4 m hmt (hem b hb).symm⟩
    · have hp : pairOf { s1 with n := s1.n + 1 } b.tup = .ok (b.key, b.val) := M.pair b hb
      have hk' : nodeKey { s1 with n := s1.n + 1 } pp = .ok b.tup := hk
      simp only [mapAdd, h0, if_false, I.getObj hm, Res.bind_ok, hr0, e1, touch_ok kp h0, touch_ok vp hv, M.reads, e, hpp, hself,
        hk', ne_eq, hbt, not_false_eq_true, if_true, hp, e4]
    · rw [erase_last tL] at I4
      have : upd (upd (upd (upd A t (some (.pair m key value))) b.tup (some (.pair m b.key value))) m
          (some (.map kp vp cmp k (setVal cmp es key value)))) t none = withOld A m kp vp cmp k es b key value := by
        rw [upd_comm _ hmt, upd_comm _ hbt, upd_upd]
        unfold withOld
        rw [show upd A t none = A by rw [← tA, upd_self]]
      rw [← this]
      exact I4
    · rintro rfl; rw [tA] at hqx; simp at hqx
    · rintro rfl
      rw [M0.tups b hb, Option.some.injEq] at hqx
      subst hqx
      exact hx
  · right
    have hbo : bindOf cmp es key = none := bindOf_none fun e he => by
      rw [← M.key e he]; exact hno _ (List.mem_map.2 ⟨e, he, rfl⟩)
    refine ⟨hbo, ?_⟩
    rcases hrest with ⟨hf, s', e⟩ | ⟨h', root', r, hr, e, ⟨n, hn, hk⟩, T', hoff⟩
    · right
      refine ⟨?_, _, hf⟩
      simp only [mapAdd, h0, if_false, I.getObj hm, Res.bind_ok, hr0, e1, touch_ok kp h0, touch_ok vp hv, M.reads, e, if_true]
    · left
      have hnd : ((es ++ [(⟨key, value, t⟩ : Bind)]).map Bind.tup).Nodup := by
        rw [List.map_append, List.nodup_append]
        refine ⟨M.nodup, by simp, ?_⟩
        intro a ha b hb
        obtain ⟨e', he', rfl⟩ := List.mem_map.1 ha
        simp only [List.map_cons, List.map_nil, List.mem_singleton] at hb
        rw [hb]
        exact het e' he'
      obtain ⟨G2, I2⟩ := I1.grown hm1 M.tree hr T' hoff (o := .map kp vp cmp k root') (n := s1.n + 1)
        (x' := .map kp vp cmp k (es ++ [⟨key, value, t⟩]))
        (fun G' hT => ⟨M.ord, by simp; omega, root', upd_same .., by
          rw [List.map_append]
          refine hT.congr (fun _ _ => rfl) (fun x hx => ?_) (fun _ => Iff.rfl)
          rcases List.mem_append.1 hx with hx | hx
          · obtain ⟨e, he, rfl⟩ := List.mem_map.1 hx
            rw [M.key e he]
            exact keyIn_of hnd (List.mem_append_left _ he)
          · simp only [List.mem_singleton] at hx
            rw [hx, hkt1]
            exact keyIn_of hnd (e := ⟨key, value, t⟩) (by simp)⟩)
      have hk2 : upd (upd A t (some (.pair m key value))) m (some (.map kp vp cmp k (es ++ [⟨key, value, t⟩]))) k =
          some (.list (some m) (es.map fun e => some e.key)) := by
        rw [upd_ne _ _ hkm, upd_ne _ _ hkt]; exact M0.keys
      obtain ⟨s3, G3, e3, I3, ho3⟩ := append_ok hal I2 hk2 (by simpa using hlen) key
      refine ⟨t, s3, _, G3, t0, tA, ?_, I3, fun b n h1 h2 => ?_, fun q x hqx hx hqm => ?_⟩
      rotate_left
      · refine append_nodes hal I2 hk2 (by simpa using hlen) e3 (setNodes_node (by rw [(mkObj_frame e1).1]; exact h2) (hoff b ?_ h1))
        rintro rfl
        have := hr.2.2
        rw [(mkObj_frame e1).1, h2] at this; simp at this
      · rw [ho3 q]
        · show upd s1.obj m _ q = _
          rw [upd_ne _ _ hqm, (mkObj_frame e1).2, upd_ne]
          rintro rfl; rw [tA] at hqx; simp at hqx
        · rintro rfl
          rw [M0.keys, Option.some.injEq] at hqx
          subst hqx
          exact hx
      have hk' : nodeKey ⟨s1.ch, upd s1.obj m (.map kp vp cmp k root'), setNodes s1.mem h', s1.n + 1⟩ r = .ok t := by
        simp only [nodeKey, setNodes, hn, hk]
      simp only [mapAdd, h0, if_false, I.getObj hm, Res.bind_ok, hr0, e1, touch_ok kp h0, touch_ok vp hv, M.reads, e, hr.1, hk', ne_eq,
        not_true_eq_false, e3]

/-! ## Removal -/

theorem findKey_ok (cs : List (CList.Cell Nat)) (xs : List Nat) (key n i : Nat) (hn : i + n = xs.length)
    (h : cs.take xs.length = (xs.map some).map some) :
    findKey cmp key cs n i = .ok (((xs.drop i).findIdx? (fun e => cmp key e = 0)).map (i + ·)) := by
  induction n generalizing i with
  | zero => rw [List.drop_eq_nil_of_le (by omega)]; rfl
  | succ n ih =>
    have hi : i < xs.length := by omega
    have hci : cs[i]? = some (some (some xs[i])) := by
      have := congrArg (·[i]?) h
      simpa [List.getElem?_take, hi] using this
    rw [findKey, CList.Props.rd_ok hci, Res.bind_ok, List.drop_eq_getElem_cons hi, List.findIdx?_cons]
    by_cases hc : cmp key xs[i] = 0
    · simp [hc]
    · simp only [hc, if_false, decide_false]
      rw [ih (i + 1) (by omega)]
      simp only [Bool.false_eq_true, if_false, Option.map_map]
      congr 2
      funext x
      simp only [Function.comp_apply]
      omega

theorem findIdx_filter {α : Type} (P : α → Bool) (xs : List α) (hu : xs.Pairwise (fun a b => ¬ (P a = true ∧ P b = true)))
    {x : α} (hx : x ∈ xs) (hP : P x = true) :
    ∃ j, xs.findIdx? P = some j ∧ j < xs.length ∧ xs.eraseIdx j = xs.filter (fun a => !P a) := by
  induction xs with
  | nil => simp at hx
  | cons a xs ih =>
    rw [List.pairwise_cons] at hu
    by_cases ha : P a = true
    · refine ⟨0, by rw [List.findIdx?_cons, if_pos ha], by simp, ?_⟩
      simp only [List.eraseIdx_zero, List.tail_cons, List.filter_cons, ha, Bool.not_true, Bool.false_eq_true, if_false]
      symm
      rw [List.filter_eq_self]
      intro b hb
      have := hu.1 b hb
      simp only [ha, true_and] at this
      simpa using this
    · rcases List.mem_cons.1 hx with rfl | hx
      · exact absurd hP ha
      · obtain ⟨j, h1, h2, h3⟩ := ih hu.2 hx
        refine ⟨j + 1, ?_, by simpa using h2, ?_⟩
        · rw [List.findIdx?_cons]
          simp [ha, h1]
        · simp [List.eraseIdx_cons_succ, h3, ha]

theorem keyDelete_ok (I : Inv text s L A G) {o : Option Nat} {xs : List Nat} (hk : A k = some (.list o (xs.map some)))
    (hlen : xs.length < 2 ^ 31) (ho : IsOrd cmp) (hu : xs.Pairwise (fun a b => cmp a b ≠ 0)) {key x : Nat} (hx : x ∈ xs) (hq : cmp key x = 0) :
    ∃ s' G', keyDelete s cmp k key = .ok s' ∧
      Inv text s' L (upd A k (some (.list o ((xs.filter (fun a => cmp key a ≠ 0)).map some)))) G' := by
  obtain ⟨size, cap, a, cs, h1, h2, h3, h4⟩ := I.holds k _ hk
  obtain ⟨j, j1, j2, j3⟩ := findIdx_filter (fun e => decide (cmp key e = 0)) xs
    (hu.imp fun h => by simpa using fun h1 h2 => h (Map.ord_congr0 ho h1 h2)) hx (by simpa using hq)
  have hs : size = xs.length := by have := h3.size; simpa using this
  obtain ⟨s', G', e, I'⟩ := remove_ok I hk (by simpa using hlen) (j : Int) ⟨by omega, by omega⟩
  have hin : (0 : Int) ≤ j ∧ (j : Int) < (xs.map some).length := by simp; omega
  simp only [hin, and_self, decide_true, if_true, Int.toNat_natCast] at e I'
  refine ⟨s', G', ?_, ?_⟩
  · have hf := findKey_ok (cmp := cmp) cs xs key size 0 (by omega) (by have := h3.cont; simp only at this; rw [← hs]; exact this)
    rw [List.drop_zero, j1] at hf
    simp only [Option.map_some, Nat.zero_add] at hf
    simp only [keyDelete, I.getObj hk, Res.bind_ok, h1, getCells_ok h2, hf, e]
  · rw [List.eraseIdx_map, j3] at I'
    have : xs.filter (fun a => cmp key a ≠ 0) = xs.filter (fun a => !decide (cmp key a = 0)) := by
      congr 1; funext a; simp
    rw [this]
    exact I'

/-- the bindings of the other keys -/
def dropKey (cmp : Nat → Nat → Int) (es : List Bind) (key : Nat) : List Bind := es.filter fun e => cmp key e.key ≠ 0

/-- `cee_map_remove`: a key that is there -/
def withoutKey (A : Abs) (m : Nat) (kp vp : Policy) (cmp : Nat → Nat → Int) (k : Nat) (es : List Bind) (e : Bind) (key : Nat) : Abs :=
  upd (upd (upd A m (some (.map kp vp cmp k (dropKey cmp es key)))) e.tup none)
    k (some (.list (some m) ((dropKey cmp es key).map fun e => some e.key)))

theorem mapRemove_ok (I : Inv text s L A G) (K : Links A) (hm : A m = some (.map kp vp cmp k es))
    (hlen : es.length < 2 ^ 31) {key : Nat} (h0 : key ≠ 0) :
    (∃ e s' L' G', bindOf cmp es key = some e ∧ mapRemove s m key = .ok (s', e.val) ∧
      Inv text s' L' (withoutKey A m kp vp cmp k es e key) G') ∨
    (bindOf cmp es key = none ∧ mapRemove s m key = .ok (s, 0)) := by
  obtain ⟨root, M⟩ := I.isMap' K hm
  have hem : ∀ e ∈ es, e.tup ≠ m := by
    intro e he h
    have := M.tups e he
    rw [h, hm] at this; simp at this
  have hkm : k ≠ m := by
    intro h
    have := M.keys
    rw [h, hm] at this; simp at this
  rcases treeFind_ok M.ord M.tree M.tlen key with ⟨e, hno⟩ | ⟨pp, x, e, hpp, hk, hx, hq⟩
  · right
    have hbo : bindOf cmp es key = none := bindOf_none fun e he => by
      rw [← M.key e he]; exact hno _ (List.mem_map.2 ⟨e, he, rfl⟩)
    refine ⟨hbo, ?_⟩
    simp only [mapRemove, h0, if_false, I.getObj hm, Res.bind_ok, M.obj, M.reads, e, if_true]
  · left
    obtain ⟨b, hb, rfl⟩ := List.mem_map.1 hx
    have hkb : k ≠ b.tup := by
      intro h
      have := M.keys
      rw [h, M.tups b hb] at this; simp at this
    obtain ⟨h', root', y, ed, hy, T', hoff⟩ := treeDelete_ok M.ord M.tree M.tlen hx hq
    rw [M.key b hb] at hq
    have hbo : bindOf cmp es key = some b := bindOf_some M.ord M.uniq hb hq
    have hfil : (es.map Bind.tup).filter (fun e => cmp key (keyOf s e) ≠ 0) = (dropKey cmp es key).map Bind.tup := by
      rw [List.filter_map, dropKey]
      congr 1
      refine List.filter_congr fun e he => ?_
      simp only [Function.comp, M.key e he]
    have hsub : (dropKey cmp es key).Sublist es := List.filter_sublist
    obtain ⟨G1, I1⟩ := I.shrunk hm M.tree hy T' hoff (o := .map kp vp cmp k root') (n := s.n)
      (x' := .map kp vp cmp k (dropKey cmp es key))
      (fun G' hT => ⟨M.ord, Nat.le_trans hsub.length_le M.len, root', upd_same .., by
        rw [← hfil]
        refine hT.congr (fun _ _ => rfl) (fun x hx => ?_) (fun _ => Iff.rfl)
        rw [hfil] at hx
        obtain ⟨e, he, rfl⟩ := List.mem_map.1 hx
        rw [M.key e (hsub.subset he)]
        exact keyIn_of ((hsub.map _).nodup M.nodup) he⟩)
    have hb1 : upd A m (some (.map kp vp cmp k (dropKey cmp es key))) b.tup = some (.pair m b.key b.val) := by
      rw [upd_ne _ _ (hem b hb)]; exact M.tups b hb
    obtain ⟨s2, e2, I2, _⟩ := plainFree_ok I1 hb1 (I1.holds _ _ hb1).2
    obtain ⟨s3, G3, e3, I3⟩ := keyDelete_ok I2 (k := k) (o := some m) (xs := es.map Bind.key) (cmp := cmp) (key := key) (x := b.key)
      (by rw [upd_ne _ _ hkb, upd_ne _ _ hkm, List.map_map]; exact M.keys) (by simpa using hlen) M.ord
      (List.pairwise_map.2 M.uniq) (List.mem_map.2 ⟨b, hb, rfl⟩) hq
    refine ⟨b, s3, L.erase b.tup, G3, hbo, ?_, ?_⟩
    · have hp : pairOf ⟨s.ch, upd s.obj m (.map kp vp cmp k root'), setNodes s.mem h', s.n⟩ b.tup = .ok (b.key, b.val) := by
        have := M.pair b hb
        simp only [pairOf, getObj, upd_ne _ _ (hem b hb)] at this ⊢
        exact this
      simp only [mapRemove, h0, if_false, I.getObj hm, Res.bind_ok, M.obj, M.reads, e, hpp, hk, ed, hp, e2, e3]
    · have : ((es.map Bind.key).filter (fun a => cmp key a ≠ 0)).map some = (dropKey cmp es key).map fun e => some e.key := by
        rw [List.filter_map, List.map_map]
        rfl
      rw [this] at I3
      exact I3

/-! ## Deletion -/

/-- the blocks `ts` leave -/
def without (A : Abs) (ts : List Nat) : Abs := fun p => if p ∈ ts then none else A p

theorem delPairs_ok (kv : Nat → Nat × Nat) (ts : List Nat) {s : St} {L : List Nat} {A : Abs} (I : Inv text s L A G) (hn : ts.Nodup)
    (ht : ∀ t ∈ ts, A t = some (.pair m (kv t).1 (kv t).2)) :
    ∃ s' L', delPairs ts s = .ok (s', ts.flatMap fun t => [ptr (kv t).1, ptr (kv t).2]) ∧ Inv text s' L' (without A ts) G := by
  induction ts generalizing s L A with
  | nil => exact ⟨s, L, rfl, by rw [show without A [] = A by funext p; simp [without]]; exact I⟩
  | cons t ts ih =>
    rw [List.nodup_cons] at hn
    have h1 := ht t (by simp)
    have hh := I.holds t _ h1
    obtain ⟨s1, e1, I1, _⟩ := plainFree_ok I h1 hh.2
    obtain ⟨s2, L2, e2, I2⟩ := ih I1 hn.2 (fun t' h' => by
      rw [upd_ne _ _ (by rintro rfl; exact hn.1 h')]
      exact ht t' (List.mem_cons_of_mem _ h'))
    refine ⟨s2, L2, ?_, ?_⟩
    · simp only [delPairs, pairOf, I.getObj h1, Res.bind_ok, hh.1, e1, e2, List.flatMap_cons, List.cons_append, List.nil_append]
    · have : without (upd A t none) ts = without A (t :: ts) := by
        funext p
        simp only [without, upd, List.mem_cons]
        by_cases h : p = t <;> simp [h]
      rw [← this]
      exact I2

/-- a map leaves, with its list of keys and its tuples -/
def withoutMap (A : Abs) (m k : Nat) (es : List Bind) : Abs := without A (m :: k :: es.map Bind.tup)

theorem mapDel_ok (I : Inv text s L A G) (K : Links A) (hm : A m = some (.map kp vp cmp k es)) :
    ∃ s' L' G' ds, mapDel s m = .ok (s', es.map (fun e => some e.key) ++ ds) ∧
      ds.Perm (es.flatMap fun e => [ptr e.key, ptr e.val]) ∧ Inv text s' L' (withoutMap A m k es) G' := by
  obtain ⟨root, M⟩ := I.isMap' K hm
  have hem : ∀ e ∈ es, e.tup ≠ m := by
    intro e he h
    have := M.tups e he
    rw [h, hm] at this; simp at this
  have hek : ∀ e ∈ es, e.tup ≠ k := by
    intro e he h
    have := M.tups e he
    rw [h, M.keys] at this; simp at this
  have hkm : k ≠ m := by
    intro h
    have := M.keys
    rw [h, hm] at this; simp at this
  obtain ⟨s1, G1, e1, I1, o1⟩ := listDel_ok I M.keys
  have hm1 : upd A k none m = some (.map kp vp cmp k es) := by rw [upd_ne _ _ hkm.symm]; exact hm
  obtain ⟨_, hl, root1, hobj1, T1⟩ := I1.holds m _ hm1
  rw [o1, M.obj, Obj.map.injEq] at hobj1
  obtain ⟨-, -, -, -, rfl⟩ := hobj1
  obtain ⟨h', ks, e2, hks, c1, c2, _⟩ := treeDestroy_ok T1 (by simpa using hl)
  obtain ⟨G2, I2⟩ := I1.cleared hm1 T1 c1 c2 (o := s1.obj m) (n := s1.n) (x' := .gone) (fun G' hG' => hG')
  rw [upd_self] at I2
  have hksm : ∀ {t}, t ∈ ks → ∃ e ∈ es, e.tup = t := fun h => List.mem_map.1 (hks.mem_iff.1 h)
  obtain ⟨s3, L3, e3, I3⟩ := delPairs_ok (m := m) (fun t => (keyIn es t, valIn es t)) ks I2
    (hks.nodup_iff.2 M.nodup) (fun t h => by
      obtain ⟨e, he, rfl⟩ := hksm h
      rw [upd_ne _ _ (hem e he), upd_ne _ _ (hek e he), M.tups e he, keyIn_of M.nodup he, valIn_of M.nodup he])
  have hm3 : without (upd (upd A k none) m (some .gone)) ks m = some .gone := by
    simp only [without, upd_same, ite_eq_right_iff]
    intro h
    obtain ⟨e, he, h⟩ := hksm h
    exact absurd h (hem e he)
  obtain ⟨s4, e4, I4, _⟩ := plainFree_ok I3 hm3 (I3.holds _ _ hm3)
  refine ⟨s4, L3.erase m, G2, ks.flatMap fun t => [ptr (keyIn es t), ptr (valIn es t)], ?_, ?_, ?_⟩
  · simp only [plainFree] at e4
    simp only [mapDel, I.getObj hm, Res.bind_ok, M.obj, e1, e2, e3]
    cases hd : deChain s3 m with
    | ub => rw [hd] at e4; simp [Res.bind] at e4
    | segv => rw [hd] at e4; simp [Res.bind] at e4
    | ok s5 =>
      rw [hd, Res.bind_ok] at e4
      rw [Res.bind_ok, e4, Res.bind_ok]
  · refine (hks.flatMap_right _).trans ?_
    rw [List.flatMap_map]
    refine List.Perm.of_eq ?_
    refine List.flatMap_congr fun e he => ?_
    simp only [keyIn_of M.nodup he, valIn_of M.nodup he]
  · have : upd (without (upd (upd A k none) m (some .gone)) ks) m none = withoutMap A m k es := by
      funext p
      have hp : p ∈ ks ↔ p ∈ es.map Bind.tup := hks.mem_iff
      simp only [withoutMap, without, upd, List.mem_cons, hp]
      by_cases h1 : p = m
      · simp [h1]
      · by_cases h2 : p = k
        · simp [h2, hkm]
        · simp [h1, h2]
    rw [← this]
    exact I4

end Verif.Own
