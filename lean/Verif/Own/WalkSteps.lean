import Verif.Own.WalkLemmas

/-!
# Walks over maps and sets while memory changes: the calls

From any state a history of legal calls can reach (`Reach`), with an arbitrary allocator.
-/

namespace Verif.Own.WalkProps

open Verif.Chain (upd)
open Verif.TreeMem (addr addrs forget TNode)
open Verif.Map.Spec (IsOrd)
open Props (Reach Step Legal Op Out exec treeAddrs blocks)

variable {al : Malloc} {text : Nat → Hash.Key} {s : St} {A : Abs}

/-! ## Lists of keys, values and members -/

section
variable {m k : Nat} {kp vp : Policy} {cmp : Nat → Nat → Int} {es : List Bind}

/-- the tree of a map, and its bindings in the order of a walk -/
theorem treeOf (hal : al.Sound) (h : Reach al text s A) (hm : A m = some (.map kp vp cmp k es)) :
    ∃ (t : TreeMem.LT Nat) (ts : List Bind), s.obj m = .map kp vp cmp k (addr t) ∧ TreeMem.Holds (nodes s.mem) t ∧ Tree.Inv (forget t) ∧
      Tree.realHeight t < 96 ∧ ts.Perm es ∧ order t = ts.map Bind.tup := by
  obtain ⟨L, G, I, K⟩ := h.inv hal
  obtain ⟨root, M⟩ := I.isMap' K hm
  obtain ⟨t, rfl, ht, hi, hh, hp, _⟩ := M.tree.out (by have := M.tlen; omega)
  refine ⟨t, (order t).map fun x => ⟨keyIn es x, valIn es x, x⟩, M.obj, ht, hi, hh, ?_, by simp [Function.comp_def]⟩
  have := hp.map fun x => (⟨keyIn es x, valIn es x, x⟩ : Bind)
  refine this.trans (List.Perm.of_eq ?_)
  rw [List.map_map]
  conv_rhs => rw [← List.map_id es]
  refine List.map_congr_left fun e he => ?_
  simp only [Function.comp_apply, keyIn_of M.nodup he, valIn_of M.nodup he, id_eq]

/-- a tuple of a map can be read -/
theorem pair_ok (hal : al.Sound) {s' : St} {A' : Abs} (h : Reach al text s' A') (hm : A' m = some (.map kp vp cmp k es)) {e : Bind}
    (he : e ∈ es) : pairOf s' e.tup = .ok (e.key, e.val) ∧ e.key ≠ 0 ∧ e.val ≠ 0 := by
  obtain ⟨L, G, I, K⟩ := h.inv hal
  obtain ⟨root, M⟩ := I.isMap' K hm
  exact ⟨M.pair e he, h.solid m _ hm e he⟩

theorem ptr_some {p : Nat} (h : p ≠ 0) : ptr p = some p := by simp [ptr, h]

theorem lists_ok (hal : al.Sound) (h : Reach al text s A) (hm : A m = some (.map kp vp cmp k es)) (hlen : es.length < 2 ^ 31) {n : Nat}
    (hn : n < 2 ^ 60) {t : TreeMem.LT Nat} {ts : List Bind} (ho : s.obj m = .map kp vp cmp k (addr t))
    (ht : TreeMem.Holds (nodes s.mem) t) (hi : Tree.Inv (forget t)) (hh : Tree.realHeight t < 96) (hp : ts.Perm es)
    (hts : order t = ts.map Bind.tup) :
    (∃ s' l, mapKeys al s m n = .ok (s', l) ∧ l ≠ 0 ∧ A l = none ∧
      Reach al text s' (upd A l (some (.list none (ts.map fun e => some e.key)))) ∧ TreeMem.Holds (nodes s'.mem) t ∧ s'.obj m = s.obj m) ∧
    (∃ s' l, mapValues al s m n = .ok (s', l) ∧ l ≠ 0 ∧ A l = none ∧
      Reach al text s' (upd A l (some (.list none (ts.map fun e => some e.val)))) ∧ TreeMem.Holds (nodes s'.mem) t ∧ s'.obj m = s.obj m) := by
  obtain ⟨L, G, I, K⟩ := h.inv hal
  have hnd := (K.map hm).2.2
  have hol : (order t).length < 2 ^ 31 := by rw [hts, List.length_map, hp.length_eq]; exact hlen
  have hm' : ∀ l ys, A l = none → upd A l (some (.list none ys)) m = some (.map kp vp cmp k es) := by
    intro l ys hl
    rw [upd_ne, hm]
    rintro rfl; rw [hm] at hl; simp at hl
  have hmap : ∀ f g : Nat → Nat, (∀ e ∈ es, f e.tup = g e.tup) → (order t).map f = (order t).map g := by
    intro f g hfg
    refine List.map_congr_left fun x hx => ?_
    rw [hts] at hx
    obtain ⟨e, he, rfl⟩ := List.mem_map.1 hx
    exact hfg e (hp.mem_iff.1 he)
  constructor
  · obtain ⟨s1, s', l, e1, e2, l0, lA, r, kk, oo⟩ := collect hal h hn ht hi hh hol (getKey al) (keyIn es) (by
      intro l s' ys x hl hr hx
      rw [hts] at hx
      obtain ⟨e, he, rfl⟩ := List.mem_map.1 hx
      obtain ⟨e1, e2, _⟩ := pair_ok hal hr (hm' l ys hl) (hp.mem_iff.1 he)
      rw [getKey, e1, Res.bind_ok, ptr_some e2, keyIn_of hnd (hp.mem_iff.1 he)])
    refine ⟨s', l, ?_, l0, lA, ?_, holds_of_nodes ht fun b n _ hb => kk b n hb, oo m (by rintro rfl; rw [hm] at lA; simp at lA)⟩
    · simp only [mapKeys, I.getObj hm, Res.bind_ok, ho, e1, e2]
    · rw [hts, List.map_map] at r
      rwa [List.map_congr_left (g := fun e => some e.key)] at r
      intro e he
      simp only [Function.comp_apply, keyIn_of hnd (hp.mem_iff.1 he)]
  · obtain ⟨s1, s', l, e1, e2, l0, lA, r, kk, oo⟩ := collect hal h hn ht hi hh hol (getValue al) (valIn es) (by
      intro l s' ys x hl hr hx
      rw [hts] at hx
      obtain ⟨e, he, rfl⟩ := List.mem_map.1 hx
      obtain ⟨e1, _, e2⟩ := pair_ok hal hr (hm' l ys hl) (hp.mem_iff.1 he)
      rw [getValue, e1, Res.bind_ok, ptr_some e2, valIn_of hnd (hp.mem_iff.1 he)])
    refine ⟨s', l, ?_, l0, lA, ?_, holds_of_nodes ht fun b n _ hb => kk b n hb, oo m (by rintro rfl; rw [hm] at lA; simp at lA)⟩
    · simp only [mapValues, I.getObj hm, Res.bind_ok, ho, e1, e2]
    · rw [hts, List.map_map] at r
      rwa [List.map_congr_left (g := fun e => some e.val)] at r
      intro e he
      simp only [Function.comp_apply, valIn_of hnd (hp.mem_iff.1 he)]

/-- a list can be read -/
theorem listOf_ok (hal : al.Sound) (h : Reach al text s A) {v : Nat} {o : Option Nat} {ys : List (Option Nat)}
    (hv : A v = some (.list o ys)) : ∃ a cs, listOf s v = .ok (ys.length, a) ∧ getCells s a = .ok cs ∧
      ∀ (i : Nat) (hi : i < ys.length), CList.rd cs i = .ok ys[i] := by
  obtain ⟨L, G, I, K⟩ := h.inv hal
  obtain ⟨size, cap, a, cs, h1, h2, h3, h4⟩ := I.holds v _ hv
  refine ⟨a, cs, ?_, getCells_ok h2, fun i hi => ?_⟩
  · have : size = ys.length := h3.size
    simp only [listOf, I.getObj hv, Res.bind_ok, h1, this]
  · have := congrArg (·[i]?) h3.cont
    have hs : size = ys.length := h3.size
    simp only [hs, List.getElem?_take, hi, if_true, List.getElem?_map, List.getElem?_eq_getElem hi, Option.map_some] at this
    exact CList.Props.rd_ok this

theorem copyList_ok (hal : al.Sound) {k l : Nat} {o : Option Nat} {ks : List Nat} (hlen : ks.length < 2 ^ 31)
    (hk : A k = some (.list o (ks.map some))) (hl : A l = none) :
    ∀ (n i : Nat) (s : St), i + n = ks.length → Reach al text s (upd A l (some (.list none ((ks.take i).map some)))) →
      ∃ s', copyList al k l n i s = .ok s' ∧ Reach al text s' (upd A l (some (.list none (ks.map some)))) := by
  intro n
  induction n with
  | zero =>
    intro i s hi hr
    rw [List.take_of_length_le (by omega)] at hr
    exact ⟨s, rfl, hr⟩
  | succ n ih =>
    intro i s hi hr
    have hlt : i < ks.length := by omega
    have hkl : k ≠ l := by rintro rfl; rw [hk] at hl; simp at hl
    obtain ⟨a, cs, e1, e2, e3⟩ := listOf_ok hal hr (v := k) (by rw [upd_ne _ _ hkl]; exact hk)
    obtain ⟨s1, e4, r1, _⟩ := hr.append hal (upd_same ..) (by simp; omega) ks[i]
    rw [upd_upd] at r1
    obtain ⟨s', e5, r5⟩ := ih (i + 1) s1 (by omega) (by
      rw [List.take_add_one, List.getElem?_eq_getElem hlt, Option.toList_some, List.map_append]
      exact r1)
    refine ⟨s', ?_, r5⟩
    simp only [copyList, e1, Res.bind_ok, e2, e3 i (by simpa using hlt), List.getElem_map, e4, e5]

end

/-! ## Merging -/

/-- a key and a value are put into a map, kept as the list of its keys and values -/
def put (cmp : Nat → Nat → Int) (l : List (Nat × Nat)) (kv : Nat × Nat) : List (Nat × Nat) :=
  if l.any (fun x => cmp kv.1 x.1 = 0) then l.map fun x => if cmp kv.1 x.1 = 0 then (x.1, kv.2) else x
  else l ++ [kv]

/-- the keys and values of a map -/
def kvs (es : List Bind) : List (Nat × Nat) := es.map fun e => (e.key, e.val)

/-- From `A` with the map `m` holding `es` to `A'` with `m` holding `es'`: the tuples of `es'` are those of `es` and new blocks, nothing
else is new, and nothing else has changed but `m`, its tuples and its list of keys `k`. -/
structure Only (A A' : Abs) (m k : Nat) (es es' : List Bind) : Prop where
  same : ∀ q, q ≠ m → q ≠ k → q ∉ es.map Bind.tup → A q ≠ none → A' q = A q
  tups : ∀ q ∈ es'.map Bind.tup, q ∈ es.map Bind.tup ∨ A q = none
  kept : ∀ q ∈ es.map Bind.tup, q ∈ es'.map Bind.tup
  new : ∀ q, A q = none → A' q ≠ none → q ∈ es'.map Bind.tup

theorem Only.refl {m k : Nat} (es : List Bind) : Only A A m k es es :=
  ⟨fun _ _ _ _ _ => rfl, fun _ h => .inl h, fun _ h => h, fun _ h h' => absurd h h'⟩

theorem Only.trans {A' A'' : Abs} {m k : Nat} {es es' es'' : List Bind} (h : Only A A' m k es es') (h' : Only A' A'' m k es' es'')
    (hm : A' m ≠ none) (hk : A' k ≠ none) : Only A A'' m k es es'' := by
  refine ⟨fun q h1 h2 h3 h4 => ?_, fun q hq => ?_, fun q hq => h'.kept q (h.kept q hq), fun q h1 h2 => ?_⟩
  · have e := h.same q h1 h2 h3 h4
    rw [h'.same q h1 h2 (fun hq => (h.tups q hq).elim h3 h4) (by rw [e]; exact h4), e]
  · rcases h'.tups q hq with h1 | h1
    · exact h.tups q h1
    · by_cases h2 : A q = none
      · exact .inr h2
      · left
        by_contra h3
        have h4 : q ≠ m := by rintro rfl; exact hm h1
        have h5 : q ≠ k := by rintro rfl; exact hk h1
        rw [h.same q h4 h5 h3 h2] at h1
        exact h2 h1
  · by_cases h3 : A' q = none
    · exact h'.new q h3 h2
    · exact h'.kept q (h.new q h1 h3)

section
variable {m k : Nat} {kp vp : Policy} {cmp : Nat → Nat → Int} {es : List Bind}

theorem mapAdd_reach (hal : al.Sound) (h : Reach al text s A) (hm : A m = some (.map kp vp cmp k es)) (hlen : es.length < 2 ^ 31)
    {key value : Nat} (h0 : key ≠ 0) (hv : value ≠ 0) :
    (∃ s' o A' es', mapAdd al s m key value = .ok (s', o) ∧ Reach al text s' A' ∧ A' m = some (.map kp vp cmp k es') ∧
      kvs es' = put cmp (kvs es) (key, value) ∧ es'.length ≤ es.length + 1 ∧ Only A A' m k es es' ∧
      ∀ (q : Nat) (x : SObj) (t : TreeMem.LT Nat), A q = some x → x.hasTree → q ≠ m → TreeMem.Holds (nodes s.mem) t →
        blocks s q = treeAddrs s 96 (addr t) → Tree.realHeight t < 96 → TreeMem.Holds (nodes s'.mem) t ∧ s'.obj q = s.obj q) ∨
    (mapAdd al s m key value = .segv ∧ ∃ i, al.fails i = true) := by
  obtain ⟨L, G, I, K⟩ := h.inv hal
  obtain ⟨hk, ht, hnd⟩ := K.map hm
  have hleg : Legal A (.mapAdd m key value) := ⟨_, _, _, _, _, hm, hlen, fun _ => hv⟩
  have hkm : k ≠ m := by rintro rfl; rw [hm] at hk; simp at hk
  have htm : ∀ e ∈ es, e.tup ≠ m := by
    intro e he h'; have := ht e he; rw [h', hm] at this; simp at this
  rcases mapAdd_ok hal I K hm hlen h0 hv with ⟨e, s', L', G', hb, e1, I', hkept, _⟩ | ⟨hb, ⟨t, s', L', G', t0, tA, e1, I', hkept⟩ | ⟨e1, why⟩⟩
  · obtain ⟨he, hq⟩ := bindOf_mem hb
    refine .inl ⟨s', _, _, setVal cmp es key value, e1, h.step hleg (by simp only [exec, e1, Res.bind_ok]) (.mapOld h0 hm hb),
      upd_same .., ?_, by simp [setVal], ⟨?_, ?_, ?_, ?_⟩, fun q x t hq hx hqm ht hb hh => keepTree I hkept hq hx hqm ht hb hh⟩
    · have hany : (kvs es).any (fun x => cmp key x.1 = 0) = true := by
        simp only [kvs, List.any_map, List.any_eq_true, Function.comp_apply, decide_eq_true_eq]
        exact ⟨e, he, hq⟩
      simp only [put, hany, if_true]
      simp only [kvs, setVal, List.map_map]
      refine List.map_congr_left fun x _ => ?_
      simp only [Function.comp_apply]
      split <;> rfl
    · intro q h1 h2 h3 h4
      rw [upd_ne _ _ h1, upd_ne]
      rintro rfl
      exact h3 (List.mem_map.2 ⟨e, he, rfl⟩)
    · intro q hq'; rw [setVal_tup] at hq'; exact .inl hq'
    · intro q hq'; rw [setVal_tup]; exact hq'
    · intro q h1 h2
      simp only [upd] at h2
      split at h2
      · next h3 => rw [h3, hm] at h1; simp at h1
      · split at h2
        · next h3 => rw [h3, ht e he] at h1; simp at h1
        · exact absurd h1 h2
  · refine .inl ⟨s', _, _, es ++ [⟨key, value, t⟩], e1,
      h.step hleg (by simp only [exec, e1, Res.bind_ok]) (.mapNew h0 hm (Props.mapOut hb) t0 tA),
      by rw [upd_ne _ _ hkm.symm, upd_same], ?_, by simp, ⟨?_, ?_, ?_, ?_⟩, fun q x t hq hx hqm ht hb hh => keepTree I hkept hq hx hqm ht hb hh⟩
    · have hany : (kvs es).any (fun x => cmp key x.1 = 0) = false := by
        simp only [kvs, List.any_map, List.any_eq_false, Function.comp_apply, decide_eq_true_eq]
        exact Props.mapOut hb
      simp only [put, hany, Bool.false_eq_true, if_false]
      simp [kvs]
    · intro q h1 h2 h3 h4
      rw [upd_ne _ _ h2, upd_ne _ _ h1, upd_ne]
      rintro rfl
      exact h4 tA
    · intro q hq
      simp only [List.map_append, List.mem_append, List.map_cons, List.map_nil, List.mem_singleton] at hq
      rcases hq with hq | rfl
      · exact .inl hq
      · exact .inr tA
    · intro q hq; simp only [List.map_append, List.mem_append]; exact .inl hq
    · intro q h1 h2
      simp only [upd] at h2
      split at h2
      · next h3 => rw [h3, hk] at h1; simp at h1
      · split at h2
        · next h3 => rw [h3, hm] at h1; simp at h1
        · split at h2
          · next h3 => simp [h3]
          · exact absurd h1 h2
  · exact .inr ⟨e1, why⟩

/-- the walk of a merge -/
theorem merge_reach (hal : al.Sound) (h : Reach al text s A) {src k' : Nat} {kp' vp' : Policy} {cmp' : Nat → Nat → Int} {fs : List Bind}
    (hm : A m = some (.map kp vp cmp k es)) (hs : A src = some (.map kp' vp' cmp' k' fs)) (hne : src ≠ m)
    (hlen : es.length + fs.length ≤ 2 ^ 31) :
    ∃ ts : List Bind, ts.Perm fs ∧
    ((∃ s' A' es', mapMerge al s m src = .ok s' ∧ Reach al text s' A' ∧ A' m = some (.map kp vp cmp k es') ∧
      kvs es' = (kvs ts).foldl (put cmp) (kvs es) ∧ Only A A' m k es es') ∨
     (mapMerge al s m src = .segv ∧ ∃ i, al.fails i = true)) := by
  obtain ⟨t, ts, ho, ht, hi, hh, hp, hts⟩ := treeOf hal h hs
  refine ⟨ts, hp, ?_⟩
  obtain ⟨L, G, I, K⟩ := h.inv hal
  have hks : src ≠ k := by
    rintro rfl
    have := (K.map hm).1
    rw [hs] at this; simp at this
  have htu : src ∉ es.map Bind.tup := by
    intro hx
    obtain ⟨e, he, rfl⟩ := List.mem_map.1 hx
    have := (K.map hm).2.1 e he
    rw [hs] at this; simp at this
  have hb : ∀ s', s'.obj src = s.obj src → blocks s' src = treeAddrs s' 96 (addr t) := by
    intro s' h'
    simp only [blocks, h', ho]
  have := walk_ok (st := id) (act := addKv al m) (F := ∃ i, al.fails i = true) (full := order t)
    (P := fun done s' => ∃ (A' : Abs) (es' : List Bind) (ds : List Bind), Reach al text s' A' ∧ A' m = some (.map kp vp cmp k es') ∧
      ds.map Bind.tup = done ∧ (∀ d ∈ ds, d ∈ fs) ∧ kvs es' = (kvs ds).foldl (put cmp) (kvs es) ∧ es'.length ≤ es.length + done.length ∧
      Only A A' m k es es' ∧ TreeMem.Holds (nodes s'.mem) t ∧ s'.obj src = s.obj src)
    (fun done x rest s2 hfull hP => by
      obtain ⟨A', es', ds, hr, hm', hd, hdf, hkv, hl', hO, hT, ho'⟩ := hP
      have hx : x ∈ fs.map Bind.tup := by
        have : x ∈ order t := by rw [hfull]; simp
        rw [hts] at this
        exact (hp.map _).mem_iff.1 this
      obtain ⟨e, he, rfl⟩ := List.mem_map.1 hx
      have hs' : A' src = some (.map kp' vp' cmp' k' fs) := by
        rw [hO.same src hne hks htu (by rw [hs]; simp), hs]
      obtain ⟨e1, e2, e3⟩ := pair_ok hal hr hs' he
      have hdl : done.length < fs.length := by
        have := congrArg List.length hfull
        rw [hts] at this
        simp only [List.length_append, List.length_cons, List.length_map, hp.length_eq] at this
        omega
      rcases mapAdd_reach hal hr hm' (by omega) e2 e3 with ⟨s3, o, A3, es3, e4, r4, hm4, hkv4, hl4, hO4, hT4⟩ | ⟨e4, hF⟩
      · obtain ⟨hT5, ho5⟩ := hT4 src _ t hs' trivial hne hT (hb s2 ho') hh
        obtain ⟨_, _, _, K'⟩ := hr.inv hal
        refine .inl ⟨s3, ?_, A3, es3, ds ++ [e], r4, hm4, by simp [hd], ?_, ?_, by simp; omega, ?_, hT5, by rw [ho5, ho']⟩
        · simp only [addKv, e1, Res.bind_ok, e4]
        · intro d hd'
          rcases List.mem_append.1 hd' with h' | h'
          · exact hdf d h'
          · rw [List.mem_singleton] at h'; rw [h']; exact he
        · rw [hkv4, hkv]; simp [kvs]
        · exact hO.trans hO4 (by rw [hm']; simp) (by rw [(K'.map hm').1]; simp)
      · exact .inr ⟨by simp only [addKv, e1, Res.bind_ok, e4, Res.bind], hF⟩)
    t hi (fun done s2 hP => by obtain ⟨_, _, _, _, _, _, _, _, _, _, hT, _⟩ := hP; exact hT) 96 hh [] [] (by simp) s
    ⟨A, es, [], h, hm, rfl, by simp, rfl, by simp, Only.refl es, ht, rfl⟩
  rcases this with ⟨s', e, A', es', ds, hr, hm', hd, hdf, hkv, _, hO, _⟩ | ⟨e, hF⟩
  · refine .inl ⟨s', A', es', ?_, hr, hm', ?_, hO⟩
    · simp only [mapMerge, I.getObj hs, Res.bind_ok, ho, e]
    · rw [List.nil_append, hts] at hd
      have hnd := (K.map hs).2.2
      have : ds = ts := by
        have e1 : ds.map (fun e => (⟨keyIn fs e.tup, valIn fs e.tup, e.tup⟩ : Bind)) = ds := by
          conv_rhs => rw [← List.map_id ds]
          exact List.map_congr_left fun e he => by simp only [keyIn_of hnd (hdf e he), valIn_of hnd (hdf e he), id_eq]
        have e2 : ts.map (fun e => (⟨keyIn fs e.tup, valIn fs e.tup, e.tup⟩ : Bind)) = ts := by
          conv_rhs => rw [← List.map_id ts]
          exact List.map_congr_left fun e he => by
            simp only [keyIn_of hnd (hp.mem_iff.1 he), valIn_of hnd (hp.mem_iff.1 he), id_eq]
        rw [← e1, ← e2]
        have := congrArg (List.map fun x => (⟨keyIn fs x, valIn fs x, x⟩ : Bind)) hd
        simpa [List.map_map, Function.comp_def] using this
      rw [hkv, this]
  · exact .inr ⟨by simp only [mapMerge, I.getObj hs, Res.bind_ok, ho, e], hF⟩

end

/-! ## Sets -/

theorem setTree (hal : al.Sound) (h : Reach al text s A) {p : Nat} {pol : Policy} {cmp : Nat → Nat → Int} {xs : List Nat}
    (hp : A p = some (.set pol cmp xs)) : ∃ t : TreeMem.LT Nat, s.obj p = .set pol cmp (addr t) ∧ TreeMem.Holds (nodes s.mem) t ∧
      Tree.Inv (forget t) ∧ Tree.realHeight t < 96 ∧ (order t).Perm xs ∧ IsOrd cmp ∧ xs.Pairwise (fun x y => cmp x y ≠ 0) ∧ xs.length ≤ 2 ^ 31 := by
  obtain ⟨L, G, I, K⟩ := h.inv hal
  obtain ⟨ho, hl, root, h1, T⟩ := I.holds p _ hp
  obtain ⟨t, rfl, ht, hi, hh, hp, _⟩ := T.out (by omega)
  exact ⟨t, h1, ht, hi, hh, hp, ho, T.uniq ho, hl⟩

theorem setAdd_reach (hal : al.Sound) (h : Reach al text s A) {p : Nat} {pol : Policy} {cmp : Nat → Nat → Int} {xs : List Nat}
    (hp : A p = some (.set pol cmp xs)) (hlen : xs.length < 2 ^ 31) {x : Nat} (hx : x ≠ 0) :
    (∃ s', setAdd al s p x = .ok s' ∧ Reach al text s' (upd A p (some (.set pol cmp (Set.Spec.insert cmp xs x)))) ∧
      ∀ (q : Nat) (y : SObj) (t : TreeMem.LT Nat), A q = some y → y.hasTree → q ≠ p → TreeMem.Holds (nodes s.mem) t →
        blocks s q = treeAddrs s 96 (addr t) → Tree.realHeight t < 96 → TreeMem.Holds (nodes s'.mem) t ∧ s'.obj q = s.obj q) ∨
    (setAdd al s p x = .segv ∧ ∃ i, al.fails i = true) := by
  obtain ⟨L, G, I, K⟩ := h.inv hal
  rcases setAdd_ok hal I hp hlen hx with ⟨s', G', e, I', hk⟩ | ⟨e, why⟩
  · exact .inl ⟨s', e, h.step (op := .setAdd p x) ⟨_, _, _, hp, hlen, hx⟩ (by simp only [exec, e, Res.bind_ok]) (.setAdd hp),
      fun q x t hq hx hqm ht hb hh => keepTree I hk hq hx hqm ht hb hh⟩
  · exact .inr ⟨e, why⟩

theorem setValues_reach (hal : al.Sound) (h : Reach al text s A) {p : Nat} {pol : Policy} {cmp : Nat → Nat → Int} {xs : List Nat}
    (hp : A p = some (.set pol cmp xs)) (hlen : xs.length < 2 ^ 31) {n : Nat} (hn : n < 2 ^ 60) :
    ∃ s' l, ∃ ys : List Nat, setValues al s p n = .ok (s', l) ∧ l ≠ 0 ∧ A l = none ∧ ys.Perm xs ∧
      Reach al text s' (upd A l (some (.list none (ys.map some)))) := by
  obtain ⟨t, ho, ht, hi, hh, hpm, _⟩ := setTree hal h hp
  obtain ⟨L, G, I, K⟩ := h.inv hal
  obtain ⟨s1, s', l, e1, e2, l0, lA, r, _⟩ := collect hal h hn ht hi hh (by rw [hpm.length_eq]; exact hlen)
    (fun l s x => append al s l (ptr x)) id (by
      intro l s' ys x _ _ hx
      simp only [id_eq, ptr_some (h.solid p _ hp x (hpm.mem_iff.1 hx))])
  refine ⟨s', l, order t, ?_, l0, lA, hpm, by simpa using r⟩
  simp only [setValues, I.getObj hp, Res.bind_ok, ho, e1, e2]

theorem insert_new {cmp : Nat → Nat → Int} {xs : List Nat} {x : Nat} (h : ∀ y ∈ xs, cmp x y ≠ 0) : Set.Spec.insert cmp xs x = xs ++ [x] := by
  have : Set.Spec.member cmp xs x = none := Set.member_none.2 h
  simp [Set.Spec.insert, this]

theorem setClone_reach (hal : al.Sound) (h : Reach al text s A) {p : Nat} {pol : Policy} {cmp : Nat → Nat → Int} {xs : List Nat}
    (hp : A p = some (.set pol cmp xs)) :
    (∃ s' r ys, setClone al s p = .ok (s', r) ∧ r ≠ 0 ∧ A r = none ∧ ys.Perm xs ∧ Reach al text s' (upd A r (some (.set pol cmp ys)))) ∨
    (setClone al s p = .segv ∧ ∃ i, al.fails i = true) := by
  obtain ⟨t, ho, ht, hi, hh, hpm, hord, huq, hlen⟩ := setTree hal h hp
  obtain ⟨L, G, I, K⟩ := h.inv hal
  obtain ⟨s1, r, e1, r0, rA, I1⟩ := setMk_ok hal I pol hord
  have r1 : Reach al text s1 (upd A r (some (.set pol cmp []))) :=
    h.step (op := .setMk pol cmp) hord (by simp only [exec, e1, Res.bind_ok]) (.setMk r0 rA)
  have hpr : p ≠ r := by rintro rfl; rw [hp] at rA; simp at rA
  have hf := mkObj_frame e1
  have hq := hpm.pairwise_iff (fun {x y} (h : cmp x y ≠ 0) h' => h (Map.ord_symm0 hord h')) |>.2 huq
  have := walk_ok (st := id) (act := fun s x => setAdd al s r x) (F := ∃ i, al.fails i = true) (full := order t)
    (P := fun done s' => Reach al text s' (upd A r (some (.set pol cmp done))) ∧ TreeMem.Holds (nodes s'.mem) t ∧ s'.obj p = s.obj p)
    (fun done x rest s2 hfull hP => by
      obtain ⟨hr, hT, ho2⟩ := hP
      have hl : done.length < 2 ^ 31 := by
        have := congrArg List.length hfull
        rw [hpm.length_eq] at this
        simp only [List.length_append, List.length_cons] at this
        omega
      have hx0 : x ≠ 0 := h.solid p _ hp x (hpm.mem_iff.1 (by rw [hfull]; simp))
      have hno : ∀ y ∈ done, cmp x y ≠ 0 := by
        intro y hy h0
        rw [hfull, List.pairwise_append] at hq
        exact hq.2.2 y hy x (by simp) (Map.ord_symm0 hord h0)
      rcases setAdd_reach hal hr (upd_same ..) hl hx0 with ⟨s3, e3, r3, hk3⟩ | ⟨e3, hF⟩
      · rw [upd_upd, insert_new hno] at r3
        obtain ⟨hT3, ho3⟩ := hk3 p (.set pol cmp xs) t (by rw [upd_ne _ _ hpr]; exact hp) trivial hpr hT (by simp only [blocks, ho2, ho]) hh
        exact .inl ⟨s3, e3, r3, hT3, by rw [ho3, ho2]⟩
      · exact .inr ⟨e3, hF⟩)
    t hi (fun done s2 hP => hP.2.1) 96 hh [] [] (by simp) s1
    ⟨r1, by rw [hf.1]; exact ht, by rw [hf.2, upd_ne _ _ hpr]⟩
  rcases this with ⟨s', e, hr, _⟩ | ⟨e, hF⟩
  · exact .inl ⟨s', r, order t, by simp only [setClone, I.getObj hp, Res.bind_ok, ho, e1, e], r0, rA, hpm, by simpa using hr⟩
  · exact .inr ⟨by simp only [setClone, I.getObj hp, Res.bind_ok, ho, e1, e, Res.bind], hF⟩

theorem foldl_insert_length {cmp : Nat → Nat → Int} : ∀ l A : List Nat, (l.foldl (Set.Spec.insert cmp) A).length ≤ A.length + l.length
  | [], A => by simp
  | x :: l, A => by
    have h1 := foldl_insert_length (cmp := cmp) l (Set.Spec.insert cmp A x)
    have h2 := Set.insert_length (cmp := cmp) A x
    simp only [List.foldl_cons, List.length_cons]
    omega

/-- the loop of a union -/
theorem addList_ok (hal : al.Sound) {p v : Nat} {pol : Policy} {cmp : Nat → Nat → Int} {o : Option Nat} {ys : List Nat}
    (hv : A v = some (.list o (ys.map some))) (hpv : v ≠ p) (hy : ∀ y ∈ ys, y ≠ 0) :
    ∀ (n i fuel : Nat) (s : St) (xs : List Nat), i + n = ys.length → n < fuel → xs.length + n ≤ 2 ^ 31 →
      Reach al text s (upd A p (some (.set pol cmp xs))) →
      (∃ s', addList al p v fuel i s = .ok s' ∧
        Reach al text s' (upd A p (some (.set pol cmp ((ys.drop i).foldl (Set.Spec.insert cmp) xs))))) ∨
      (addList al p v fuel i s = .segv ∧ ∃ i, al.fails i = true) := by
  intro n
  induction n with
  | zero =>
    intro i fuel s xs hi hf hl hr
    obtain ⟨f, rfl⟩ : ∃ f, fuel = f + 1 := ⟨fuel - 1, by omega⟩
    obtain ⟨a, cs, e1, _, _⟩ := listOf_ok hal hr (v := v) (by rw [upd_ne _ _ hpv]; exact hv)
    left
    refine ⟨s, ?_, by rw [List.drop_eq_nil_of_le (by omega)]; exact hr⟩
    rw [addList, e1, Res.bind_ok, if_neg (by simp; omega)]
  | succ n ih =>
    intro i fuel s xs hi hf hl hr
    obtain ⟨f, rfl⟩ : ∃ f, fuel = f + 1 := ⟨fuel - 1, by omega⟩
    have hlt : i < ys.length := by omega
    obtain ⟨a, cs, e1, e2, e3⟩ := listOf_ok hal hr (v := v) (by rw [upd_ne _ _ hpv]; exact hv)
    have hrd : CList.rd cs i = .ok (some ys[i]) := by rw [e3 i (by simpa using hlt)]; simp
    have hdrop : ys.drop i = ys[i] :: ys.drop (i + 1) := List.drop_eq_getElem_cons hlt
    rw [addList, e1, Res.bind_ok, if_pos (by simpa using hlt), e2, Res.bind_ok, hrd, Res.bind_ok, Option.getD_some, hdrop, List.foldl_cons]
    rcases setAdd_reach hal hr (upd_same ..) (by omega) (hy ys[i] (List.getElem_mem hlt)) with ⟨s3, e4, r4, _⟩ | ⟨e4, hF⟩
    · rw [upd_upd] at r4
      rw [e4, Res.bind_ok]
      exact ih (i + 1) f s3 _ (by omega) (by omega) (by have := Set.insert_length (cmp := cmp) xs ys[i]; omega) r4
    · exact .inr ⟨by rw [e4]; rfl, hF⟩

/-- the union of two sets, the lists made on the way gone again -/
theorem setUnion_reach (hal : al.Sound) (h : Reach al text s A) {p1 p2 : Nat} {pol1 pol2 : Policy} {cmp : Nat → Nat → Int}
    {xs1 xs2 : List Nat} (h1 : A p1 = some (.set pol1 cmp xs1)) (h2 : A p2 = some (.set pol2 cmp xs2))
    (hlen : xs1.length + xs2.length < 2 ^ 31) {fuel : Nat} (hfu : xs1.length < fuel ∧ xs2.length < fuel) {n1 n2 : Nat}
    (hn1 : n1 < 2 ^ 60) (hn2 : n2 < 2 ^ 60) :
    (∃ s' r ds, ∃ ys1 ys2 : List Nat, setUnion al fuel s true p1 p2 n1 n2 = .ok (s', r, ds) ∧ r ≠ 0 ∧ A r = none ∧ ys1.Perm xs1 ∧ ys2.Perm xs2 ∧
      ds = (ys1 ++ ys2).map some ∧ Reach al text s' (upd A r (some (.set .rc cmp ((ys1 ++ ys2).foldl (Set.Spec.insert cmp) []))))) ∨
    (setUnion al fuel s true p1 p2 n1 n2 = .segv ∧ ∃ i, al.fails i = true) := by
  obtain ⟨_, o1, _, _, _, _, hord, _, _⟩ := setTree hal h h1
  obtain ⟨_, o2, _⟩ := setTree hal h h2
  obtain ⟨L, G, I, K⟩ := h.inv hal
  obtain ⟨sa, r, e1, r0, rA, I1⟩ := setMk_ok hal I .rc hord
  have ra : Reach al text sa (upd A r (some (.set .rc cmp []))) :=
    h.step (op := .setMk .rc cmp) hord (by simp only [exec, e1, Res.bind_ok]) (.setMk r0 rA)
  have hne : ∀ q, A q ≠ none → q ≠ r := by rintro q hq rfl; exact hq rA
  have g1 : upd A r (some (.set .rc cmp [])) p1 = some (.set pol1 cmp xs1) := by rw [upd_ne _ _ (hne _ (by simp [h1]))]; exact h1
  obtain ⟨sb, v1, ys1, e2, _, v1A, q1, rb⟩ := setValues_reach hal ra g1 (by omega) hn1
  have hv1r : v1 ≠ r := by rintro rfl; rw [upd_same] at v1A; simp at v1A
  have hv1 : A v1 = none := by rw [upd_ne _ _ hv1r] at v1A; exact v1A
  have hne1 : ∀ q, A q ≠ none → q ≠ v1 := by rintro q hq rfl; exact hq hv1
  have g2 : upd (upd A r (some (.set .rc cmp []))) v1 (some (.list none (ys1.map some))) p2 = some (.set pol2 cmp xs2) := by
    rw [upd_ne _ _ (hne1 _ (by simp [h2])), upd_ne _ _ (hne _ (by simp [h2]))]; exact h2
  obtain ⟨sc, v2, ys2, e3, _, v2A, q2, rc⟩ := setValues_reach hal rb g2 (by omega) hn2
  have hv21 : v2 ≠ v1 := by rintro rfl; rw [upd_same] at v2A; simp at v2A
  have hv2r : v2 ≠ r := by rintro rfl; rw [upd_ne _ _ hv21, upd_same] at v2A; simp at v2A
  have hv2 : A v2 = none := by rw [upd_ne _ _ hv21, upd_ne _ _ hv2r] at v2A; exact v2A
  let B : Abs := upd (upd A v1 (some (.list none (ys1.map some)))) v2 (some (.list none (ys2.map some)))
  have hB : ∀ x, upd (upd (upd A r x) v1 (some (.list none (ys1.map some)))) v2 (some (.list none (ys2.map some))) = upd B r x := by
    intro x
    rw [upd_comm _ hv1r.symm, upd_comm _ hv2r.symm]
  rw [hB] at rc
  have b1 : B v1 = some (.list none (ys1.map some)) := by show upd _ _ _ _ = _; rw [upd_ne _ _ hv21.symm, upd_same]
  have b2 : B v2 = some (.list none (ys2.map some)) := upd_same ..
  have z1 : ∀ y ∈ ys1, y ≠ 0 := fun y hy => h.solid p1 _ h1 y (q1.mem_iff.1 hy)
  have z2 : ∀ y ∈ ys2, y ≠ 0 := fun y hy => h.solid p2 _ h2 y (q2.mem_iff.1 hy)
  rcases addList_ok hal b1 hv1r z1 ys1.length 0 fuel sc [] (by simp) (by rw [q1.length_eq]; omega) (by simp [q1.length_eq]; omega) rc with
    ⟨sd, e4, rd⟩ | ⟨e4, hF⟩
  · have hl1 := foldl_insert_length (cmp := cmp) ys1 []
    rw [List.drop_zero] at rd
    rcases addList_ok hal b2 hv2r z2 ys2.length 0 fuel sd _ (by simp) (by rw [q2.length_eq]; omega)
      (by rw [List.length_nil] at hl1; have := q1.length_eq; have := q2.length_eq; omega) rd with ⟨se, e5, re⟩ | ⟨e5, hF⟩
    · rw [List.drop_zero, ← List.foldl_append] at re
      have d1 : upd B r (some (.set .rc cmp ((ys1 ++ ys2).foldl (Set.Spec.insert cmp) []))) v1 = some (.list none (ys1.map some)) := by
        rw [upd_ne _ _ hv1r]; exact b1
      obtain ⟨_, _, Ie, _⟩ := re.inv hal
      obtain ⟨sf, _, e6, I6, _⟩ := listDel_ok Ie d1
      have d2 : upd (upd B r (some (.set .rc cmp ((ys1 ++ ys2).foldl (Set.Spec.insert cmp) [])))) v1 none v2 = some (.list none (ys2.map some)) := by
        rw [upd_ne _ _ hv21, upd_ne _ _ hv2r]; exact b2
      obtain ⟨sg, _, e7, _⟩ := listDel_ok I6 d2
      have rf := re.step (op := .del v1) (s' := sf) (.inr (.inl ⟨_, d1⟩)) (by
        obtain ⟨size, cap, a, cs, h', _⟩ := Ie.holds v1 _ d1
        simp only [exec, Ie.getObj d1, Res.bind_ok, h', e6]) (.delList d1)
      have rg := rf.step (op := .del v2) (s' := sg) (.inr (.inl ⟨_, d2⟩)) (by
        obtain ⟨size, cap, a, cs, h', _⟩ := I6.holds v2 _ d2
        simp only [exec, I6.getObj d2, Res.bind_ok, h', e7]) (.delList d2)
      refine .inl ⟨sg, r, ys1.map some ++ ys2.map some, ys1, ys2, ?_, r0, rA, q1, q2, by simp, ?_⟩
      · simp only [setUnion, I.getObj h1, Res.bind_ok, I.getObj h2, o1, o2, if_true, e1, e2, e3, e4, e5, e6, e7]
      · have : upd (upd (upd B r (some (.set .rc cmp ((ys1 ++ ys2).foldl (Set.Spec.insert cmp) [])))) v1 none) v2 none =
            upd A r (some (.set .rc cmp ((ys1 ++ ys2).foldl (Set.Spec.insert cmp) []))) := by
          funext q
          simp only [B, upd]
          split
          · next h' => rw [h', if_neg hv2r, hv2]
          · split
            · next h' => rw [h', if_neg hv1r, hv1]
            · split
              · rfl
              · rfl
        rwa [this] at rg
    · exact .inr ⟨by simp only [setUnion, I.getObj h1, Res.bind_ok, I.getObj h2, o1, o2, if_true, e1, e2, e3, e4, e5, Res.bind], hF⟩
  · exact .inr ⟨by simp only [setUnion, I.getObj h1, Res.bind_ok, I.getObj h2, o1, o2, if_true, e1, e2, e3, e4, Res.bind], hF⟩

end Verif.Own.WalkProps
