import Verif.Json.MergeAllProps

/-!
# Laws of merging documents (C114)

Whether the order and the grouping of calls of `cee_json_merge` (value.c:211-250) matter, and what a second merge of the
same document changes.
-/

namespace Verif.Json

/-! ## helpers -/

theorem distinct_lookup {kvs : List (List Byte × Val)} {k : List Byte} {x : Val} (h : (Val.obj kvs).Distinct)
    (hx : kvs.lookup k = some x) : x.Distinct := by
  rw [Val.Distinct, distinctF_mem] at h
  have : ∀ l : List (List Byte × Val), l.lookup k = some x → ∃ e ∈ l, e.2 = x := by
    intro l
    induction l with
    | nil => simp
    | cons e l ih =>
      rw [List.lookup_cons]
      split
      · intro h; exact ⟨e, by simp, by simpa using h⟩
      · intro h; obtain ⟨e', h1, h2⟩ := ih h; exact ⟨e', by simp [h1], h2⟩
  obtain ⟨e, he, rfl⟩ := this kvs hx
  exact h.2 e he

theorem distinct_of_lookup {kvs : List (List Byte × Val)} (hn : (kvs.map (·.1)).Nodup)
    (h : ∀ k x, kvs.lookup k = some x → x.Distinct) : (Val.obj kvs).Distinct := by
  rw [Val.Distinct, distinctF_mem]
  exact ⟨hn, fun e he => h e.1 e.2 (lookup_of_mem hn he)⟩

theorem KeyEq.refl' (v : Val) : v.Distinct → KeyEq v v := by
  induction v using Val.ind with
  | h0 a => intro _; exact .atom a
  | ha xs ih =>
    intro h
    rw [Val.Distinct, distinctL_mem] at h
    refine .arr rfl fun i x y hx hy => ?_
    rw [hx] at hy
    cases hy
    exact ih x (List.mem_of_getElem? hx) (h x (List.mem_of_getElem? hx))
  | ho kvs ih =>
    intro h
    have h' := h
    rw [Val.Distinct, distinctF_mem] at h'
    refine .obj h'.1 h'.1 (fun _ => rfl) fun k x y hx hy => ?_
    rw [hx] at hy
    cases hy
    have : ∀ l : List (List Byte × Val), l.lookup k = some x → ∃ e ∈ l, e.2 = x := by
      intro l
      induction l with
      | nil => simp
      | cons e l ih =>
        rw [List.lookup_cons]
        split
        · intro h; exact ⟨e, by simp, by simpa using h⟩
        · intro h; obtain ⟨e', h1, h2⟩ := ih h; exact ⟨e', by simp [h1], h2⟩
    obtain ⟨e, he, rfl⟩ := this kvs hx
    exact ih e he (h'.2 e he)

theorem distinct_merge (y : Val) : ∀ x : Val, x.Distinct → y.Distinct → (mergeVal x y).Distinct := by
  induction y using Val.ind with
  | h0 a => intro x _ hy; rw [mergeVal_not (by cases x <;> rfl)]; exact hy
  | ha ys _ =>
    intro x hx hy
    cases x with
    | atom _ => rw [mergeVal_not rfl]; exact hy
    | obj _ => rw [mergeVal_not rfl]; exact hy
    | arr xs =>
      rw [mergeVal, Val.Distinct, distinctL_mem]
      rw [Val.Distinct, distinctL_mem] at hx hy
      intro z hz
      rcases List.mem_append.1 hz with h | h
      · exact hx z h
      · exact hy z h
  | ho b ih =>
    intro x hx hy
    cases x with
    | atom _ => rw [mergeVal_not rfl]; exact hy
    | arr _ => rw [mergeVal_not rfl]; exact hy
    | obj a =>
      have ha := hx
      have hb := hy
      rw [Val.Distinct] at ha hb
      rw [mergeVal]
      refine distinct_of_lookup (nodup_mergeF b ha.1) fun k z hz => ?_
      rw [lookup_mergeF a b hb.1] at hz
      cases eb : b.lookup k with
      | none => rw [eb] at hz; exact distinct_lookup hx hz
      | some y =>
        rw [eb] at hz
        have hm : ∃ e ∈ b, e.2 = y := by
          have hk : k ∈ b.map (·.1) := lookup_isSome.1 (by rw [eb]; rfl)
          obtain ⟨e, he, rfl⟩ := List.mem_map.1 hk
          have := lookup_of_mem hb.1 he
          rw [eb] at this
          cases this
          exact ⟨e, he, rfl⟩
        obtain ⟨e, he, rfl⟩ := hm
        cases ea : a.lookup k with
        | none => rw [ea] at hz; cases hz; exact distinct_lookup hy eb
        | some x => rw [ea] at hz; cases hz; exact ih e he x (distinct_lookup hx ea) (distinct_lookup hy eb)

/-- an induction hypothesis about the entries, by keys -/
theorem by_key {P : Val → Prop} {kvs : List (List Byte × Val)} (hn : (kvs.map (·.1)).Nodup) (h : ∀ kv ∈ kvs, P kv.2)
    {k : List Byte} {y : Val} (hy : kvs.lookup k = some y) : P y := by
  have hk : k ∈ kvs.map (·.1) := lookup_isSome.1 (by rw [hy]; rfl)
  obtain ⟨e, he, rfl⟩ := List.mem_map.1 hk
  have := lookup_of_mem hn he
  rw [hy] at this
  cases this
  exact h e he

theorem keyEq_obj {a b : List (List Byte × Val)} : KeyEq (.obj a) (.obj b) ↔ (a.map (·.1)).Nodup ∧ (b.map (·.1)).Nodup ∧
    (∀ k, (a.lookup k).isSome = (b.lookup k).isSome) ∧
    ∀ (k : List Byte) (x y : Val), a.lookup k = some x → b.lookup k = some y → KeyEq x y := by
  constructor
  · intro h; cases h with | obj h1 h2 h3 h4 => exact ⟨h1, h2, h3, h4⟩
  · rintro ⟨h1, h2, h3, h4⟩; exact .obj h1 h2 h3 h4

theorem keyEq_arr_length {xs ys : List Val} (h : KeyEq (.arr xs) (.arr ys)) : xs.length = ys.length := by
  cases h; assumption

/-! ## grouping -/

/-- somewhere the first and the third document have objects (or arrays) that are combined by a merge, while the second one has
something else there -/
inductive Clash : Val → Val → Val → Prop
  | here {x y z : Val} : mergeable x z = true → mergeable y z = false → ¬ KeyEq z (mergeVal x z) → Clash x y z
  | under {a b c : List (List Byte × Val)} {k : List Byte} {x y z : Val} : a.lookup k = some x → b.lookup k = some y →
      c.lookup k = some z → Clash x y z → Clash (.obj a) (.obj b) (.obj c)

/-- the result of a merge is of the kind of the source -/
theorem mergeable_merge (x y z : Val) : mergeable (mergeVal x y) z = mergeable y z := by
  cases x <;> cases y <;> rw [mergeVal] <;> first | rfl | simp | (cases z <;> rfl)

theorem assoc_iff (z : Val) : ∀ x y : Val, x.Distinct → y.Distinct → z.Distinct →
    (KeyEq (mergeVal (mergeVal x y) z) (mergeVal x (mergeVal y z)) ↔ ¬ Clash x y z) := by
  induction z using Val.ind with
  | h0 a =>
    intro x y hx hy hz
    have h : ∀ w, mergeVal w (.atom a) = .atom a := fun w => mergeVal_not (by cases w <;> rfl)
    rw [h, h, h]
    refine ⟨fun _ hc => ?_, fun _ => .atom a⟩
    cases hc with
    | here h1 => cases x <;> cases h1
  | ha zs _ =>
    intro x y hx hy hz
    cases hyz : mergeable y (.arr zs) with
    | false =>
      rw [mergeVal_not (x := mergeVal x y) (by rw [mergeable_merge]; exact hyz), mergeVal_not hyz]
      constructor
      · intro hk hc
        cases hc with
        | here _ _ h3 => exact h3 hk
      · intro hc
        cases hxz : mergeable x (.arr zs) with
        | false => rw [mergeVal_not hxz]; exact KeyEq.refl' _ hz
        | true => exact Classical.byContradiction fun hk => hc (.here hxz hyz hk)
    | true =>
      have hnc : ¬ Clash x y (.arr zs) := by
        intro hc
        cases hc with
        | here _ h2 => rw [hyz] at h2; cases h2
      refine ⟨fun _ => hnc, fun _ => ?_⟩
      cases y with
      | atom _ => cases hyz
      | obj _ => cases hyz
      | arr ys =>
        have : mergeVal (mergeVal x (.arr ys)) (.arr zs) = mergeVal x (mergeVal (.arr ys) (.arr zs)) := by
          cases x with
          | atom u => rw [mergeVal_not (x := .atom u) (y := .arr ys) rfl, mergeVal, mergeVal_not rfl]
          | obj u => rw [mergeVal_not (x := .obj u) (y := .arr ys) rfl, mergeVal, mergeVal_not rfl]
          | arr xs => rw [mergeVal, mergeVal, mergeVal, mergeVal, List.append_assoc]
        rw [this]
        exact KeyEq.refl' _ (distinct_merge _ _ hx (distinct_merge _ _ hy hz))
  | ho c ih =>
    intro x y hx hy hz
    cases hyz : mergeable y (.obj c) with
    | false =>
      rw [mergeVal_not (x := mergeVal x y) (by rw [mergeable_merge]; exact hyz), mergeVal_not hyz]
      constructor
      · intro hk hc
        cases hc with
        | here _ _ h3 => exact h3 hk
        | under => cases hyz
      · intro hc
        cases hxz : mergeable x (.obj c) with
        | false => rw [mergeVal_not hxz]; exact KeyEq.refl' _ hz
        | true => exact Classical.byContradiction fun hk => hc (.here hxz hyz hk)
    | true =>
      cases y with
      | atom _ => cases hyz
      | arr _ => cases hyz
      | obj b =>
        have other : (∀ a, x ≠ .obj a) → (KeyEq (mergeVal (mergeVal x (.obj b)) (.obj c))
            (mergeVal x (mergeVal (.obj b) (.obj c))) ↔ ¬ Clash x (.obj b) (.obj c)) := by
          intro hx'
          have hm : ∀ l, mergeable x (.obj l) = false := by
            intro l; cases x with
            | obj a => exact absurd rfl (hx' a)
            | _ => rfl
          rw [mergeVal_not (hm b), show mergeVal (.obj b) (.obj c) = .obj (mergeF b c) by rw [mergeVal], mergeVal_not (hm _)]
          refine ⟨fun _ hc => ?_, fun _ => ?_⟩
          · cases hc with
            | here h1 => rw [hm] at h1; cases h1
            | under => exact hx' _ rfl
          · have := distinct_merge _ _ hy hz
            rw [mergeVal] at this
            exact KeyEq.refl' _ this
        cases x with
        | atom _ => exact other fun _ h => by cases h
        | arr _ => exact other fun _ h => by cases h
        | obj a =>
          have ha := hx; have hb := hy; have hc := hz
          rw [Val.Distinct] at ha hb hc
          have nb : ((mergeF b c).map (·.1)).Nodup := nodup_mergeF c hb.1
          rw [mergeVal, mergeVal, mergeVal, mergeVal, keyEq_obj]
          have L : ∀ k, (mergeF (mergeF a b) c).lookup k = match c.lookup k with
              | none => (match b.lookup k with
                | none => a.lookup k
                | some y => some (match a.lookup k with | none => y | some x => mergeVal x y))
              | some z => some (match b.lookup k with
                | none => (match a.lookup k with | none => z | some x => mergeVal x z)
                | some y => mergeVal (match a.lookup k with | none => y | some x => mergeVal x y) z) := by
            intro k
            rw [lookup_mergeF _ c hc.1, lookup_mergeF a b hb.1]
            cases c.lookup k <;> cases b.lookup k <;> rfl
          have R : ∀ k, (mergeF a (mergeF b c)).lookup k = match c.lookup k with
              | none => (match b.lookup k with
                | none => a.lookup k
                | some y => some (match a.lookup k with | none => y | some x => mergeVal x y))
              | some z => some (match b.lookup k with
                | none => (match a.lookup k with | none => z | some x => mergeVal x z)
                | some y => (match a.lookup k with | none => mergeVal y z | some x => mergeVal x (mergeVal y z))) := by
            intro k
            rw [lookup_mergeF a _ nb, lookup_mergeF b c hc.1]
            cases c.lookup k <;> cases b.lookup k <;> rfl
          constructor
          · rintro ⟨-, -, -, h4⟩ hcl
            cases hcl with
            | here h1 h2 => rw [hyz] at h2; cases h2
            | @under _ _ _ k x y z e1 e2 e3 h =>
              have := h4 k _ _ ((L k).trans (by rw [e3, e2, e1])) ((R k).trans (by rw [e3, e2, e1]))
              exact (by_key (P := fun z => ∀ x y : Val, x.Distinct → y.Distinct → z.Distinct →
                (KeyEq (mergeVal (mergeVal x y) z) (mergeVal x (mergeVal y z)) ↔ ¬ Clash x y z)) hc.1 ih e3 x y
                (distinct_lookup hx e1) (distinct_lookup hy e2) (distinct_lookup hz e3)).1 this h
          · intro hcl
            refine ⟨nodup_mergeF c (nodup_mergeF b ha.1), nodup_mergeF _ ha.1, fun k => ?_, fun k u v hu hv => ?_⟩
            · rw [L, R]
              cases c.lookup k <;> cases b.lookup k <;> rfl
            · rw [L] at hu
              rw [R] at hv
              have dm : u.Distinct → u = v → KeyEq u v := fun h e => e ▸ KeyEq.refl' _ h
              have du : u.Distinct := by
                have hall := distinct_merge _ _ (distinct_merge _ _ hx hy) hz
                rw [mergeVal, mergeVal] at hall
                exact distinct_lookup hall ((L k).trans hu)
              cases ec : c.lookup k with
              | none =>
                rw [ec] at hu hv
                exact dm du (Option.some.inj (hu.symm.trans hv))
              | some z =>
                rw [ec] at hu hv
                cases eb : b.lookup k with
                | none =>
                  rw [eb] at hu hv
                  exact dm du (Option.some.inj (hu.symm.trans hv))
                | some y =>
                  rw [eb] at hu hv
                  cases ea : a.lookup k with
                  | none =>
                    rw [ea] at hu hv
                    exact dm du (Option.some.inj (hu.symm.trans hv))
                  | some x =>
                    rw [ea] at hu hv
                    cases hu
                    cases hv
                    exact (by_key (P := fun z => ∀ x y : Val, x.Distinct → y.Distinct → z.Distinct →
                      (KeyEq (mergeVal (mergeVal x y) z) (mergeVal x (mergeVal y z)) ↔ ¬ Clash x y z)) hc.1 ih ec x y
                      (distinct_lookup hx ea) (distinct_lookup hy eb) (distinct_lookup hz ec)).2
                      fun h => hcl (.under ea eb ec h)

/-! ## a second time -/

/-- merging into an empty object -/
theorem mergeF_nil {b : List (List Byte × Val)} (hb : (b.map (·.1)).Nodup) : mergeF [] b = b := by
  have : ∀ l acc : List (List Byte × Val), ((acc ++ l).map (·.1)).Nodup → mergeF acc l = acc ++ l := by
    intro l
    induction l with
    | nil => intro acc _; rw [mergeF, List.append_nil]
    | cons e l ih =>
      intro acc hn
      obtain ⟨k, y⟩ := e
      have hk : k ∉ acc.map (·.1) := by
        rw [List.map_append, List.nodup_append] at hn
        intro h
        exact hn.2.2 k h k (by simp) rfl
      have hl : acc.lookup k = none := by
        rw [← Option.not_isSome_iff_eq_none, lookup_isSome]; exact hk
      rw [mergeF, hl]
      rw [insertKey_new hk, ih _ (by simpa using hn)]
      simp
  simpa using this b [] (by simpa using hb)

/-- an array with elements can be reached through keys of objects -/
inductive HasArray : Val → Prop
  | here {xs : List Val} : xs ≠ [] → HasArray (.arr xs)
  | under {kvs : List (List Byte × Val)} {k : List Byte} {x : Val} : kvs.lookup k = some x → HasArray x → HasArray (.obj kvs)

theorem again_iff (y : Val) : ∀ x : Val, x.Distinct → y.Distinct →
    (KeyEq (mergeVal x y) (mergeVal (mergeVal x y) y) ↔ ¬ HasArray y) := by
  induction y using Val.ind with
  | h0 a =>
    intro x _ _
    have h : ∀ w, mergeVal w (.atom a) = .atom a := fun w => mergeVal_not (by cases w <;> rfl)
    rw [h, h]
    refine ⟨fun _ h => ?_, fun _ => .atom a⟩
    cases h
  | ha ys _ =>
    intro x hx hy
    obtain ⟨ws, hw⟩ : ∃ ws, mergeVal x (.arr ys) = .arr ws := by
      cases x with
      | arr xs => exact ⟨xs ++ ys, by rw [mergeVal]⟩
      | atom _ => exact ⟨ys, mergeVal_not rfl⟩
      | obj _ => exact ⟨ys, mergeVal_not rfl⟩
    have hd := distinct_merge _ _ hx hy
    rw [hw] at hd ⊢
    rw [mergeVal]
    constructor
    · intro hk hh
      cases hh with
      | here hne =>
        have := keyEq_arr_length hk
        rw [List.length_append] at this
        exact hne (List.length_eq_zero_iff.1 (by omega))
    · intro hh
      have : ys = [] := Classical.byContradiction fun h => hh (.here h)
      subst this
      rw [List.append_nil]
      exact KeyEq.refl' _ hd
  | ho b ih =>
    intro x hx hy
    have hb := hy
    rw [Val.Distinct] at hb
    obtain ⟨a, ha, hxa⟩ : ∃ a, (Val.obj a).Distinct ∧ mergeVal x (.obj b) = mergeVal (.obj a) (.obj b) := by
      cases x with
      | obj a => exact ⟨a, hx, rfl⟩
      | atom _ =>
        exact ⟨[], by simp [Val.Distinct, DistinctF], by rw [mergeVal_not rfl, mergeVal, mergeF_nil hb.1]⟩
      | arr _ =>
        exact ⟨[], by simp [Val.Distinct, DistinctF], by rw [mergeVal_not rfl, mergeVal, mergeF_nil hb.1]⟩
    rw [hxa]
    have na := ha
    rw [Val.Distinct] at na
    rw [mergeVal, mergeVal, keyEq_obj]
    have ihk := @by_key (fun y => ∀ x : Val, x.Distinct → y.Distinct →
      (KeyEq (mergeVal x y) (mergeVal (mergeVal x y) y) ↔ ¬ HasArray y)) b hb.1 ih
    have self : ∀ {k y}, b.lookup k = some y → (KeyEq y (mergeVal y y) ↔ ¬ HasArray y) := by
      intro k y e
      have := ihk e (.atom .null) trivial (distinct_lookup hy e)
      rwa [mergeVal_not (x := .atom .null) (by cases y <;> rfl)] at this
    have L2 : ∀ k, (mergeF (mergeF a b) b).lookup k = match b.lookup k with
        | none => a.lookup k
        | some y => some (mergeVal (match a.lookup k with | none => y | some x => mergeVal x y) y) := by
      intro k
      rw [lookup_mergeF _ b hb.1, lookup_mergeF a b hb.1]
      cases b.lookup k <;> rfl
    constructor
    · rintro ⟨-, -, -, h4⟩ hh
      cases hh with
      | @under _ k y e h =>
        have := h4 k _ _ ((lookup_mergeF a b hb.1 k).trans (by rw [e])) ((L2 k).trans (by rw [e]))
        cases ea : a.lookup k with
        | none => rw [ea] at this; exact (self e).1 this h
        | some x => rw [ea] at this; exact (ihk e x (distinct_lookup ha ea) (distinct_lookup hy e)).1 this h
    · intro hh
      refine ⟨nodup_mergeF b na.1, nodup_mergeF b (nodup_mergeF b na.1), fun k => ?_, fun k u v hu hv => ?_⟩
      · rw [L2, lookup_mergeF a b hb.1]
        cases b.lookup k <;> rfl
      · rw [L2] at hv
        rw [lookup_mergeF a b hb.1] at hu
        cases eb : b.lookup k with
        | none =>
          rw [eb] at hu hv
          rw [Option.some.inj (hu.symm.trans hv)] at *
          exact KeyEq.refl' _ (distinct_lookup ha hv)
        | some y =>
          rw [eb] at hu hv
          have hny : ¬ HasArray y := fun h => hh (.under eb h)
          cases ea : a.lookup k with
          | none => rw [ea] at hu hv; cases hu; cases hv; exact (self eb).2 hny
          | some x =>
            rw [ea] at hu hv; cases hu; cases hv
            exact (ihk eb x (distinct_lookup ha ea) (distinct_lookup hy eb)).2 hny

/-! ## order -/

/-- two objects that have a key in common only where both have objects, and these are apart as well -/
inductive Apart : Val → Val → Prop
  | obj {b c : List (List Byte × Val)} : (∀ k y z, b.lookup k = some y → c.lookup k = some z → Apart y z) →
      Apart (.obj b) (.obj c)

theorem apart_comm {y z : Val} (h : Apart y z) : y.Distinct → z.Distinct → KeyEq (mergeVal y z) (mergeVal z y) := by
  induction h with
  | @obj b c h ih =>
    intro hy hz
    have nb := hy; have nc := hz
    rw [Val.Distinct] at nb nc
    rw [mergeVal, mergeVal, keyEq_obj]
    refine ⟨nodup_mergeF c nb.1, nodup_mergeF b nc.1, fun k => ?_, fun k u v hu hv => ?_⟩
    · rw [lookup_mergeF b c nc.1, lookup_mergeF c b nb.1]
      cases b.lookup k <;> cases c.lookup k <;> rfl
    · rw [lookup_mergeF b c nc.1] at hu
      rw [lookup_mergeF c b nb.1] at hv
      cases eb : b.lookup k with
      | none =>
        cases ec : c.lookup k with
        | none => rw [eb, ec] at hu; cases hu
        | some z => rw [eb, ec] at hu hv; cases hu; cases hv; exact KeyEq.refl' _ (distinct_lookup hz ec)
      | some y =>
        cases ec : c.lookup k with
        | none => rw [eb, ec] at hu hv; cases hu; cases hv; exact KeyEq.refl' _ (distinct_lookup hy eb)
        | some z =>
          rw [eb, ec] at hu hv; cases hu; cases hv
          exact ih k y z eb ec (distinct_lookup hy eb) (distinct_lookup hz ec)

theorem apart_order {y z : Val} (h : Apart y z) : ∀ x : Val, x.Distinct → y.Distinct → z.Distinct →
    KeyEq (mergeVal (mergeVal x y) z) (mergeVal (mergeVal x z) y) := by
  induction h with
  | @obj b c h ih =>
    intro x hx hy hz
    cases x with
    | atom u => rw [mergeVal_not (x := .atom u) (y := .obj b) rfl, mergeVal_not (x := .atom u) (y := .obj c) rfl]; exact apart_comm (.obj h) hy hz
    | arr u => rw [mergeVal_not (x := .arr u) (y := .obj b) rfl, mergeVal_not (x := .arr u) (y := .obj c) rfl]; exact apart_comm (.obj h) hy hz
    | obj a =>
      have na := hx; have nb := hy; have nc := hz
      rw [Val.Distinct] at na nb nc
      have d1 := distinct_merge _ _ hx hy
      have d2 := distinct_merge _ _ hx hz
      rw [mergeVal] at d1 d2
      rw [mergeVal, mergeVal, mergeVal, mergeVal, keyEq_obj]
      refine ⟨nodup_mergeF c (nodup_mergeF b na.1), nodup_mergeF b (nodup_mergeF c na.1), fun k => ?_,
        fun k u v hu hv => ?_⟩
      · rw [lookup_mergeF (mergeF a b) c nc.1, lookup_mergeF a b nb.1, lookup_mergeF (mergeF a c) b nb.1, lookup_mergeF a c nc.1]
        cases b.lookup k <;> cases c.lookup k <;> rfl
      · rw [lookup_mergeF _ c nc.1] at hu
        rw [lookup_mergeF _ b nb.1] at hv
        cases eb : b.lookup k with
        | none =>
          rw [eb] at hv
          have hva := hv
          rw [lookup_mergeF _ c nc.1] at hv
          have e1 : (mergeF a b).lookup k = a.lookup k := by rw [lookup_mergeF _ b nb.1, eb]
          rw [e1] at hu
          have e : u = v := Option.some.inj (hu.symm.trans hv)
          subst e
          exact KeyEq.refl' _ (distinct_lookup d2 hva)
        | some y =>
          cases ec : c.lookup k with
          | none =>
            rw [ec] at hu
            have hua := hu
            rw [lookup_mergeF _ b nb.1] at hu
            have e1 : (mergeF a c).lookup k = a.lookup k := by rw [lookup_mergeF _ c nc.1, ec]
            rw [e1] at hv
            have e : u = v := Option.some.inj (hu.symm.trans hv)
            subst e
            exact KeyEq.refl' _ (distinct_lookup d1 hua)
          | some z =>
            rw [ec, lookup_mergeF _ b nb.1, eb] at hu
            rw [eb, lookup_mergeF _ c nc.1, ec] at hv
            cases ea : a.lookup k with
            | none =>
              rw [ea] at hu hv; cases hu; cases hv
              exact apart_comm (h k y z eb ec) (distinct_lookup hy eb) (distinct_lookup hz ec)
            | some x =>
              rw [ea] at hu hv; cases hu; cases hv
              exact ih k y z eb ec x (distinct_lookup hx ea) (distinct_lookup hy eb) (distinct_lookup hz ec)

end Verif.Json
