import Verif.Sqlite.RoundTrip
import Verif.Json.ReformatProps

/-!
# Property C130: a JSON text through the database

The text is read with `cee_json_parsex` (C92), the objects are inserted (C78, C87), the rows are selected (C83) and printed with `cee_json_asprint` (C33).
-/

namespace Verif.Sqlite.Props

open Verif Verif.Sqlite
open Verif.Json
open Verif.Json.Props
open Verif.Dbm (str)

variable {S : Type}

/-- the strings and numbers of a text that was read (cee-json/tokenizer.c, cee-json/parser.c; C125) -/
theorem read_texts [Libc] {text : List Byte} {x : Syn} (hx : Verif.Json.Spells text x.toks) (hlen : text.length < 2 ^ 31) :
    x.val.All (fun a => keptAtom a ∨ ∃ d, a = .dbl d) keptText := by
  have h := spells_kept hx hlen
  exact toks_all x (fun a ha => (h _ ha).2 a rfl) (fun s hs => ⟨.inl ((h _ hs).1 s rfl), (h _ hs).1 s rfl⟩)

/-- the value of a column, of an object that was read, can be printed and read -/
theorem readVal_kept [Libc] {kvs : List (List Byte × Val)} (h : (Val.obj kvs).All (fun a => keptAtom a ∨ ∃ d, a = .dbl d) keptText) {info : Info}
    (ht : info.type ≠ .undef) (hb : info.type ≠ .blob) (hf : ∀ v, kvs.lookup info.col = some v → Fits info v) :
    (readVal kvs info).All keptAtom keptText ∧ (readVal kvs info).height = 1 ∧ (readVal kvs info).Distinct := by
  have hz : (zeroVal info.type).All keptAtom keptText ∧ (zeroVal info.type).height = 1 ∧ (zeroVal info.type).Distinct := by
    cases e : info.type with
    | undef => exact absurd e ht
    | blob => exact absurd e hb
    | int => exact ⟨by simp only [zeroVal, Val.All]; exact ⟨by decide, by decide⟩, rfl, trivial⟩
    | int64 => exact ⟨by simp only [zeroVal, Val.All]; exact ⟨by decide, by decide⟩, rfl, trivial⟩
    | text => exact ⟨by simp only [zeroVal, Val.All]; exact ⟨.inl ⟨[], by simp, rfl⟩, by decide⟩, rfl, trivial⟩
  have hn : (Val.atom .null).All keptAtom keptText ∧ (Val.atom .null).height = 1 ∧ (Val.atom .null).Distinct :=
    ⟨by simp only [Val.All]; trivial, rfl, trivial⟩
  unfold readVal
  cases hl : kvs.lookup info.col with
  | none =>
    simp only
    split
    · exact hz
    · exact hn
  | some v =>
    simp only
    split
    · exact hz
    · obtain ⟨l1, l2, e, -⟩ := List.lookup_eq_some_iff.mp hl
      rw [Val.All, allF_mem] at h
      have hv := (h (info.col, v) (by rw [e]; simp)).2
      rcases hf v hl with rfl | hfit
      · exact hn
      · have : (∃ n, v = .atom (.i64 n)) ∨ ∃ s, v = .atom (.str s) := by
          cases e : info.type with
          | undef => exact absurd e ht
          | blob => exact absurd e hb
          | int => rw [e] at hfit; obtain ⟨n, hn, -⟩ := hfit; exact .inl ⟨n, hn⟩
          | int64 => rw [e] at hfit; exact .inl hfit
          | text => rw [e] at hfit; obtain ⟨s, hs, -⟩ := hfit; exact .inr ⟨s, hs⟩
        rcases this with ⟨n, rfl⟩ | ⟨s, rfl⟩ <;> rw [Val.All] at hv <;> refine ⟨?_, rfl, trivial⟩ <;> rw [Val.All] <;>
          exact hv.resolve_right (by simp)

/-- **C130, what holds.**  A text is read as an array of objects whose values fit the columns, each with a value for a column; the objects are inserted
into an empty table, each with unused data, and the rows are selected and printed: nothing reports an error, and the printed text, if it is shorter than
2^31, is read as the array of the rows, one for each object in the order of the text, with the values of the object in the columns that may be
returned.  The names of the columns are Unicode text, and there are no columns for blobs.  Missing: values that do not fit, objects without column,
operations used twice, for which the claim is false (C123). -/
theorem C130_partial [Libc] {c : Ctx S} {infos : List Info} {ds : List Data} (R : Prepared c infos ds []) {stmts : Stmts} {sel : List Byte}
    {rows : S → List (List Cell)} (K : Keeps c.eng infos stmts.table sel rows) (hdyn : stmts.insertDynamic = true)
    (hone : ∀ info, infos = [info] → info.noReturn = true ∨ info.noLabel = false) (hname : ∀ info ∈ infos, rtText info.col)
    (hblob : ∀ info ∈ infos, info.type ≠ .blob)
    (text extra : List Byte) (h0 : 0 ∉ text) (hlen : text.length < 2 ^ 31) (n : Nat) (hn : text.length ≤ n) (objs : List (List (List Byte × Val))) (t : Tz)
    (hp : parsex n (text ++ 0 :: extra) text.length true = .ok (some (.value (some (.arr (objs.map Val.obj))), t)))
    (hf : ∀ kvs ∈ objs, ∀ kv ∈ kvs, ∀ info ∈ infos, info.col = kv.1 → Fits info kv.2)
    (hpr : ∀ kvs ∈ objs, present infos kvs ≠ []) (s : S) (hs : rows s = []) (fuel : Nat) (hfuel : objs.length < fuel) :
    ∃ s' sts s'' v, insertEach c stmts s objs = .ok (some (s', sts)) ∧ (∀ st ∈ sts, ∃ o, st = some (some (.obj o)) ∧ o.lookup kError = none) ∧
      select c fuel s' sel (some none) = .ok (some (s'', sqliteDone, some (some v), false)) ∧
      v = .arr (objs.map fun kvs => .obj ((infos.filter fun i => !i.noReturn).map fun i => (i.col, readVal kvs i))) ∧
      ((compact v).length < 2 ^ 31 → ∃ text', 0 ∉ text' ∧
        (∀ m, nsteps v ≤ m → ∃ b, asprint m false v = .ok (some (b, text'.length)) ∧ b.take (text'.length + 1) = (text' ++ [0]).map some) ∧
        ∀ extra' m, text'.length ≤ m → ∃ t', parsex m (text' ++ 0 :: extra') text'.length true = .ok (some (.value (some v), t'))) := by
  obtain ⟨x, hx, -, hv⟩ := (C92_accepts_iff text extra h0 hlen n hn _).1 ⟨t, hp⟩
  have hd := syn_distinct x
  have ha := read_texts hx hlen
  rw [← Option.some.inj hv] at hd ha
  rw [Val.Distinct, distinctL_mem] at hd
  rw [Val.All, allL_mem] at ha
  have hk : ∀ kvs ∈ objs, (kvs.map Prod.fst).Nodup := by
    intro kvs hm
    have := hd _ (List.mem_map_of_mem hm)
    rw [Val.Distinct] at this
    exact this.1
  obtain ⟨s', sts, h1, h2, s'', old, h3, h4⟩ := C123_partial R K hdyn hone objs hk hf hpr s fuel (by rw [hs]; simpa using hfuel)
  have hold : old = [] := by
    rw [hs] at h4
    exact List.length_eq_zero_iff.1 h4
  subst hold
  rw [List.nil_append] at h3
  refine ⟨s', sts, s'', _, h1, h2, h3, rfl, fun hl => ?_⟩
  generalize hvd : Val.arr (objs.map fun kvs => Val.obj ((infos.filter fun i => !i.noReturn).map fun i => (i.col, readVal kvs i))) = v at hl ⊢
  have hval : ∀ kvs ∈ objs, ∀ i ∈ infos, (readVal kvs i).All keptAtom keptText ∧ (readVal kvs i).height = 1 ∧ (readVal kvs i).Distinct := by
    intro kvs hm i hi
    refine readVal_kept (ha _ (List.mem_map_of_mem hm)) (R.cols i hi).2.1 (hblob i hi) fun w hw => ?_
    obtain ⟨l1, l2, e, -⟩ := List.lookup_eq_some_iff.mp hw
    exact hf kvs hm (i.col, w) (by rw [e]; simp) i hi rfl
  have hkept : v.All keptAtom keptText := by
    rw [← hvd, Val.All, allL_mem]
    intro y hy
    obtain ⟨kvs, hm, rfl⟩ := List.mem_map.1 hy
    rw [Val.All, allF_mem]
    intro z hz
    obtain ⟨i, hi, rfl⟩ := List.mem_map.1 hz
    have hi' := (List.mem_filter.1 hi).1
    exact ⟨⟨.inl (hname i hi').1, (hname i hi').2⟩, (hval kvs hm i hi').1⟩
  have hdist : v.Distinct := by
    rw [← hvd, Val.Distinct, distinctL_mem]
    intro y hy
    obtain ⟨kvs, hm, rfl⟩ := List.mem_map.1 hy
    rw [Val.Distinct, distinctF_mem]
    constructor
    · rw [List.map_map]
      exact (cols_nodup R.oneRow).sublist (List.Sublist.map _ List.filter_sublist)
    · intro z hz
      obtain ⟨i, hi, rfl⟩ := List.mem_map.1 hz
      exact (hval kvs hm i (List.mem_filter.1 hi).1).2.2
  have hheight : v.height < 500 := by
    rw [← hvd, Val.height]
    have : heightL (objs.map fun kvs => Val.obj ((infos.filter fun i => !i.noReturn).map fun i => (i.col, readVal kvs i))) ≤ 2 := by
      refine heightL_le fun y hy => ?_
      obtain ⟨kvs, hm, rfl⟩ := List.mem_map.1 hy
      rw [Val.height]
      have : heightF ((infos.filter fun i => !i.noReturn).map fun i => (i.col, readVal kvs i)) ≤ 1 := by
        refine heightF_le fun z hz => ?_
        obtain ⟨i, hi, rfl⟩ := List.mem_map.1 hz
        exact Nat.le_of_eq (hval kvs hm i (List.mem_filter.1 hi).1).2.1
      omega
    omega
  have hsh := kept_short hkept
  refine ⟨compact v, (C33_no_nul _ hsh).1, fun m hm => C33_compact _ hheight hsh m hm, fun extra' m hm => ?_⟩
  have hdep := depth_le_height v
  have e := render_compact v hsh 0
  have hb := read_back false (x := synOf v) (by rw [synOf_val v hdist]; exact hkept) (by rw [synOf_val v hdist]; omega)
    (by rw [synOf_val v hdist, e]; exact hl) extra' m (by rw [synOf_val v hdist, e]; exact hm)
  rwa [synOf_val v hdist, e] at hb

/-- an object with exactly the columns of the table -/
theorem row_same {infos : List Info} {kvs : List (List Byte × Val)} (hk : (kvs.map Prod.fst).Nodup) (hcols : kvs.map Prod.fst = infos.map Info.col)
    (hnn : ∀ i ∈ infos, i.notNull = true → kvs.lookup i.col ≠ some (.atom .null)) : infos.map (fun i => (i.col, readVal kvs i)) = kvs := by
  have hl : ∀ kv ∈ kvs, kvs.lookup kv.1 = some kv.2 := by
    clear hcols hnn
    intro kv hm
    induction kvs with
    | nil => simp at hm
    | cons p kvs ih =>
      obtain ⟨a, b⟩ := p
      rw [List.map_cons, List.nodup_cons] at hk
      rcases List.mem_cons.1 hm with e | hm'
      · subst e
        simp [List.lookup]
      · have : kv.1 ≠ a := by
          intro e
          exact hk.1 (List.mem_map.2 ⟨kv, hm', e⟩)
        rw [List.lookup_cons, show (kv.1 == a) = false by simpa using this]
        exact ih hk.2 hm'
  refine List.ext_getElem (by simpa using (congrArg List.length hcols).symm) fun k h1 h2 => ?_
  have h3 : k < infos.length := by simpa using h1
  have hc : infos[k].col = kvs[k].1 := by
    have : (infos.map Info.col)[k]? = (kvs.map Prod.fst)[k]? := by rw [hcols]
    simpa [h3, h2] using this
  have hlk := hl _ (List.getElem_mem h2)
  rw [List.getElem_map, hc]
  refine Prod.ext rfl ?_
  simp only [readVal, hc, hlk]
  rw [if_neg]
  rintro ⟨h4, h5⟩
  refine hnn _ (List.getElem_mem h3) h5 ?_
  rw [hc, hlk, h4]

/-- **C130, the same document.**  If each of the objects has exactly the columns of the table, in their order and without null where a column must not be
null, and all columns are returned, then the printed text is not longer than the text that was read, and is read as the same value. -/
theorem C130_same [Libc] {c : Ctx S} {infos : List Info} {ds : List Data} (R : Prepared c infos ds []) {stmts : Stmts} {sel : List Byte}
    {rows : S → List (List Cell)} (K : Keeps c.eng infos stmts.table sel rows) (hdyn : stmts.insertDynamic = true)
    (hone : ∀ info, infos = [info] → info.noLabel = false) (hret : ∀ info ∈ infos, info.noReturn = false)
    (text extra : List Byte) (h0 : 0 ∉ text) (hlen : text.length < 2 ^ 31) (n : Nat) (hn : text.length ≤ n) (objs : List (List (List Byte × Val))) (t : Tz)
    (hp : parsex n (text ++ 0 :: extra) text.length true = .ok (some (.value (some (.arr (objs.map Val.obj))), t)))
    (hcols : ∀ kvs ∈ objs, kvs.map Prod.fst = infos.map Info.col) (hne : infos ≠ [])
    (hf : ∀ kvs ∈ objs, ∀ kv ∈ kvs, ∀ info ∈ infos, info.col = kv.1 → Fits info kv.2)
    (hnn : ∀ kvs ∈ objs, ∀ i ∈ infos, i.notNull = true → kvs.lookup i.col ≠ some (.atom .null))
    (s : S) (hs : rows s = []) (fuel : Nat) (hfuel : objs.length < fuel) :
    ∃ s' sts s'' v text', insertEach c stmts s objs = .ok (some (s', sts)) ∧
      (∀ st ∈ sts, ∃ o, st = some (some (.obj o)) ∧ o.lookup kError = none) ∧
      select c fuel s' sel (some none) = .ok (some (s'', sqliteDone, some (some v), false)) ∧
      text'.length ≤ text.length ∧ 0 ∉ text' ∧
      (∀ m, nsteps v ≤ m → ∃ b, asprint m false v = .ok (some (b, text'.length)) ∧ b.take (text'.length + 1) = (text' ++ [0]).map some) ∧
      ∀ extra' m, text'.length ≤ m → ∃ t', parsex m (text' ++ 0 :: extra') text'.length true =
        .ok (some (.value (some (.arr (objs.map Val.obj))), t')) := by
  obtain ⟨x, hx, -, hv⟩ := (C92_accepts_iff text extra h0 hlen n hn _).1 ⟨t, hp⟩
  have hd := syn_distinct x
  rw [← Option.some.inj hv, Val.Distinct, distinctL_mem] at hd
  have hk : ∀ kvs ∈ objs, (kvs.map Prod.fst).Nodup := by
    intro kvs hm
    have := hd _ (List.mem_map_of_mem hm)
    rw [Val.Distinct] at this
    exact this.1
  have hpr : ∀ kvs ∈ objs, present infos kvs ≠ [] := by
    intro kvs hm h
    obtain ⟨i, hi⟩ := List.exists_mem_of_ne_nil _ hne
    have hc : i.col ∈ kvs.map Prod.fst := by rw [hcols kvs hm]; exact List.mem_map_of_mem hi
    obtain ⟨⟨k, w⟩, hkw, hkc⟩ := List.mem_map.1 hc
    have hso : (kvs.lookup i.col).isSome = true := by
      cases hl : kvs.lookup i.col with
      | some w => rfl
      | none =>
        rw [List.lookup_eq_none_iff] at hl
        have := hl _ hkw
        simp [← hkc] at this
    obtain ⟨w', hw⟩ := Option.isSome_iff_exists.1 hso
    have hfw : Fits i w' := by
      obtain ⟨l1, l2, e, -⟩ := List.lookup_eq_some_iff.mp hw
      exact hf kvs hm (i.col, w') (by rw [e]; simp) i hi rfl
    obtain ⟨y, hy, -⟩ := fits_back hfw
    have : i ∈ present infos kvs := by
      simp only [present, List.mem_filter]
      refine ⟨hi, ?_⟩
      simp only [storedCell, hw]
      split
      · rename_i h
        exact absurd hw (h.1 ▸ hnn kvs hm i hi h.2)
      · rw [hy]; rfl
    rw [h] at this
    simp at this
  obtain ⟨s', sts, h1, h2, s'', old, h3, h4⟩ := C123_partial R K hdyn (fun i hi => .inr (hone i hi)) objs hk hf hpr s fuel (by rw [hs]; simpa using hfuel)
  have hold : old = [] := by
    rw [hs] at h4
    exact List.length_eq_zero_iff.1 h4
  subst hold
  have hfil : infos.filter (fun i => !i.noReturn) = infos := List.filter_eq_self.2 fun i hi => by simp [hret i hi]
  have hsame : (objs.map fun kvs => Val.obj ((infos.filter fun i => !i.noReturn).map fun i => (i.col, readVal kvs i))) = objs.map Val.obj := by
    refine List.map_congr_left fun kvs hm => ?_
    rw [hfil, row_same (hk kvs hm) (hcols kvs hm) (hnn kvs hm)]
  rw [List.nil_append, hsame] at h3
  have hatom : ∀ kvs ∈ objs, ∀ kv ∈ kvs, ∃ a, kv.2 = .atom a ∧ ∀ d, a ≠ .dbl d := by
    intro kvs hm kv hkv
    have hc : kv.1 ∈ infos.map Info.col := by rw [← hcols kvs hm]; exact List.mem_map_of_mem hkv
    obtain ⟨i, hi, hic⟩ := List.mem_map.1 hc
    rcases hf kvs hm kv hkv i hi hic with h | h
    · exact ⟨_, h, by simp⟩
    · revert h
      cases i.type with
      | undef => exact False.elim
      | blob => exact False.elim
      | int => rintro ⟨n, h, -⟩; exact ⟨_, h, by simp⟩
      | int64 => rintro ⟨n, h⟩; exact ⟨_, h, by simp⟩
      | text => rintro ⟨w, h, -⟩; exact ⟨_, h, by simp⟩
  obtain ⟨text', g1, g2, g3, g4⟩ := C125_not_longer text extra h0 hlen n hn _ t hp
    (by
      rw [Val.All, allL_mem]
      intro y hy
      obtain ⟨kvs, hm, rfl⟩ := List.mem_map.1 hy
      rw [Val.All, allF_mem]
      intro z hz
      obtain ⟨a, h, h'⟩ := hatom kvs hm z hz
      rw [h, Val.All]
      exact ⟨trivial, h'⟩)
    (by
      rw [Val.height]
      have : heightL (objs.map Val.obj) ≤ 2 := by
        refine heightL_le fun y hy => ?_
        obtain ⟨kvs, hm, rfl⟩ := List.mem_map.1 hy
        rw [Val.height]
        have : heightF kvs ≤ 1 := by
          refine heightF_le fun z hz => ?_
          obtain ⟨a, h, -⟩ := hatom kvs hm z hz
          rw [h, Val.height]
          exact Nat.le_refl 1
        omega
      omega)
  exact ⟨s', sts, s'', _, text', h1, h2, h3, g1, g2, g3, g4⟩

/-- `[{"a":5, "b":"x"}]` is read as an array of an object with the columns of the table -/
theorem textAB_read [Libc] : ∃ t, parsex 18 ([91, 123, 34, 97, 34, 58, 53, 44, 32, 34, 98, 34, 58, 34, 120, 34, 125, 93] ++ 0 :: []) 18 true =
    .ok (some (.value (some (.arr [.obj [([97], .atom (.i64 5)), ([98], .atom (.str [120]))]])), t)) :=
  ⟨_, rfl⟩

/-- the values fit the columns -/
theorem textAB_fits : ∀ kvs ∈ [[([97], Val.atom (.i64 5)), ([98], Val.atom (.str [120]))]], ∀ kv ∈ kvs, ∀ info ∈ tabAB, info.col = kv.1 → Fits info kv.2 := by
  intro kvs hk kv hkv info hi he
  simp only [List.mem_cons, List.not_mem_nil, or_false, tabAB] at hk hi
  subst hk
  rcases hi with rfl | rfl <;> simp at hkv <;> rcases hkv with rfl | rfl
  · exact .inr ⟨5, rfl, by decide, by decide⟩
  · simp [rowA] at he
  · simp at he
  · exact .inr ⟨[120], rfl, by decide⟩

/-- the text is `[{"a":5,"b":"x"}]` again -/
example [Libc] : ∃ s' sts s'' v text', insertEach memCtx { table := [116], insertDynamic := true } []
      [[([97], .atom (.i64 5)), ([98], .atom (.str [120]))]] = .ok (some (s', sts)) ∧
    (∀ st ∈ sts, ∃ o, st = some (some (.obj o)) ∧ o.lookup kError = none) ∧
    select memCtx 2 s' selAB (some none) = .ok (some (s'', sqliteDone, some (some v), false)) ∧
    text'.length ≤ 18 ∧ 0 ∉ text' ∧
    (∀ m, nsteps v ≤ m → ∃ b, asprint m false v = .ok (some (b, text'.length)) ∧ b.take (text'.length + 1) = (text' ++ [0]).map some) ∧
    ∀ extra' m, text'.length ≤ m → ∃ t', parsex m (text' ++ 0 :: extra') text'.length true =
      .ok (some (.value (some (.arr [.obj [([97], .atom (.i64 5)), ([98], .atom (.str [120]))]])), t')) := by
  obtain ⟨t, hp⟩ := textAB_read
  exact C130_same mem_prepared (stmts := { table := [116], insertDynamic := true }) memDb_keeps rfl (by simp [tabAB]) (by simp [tabAB, rowA])
    [91, 123, 34, 97, 34, 58, 53, 44, 32, 34, 98, 34, 58, 34, 120, 34, 125, 93] [] (by decide) (by decide) 18 (by decide)
    [[([97], .atom (.i64 5)), ([98], .atom (.str [120]))]] t hp (by decide) (by simp [tabAB]) textAB_fits
    (by simp [tabAB, rowA, List.lookup]) [] rfl 2 (by decide)

/-- the hypotheses of `C130_partial` for the same text -/
example [Libc] : ∃ s' sts s'' v, insertEach memCtx { table := [116], insertDynamic := true } []
      [[([97], .atom (.i64 5)), ([98], .atom (.str [120]))]] = .ok (some (s', sts)) ∧
    (∀ st ∈ sts, ∃ o, st = some (some (.obj o)) ∧ o.lookup kError = none) ∧
    select memCtx 2 s' selAB (some none) = .ok (some (s'', sqliteDone, some (some v), false)) ∧
    v = .arr [.obj [([97], .atom (.i64 5)), ([98], .atom (.str [120]))]] := by
  obtain ⟨t, hp⟩ := textAB_read
  obtain ⟨s', sts, s'', v, h1, h2, h3, h4, -⟩ :=
    C130_partial mem_prepared (stmts := { table := [116], insertDynamic := true }) memDb_keeps rfl (by simp [tabAB])
      (by
        intro info hi
        simp only [List.mem_cons, List.not_mem_nil, or_false, tabAB] at hi
        rcases hi with rfl | rfl
        · exact ⟨⟨['a'], by decide, rfl⟩, by decide⟩
        · exact ⟨⟨['b'], by decide, rfl⟩, by decide⟩)
      (by simp [tabAB, rowA]) [91, 123, 34, 97, 34, 58, 53, 44, 32, 34, 98, 34, 58, 34, 120, 34, 125, 93] [] (by decide) (by decide) 18 (by decide)
      [[([97], .atom (.i64 5)), ([98], .atom (.str [120]))]] t hp textAB_fits (by decide) [] rfl 2 (by decide)
  exact ⟨s', sts, s'', v, h1, h2, h3, h4⟩

end Verif.Sqlite.Props
