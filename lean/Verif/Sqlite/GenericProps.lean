import Verif.Sqlite.AsProps
import Verif.Sqlite.JsonProps

/-!
# Properties of operations with a JSON object

C87: operations with a JSON object.
-/

namespace Verif.Sqlite.Props

open Verif Verif.Sqlite
open Verif.Json (Val insertKey mergeVal mergeable mergeF)
open Verif.Dbm (str)

variable {S : Type}

/-- what an object gives a column: the value under its name; a column that must not be null is zero without one -/
def storedCell (info : Info) (kvs : List (List Byte × Val)) : Option Cell :=
  match kvs.lookup info.col with
  | some v => if v = .atom .null ∧ info.notNull = true then zeroCell info.type else jsonCell v
  | none => if info.notNull = true then zeroCell info.type else none

/-- the columns an object is stored in, in the order of the table -/
def present (infos : List Info) (kvs : List (List Byte × Val)) : List Info :=
  infos.filter fun info => (storedCell info kvs).isSome

/-- `insert into T (a,b) values (@a,@b)` -/
def insertSql (table : List Byte) (infos : List Info) : List Byte :=
  str "insert into " ++ table ++ str " (" ++ commas (infos.map Info.col) ++ str ") values (" ++
    commas (infos.map Info.var) ++ str ")"

theorem filter_zipIdx {P : Info × Nat → Bool} {Q : Info → Bool} (infos : List Info) (i : Nat)
    (h : ∀ (j : Nat) info, infos[j]? = some info → P (info, i + j) = Q info) :
    ((infos.zipIdx i).filter P).map (·.1) = infos.filter Q := by
  induction infos generalizing i with
  | nil => rfl
  | cons a infos ih =>
    have h0 := h 0 a rfl
    have ih' := ih (i + 1) fun j info hj => by
      have := h (j + 1) info hj
      rwa [show i + 1 + j = i + (j + 1) by omega]
    rw [List.zipIdx_cons, List.filter_cons, List.filter_cons, Nat.add_zero] at *
    rw [h0]
    split
    · rw [List.map_cons, ih']
    · exact ih'

theorem calls_binds (k : Nat) (es : List Ev) : calls k es = ((bindsOf es).filter (fun p => p.1 = k)).map (·.2) := by
  induction es with
  | nil => rfl
  | cons e es ih =>
    cases e with
    | bind j b =>
      simp only [calls, bindsOf, List.filterMap_cons, List.filter_cons]
      simp only [bindsOf] at ih
      by_cases hj : j = k
      · simp [hj, ih]
      · simp [hj, ih]
    | step => simpa [calls, bindsOf] using ih
    | finalize => simpa [calls, bindsOf] using ih
    | prepError => simpa [calls, bindsOf] using ih
    | unbound j => simpa [calls, bindsOf] using ih

theorem unboundOf_last {es : List Ev} {k : Nat} {sql : List Byte} {params : List (Option (List Byte))} {infos : List Info}
    {data : Option (List Data)} {pp : Bool} {rc : RetCode}
    (h : bindRun sql (some params) (some infos) data pp = .ok (es, rc)) (hs : es.getLast? = some (.unbound k)) :
    unboundOf es = some k := by
  simp only [bindRun, Res.map_eq_ok] at h
  obtain ⟨r, -, h⟩ := h
  have key : ∀ (l : List (Nat × Bound)), unboundOf (l.map (fun p => Ev.bind p.1 p.2) ++ [Ev.unbound k]) = some k := by
    intro l
    induction l with
    | nil => rfl
    | cons a l ih => simpa [unboundOf] using ih
  split at h
  · simp only [Prod.mk.injEq] at h
    rw [← h.1] at hs ⊢
    simp only [List.getLast?_append, List.getLast?_singleton, Option.some_or, Option.some.injEq, Ev.unbound.injEq] at hs
    rw [hs]
    exact key _
  · simp only [Prod.mk.injEq] at h
    rw [← h.1] at hs
    cases pp <;> simp at hs

/-- C72: if a parameter does not stand in the table, the statement is not run (the database stays as it was), the code is
`SQLITE_ERROR`, and the message names the first such parameter and its number -/
theorem C72_reported (c : Ctx S) {s : S} {sql : List Byte} {params : List (Option (List Byte))} {infos : List Info}
    (hprep : c.eng.prep s sql = .ok params) (hi : c.infos = some infos) (ho : OneIndex params)
    (hd : ∀ ds, c.data = some ds → infos.length ≤ ds.length) {es : List Ev} {rc : RetCode}
    (h : bindRun sql (some params) (some infos) c.data true = .ok (es, rc)) {k : Nat} {p : Option (List Byte)}
    (hk : params[k]? = some p) (hno : ∀ info ∈ infos, p ≠ some info.var)
    (hfirst : ∀ m, m < k → ∃ info ∈ infos, params[m]? = some (some info.var)) :
    runSql c s (some sql) (some none) = .ok (s, 1, some (some (.obj [(str "error", .atom (.str
      (str "SQL:" ++ c.name ++ str ":'" ++ sql ++ str "' the " ++ Json.intText ((k + 1 : Nat) : Int) ++
        str "th parameter '" ++ p.getD [] ++ str "' is not bound")))]))) := by
  obtain ⟨h1, -, h3⟩ := C72_partial ho hd h
  have hst : Ev.step ∉ es := by
    rw [h1]
    intro hall
    obtain ⟨info, hm, he⟩ := hall p (List.mem_of_getElem? hk)
    exact hno info hm he
  obtain ⟨-, j, hj, hj1, hj2, hj3⟩ := h3 hst
  have hjk : j = k := by
    rcases Nat.lt_trichotomy j k with g | g | g
    · obtain ⟨info, hm, he⟩ := hfirst j g
      exact absurd he (hj1 info hm)
    · exact g
    · obtain ⟨info, hm, he⟩ := hj3 k g
      rw [hk, Option.some.injEq] at he
      exact absurd he (hno info hm)
  subst hjk
  have hu := unboundOf_last h hj
  simp only [runSql, start, hprep, hi, h, Res.map_ok', hu, Nat.add_sub_cancel, hk, Option.getD_some, acceptResult]
  simp only [Res.bind, setError, List.lookup, Option.isSome_none, Bool.false_eq_true, if_false, Res.map, insertKey]
  rfl

/-- the hypotheses of C72_reported are met: `@a` stands in the table, `@b` does not -/
example : ∃ es rc, OneIndex [some [64, 97], some [64, 98]] ∧
    bindRun kwSelect (some [some [64, 97], some [64, 98]]) (some [({ var := [64, 97], col := [97], type := .int } : Info)])
      none true = .ok (es, rc) ∧
    (∀ info ∈ [({ var := [64, 97], col := [97], type := .int } : Info)], some [64, 98] ≠ some info.var) ∧
    ∀ m, m < 1 → ∃ info ∈ [({ var := [64, 97], col := [97], type := .int } : Info)],
      [some [(64 : Byte), 97], some [64, 98]][m]? = some (some info.var) := by
  refine ⟨_, _, ?_, rfl, by decide, ?_⟩
  · intro i j name hi hj
    match i, j with
    | 0, 0 => rfl
    | 1, 1 => rfl
    | 0, 1 => simp at hi hj; subst hi; simp at hj
    | 1, 0 => simp at hi hj; subst hi; simp at hj
    | i + 2, _ => simp at hi
    | _, j + 2 => simp at hj
  · intro m hm
    obtain rfl : m = 0 := by omega
    exact ⟨_, List.mem_singleton.2 rfl, rfl⟩

theorem unboundOf_run {sql : List Byte} {params : List (Option (List Byte))} {infos : List Info}
    {data : Option (List Data)} {pp : Bool} {es : List Ev} {rc : RetCode}
    (h : bindRun sql (some params) (some infos) data pp = .ok (es, rc)) (hs : .step ∈ es) : unboundOf es = none := by
  simp only [bindRun, Res.map_eq_ok] at h
  obtain ⟨r, -, h⟩ := h
  have key : ∀ (l : List (Nat × Bound)) (t : List Ev), unboundOf t = none →
      unboundOf (l.map (fun p => Ev.bind p.1 p.2) ++ t) = none := by
    intro l t ht
    induction l with
    | nil => exact ht
    | cons a l ih => simpa [unboundOf] using ih
  split at h
  · simp only [Prod.mk.injEq] at h
    rw [← h.1] at hs
    simp at hs
  · simp only [Prod.mk.injEq] at h
    rw [← h.1]
    refine key _ _ ?_
    cases pp <;> rfl

theorem starts_insert (table : List Byte) (infos : List Info) : StartsWith kwInsert (insertSql table infos) := by
  refine ⟨[], kwInsert, str " into " ++ table ++ str " (" ++ commas (infos.map Info.col) ++ str ") values (" ++
    commas (infos.map Info.var) ++ str ")", ?_, by simp, kw_lower.2.1⟩
  have : str "insert into " = kwInsert ++ str " into " := by decide
  simp only [insertSql, this, List.nil_append, List.append_assoc]

/-- no two rows are for the same variable -/
def OneVar (infos : List Info) : Prop :=
  ∀ (i j : Nat) (a b : Info), infos[i]? = some a → infos[j]? = some b → a.var = b.var → i = j

theorem oneIndex_present {infos : List Info} (hv : OneVar infos) (Q : Info → Bool) :
    OneIndex ((infos.filter Q).map fun i => some i.var) := by
  have hnd : (infos.map Info.var).Nodup := by
    rw [List.nodup_iff_pairwise_ne, List.pairwise_iff_getElem]
    intro i j hi hj hij he
    simp only [List.length_map] at hi hj
    simp only [List.getElem_map] at he
    have := hv i j _ _ (List.getElem?_eq_getElem hi) (List.getElem?_eq_getElem hj) he
    omega
  have hnd2 : ((infos.filter Q).map Info.var).Nodup :=
    List.Nodup.sublist (List.Sublist.map _ List.filter_sublist) hnd
  intro i j name hi hj
  simp only [List.getElem?_map, Option.map_eq_some_iff, Option.some.injEq] at hi hj
  obtain ⟨a, ha, rfl⟩ := hi
  obtain ⟨b, hb, hab⟩ := hj
  obtain ⟨hi', ea⟩ := List.getElem?_eq_some_iff.mp ha
  obtain ⟨hj', eb⟩ := List.getElem?_eq_some_iff.mp hb
  rw [List.nodup_iff_pairwise_ne, List.pairwise_iff_getElem] at hnd2
  rcases Nat.lt_trichotomy i j with h | h | h
  · exact (hnd2 i j (by simpa using hi') (by simpa using hj') h (by simp [ea, eb, hab])).elim
  · exact h
  · exact (hnd2 j i (by simpa using hj') (by simpa using hi') h (by simp [ea, eb, hab])).elim

theorem rename_done (x d : Val) : renameKey kRowid (str "id") (insertKey (str "debug") d (insertKey kRowid x [])) =
    [(str "debug", d), (str "id", x)] := by
  have k1 : kRowid ≠ str "debug" := by decide
  have k2 : (str "debug" != kRowid) = true := by decide
  have k3 : str "debug" ≠ str "id" := by decide
  simp [renameKey, insertKey, k1, k2, k3, List.lookup, List.filter_cons]

theorem rename_err (x d : Val) : renameKey kRowid (str "id") (insertKey (str "debug") d (insertKey kError x [])) =
    [(kError, x), (str "debug", d)] := by
  have k1 : kError ≠ str "debug" := by decide
  have k2 : (kRowid == str "debug") = false := by decide
  have k3 : (kRowid == kError) = false := by decide
  simp [renameKey, insertKey, k1, k2, k3, List.lookup]

/-- C87: what an insertion of an object does with unused data: the statement names the columns of the object, the value of
every column is bound to its variable, and the number of the row is returned -/
theorem C87_insert (c : Ctx S) (s : S) {infos : List Info} {ds : List Data} {kvs : List (List Byte × Val)} {stmts : Stmts}
    (hi : c.infos = some infos) (hd : c.data = some ds) (hl : ds.length = infos.length)
    (hclean : ∀ d ∈ ds, Clean d) (ho : OneRow infos) (hv : OneVar infos)
    (hcol : ∀ info ∈ infos, info.col ≠ [] ∧ info.type ≠ .undef ∧ info.data.hasValue = false)
    (hn : (kvs.map Prod.fst).Nodup) (hf : ∀ kv ∈ kvs, ∀ info ∈ infos, info.col = kv.1 → Fits info kv.2)
    (hdyn : stmts.insertDynamic = true) {sql : List Byte} (hsql : sql = insertSql stmts.table (present infos kvs))
    (hprep : c.eng.prep s sql = .ok ((present infos kvs).map fun i => some i.var)) :
    ∃ binds st, insertOp c s kvs stmts (some none) =
        .ok (some ((c.eng.step s sql binds 0).1, (c.eng.step s sql binds 0).2.code, some (some (.obj st)))) ∧
      (∀ k info, (present infos kvs)[k]? = some info →
        (binds.filter fun p => p.1 = k + 1).map (fun p => cellOf p.2) = [storedCell info kvs]) ∧
      (st.lookup kError = none ↔ (c.eng.step s sql binds 0).2.code = sqliteDone) ∧
      ((c.eng.step s sql binds 0).2.code = sqliteDone →
        st.lookup (str "id") = some (.atom (.i64 (cInt (toU64 (c.eng.rowid (c.eng.step s sql binds 0).1)))))) := by
  obtain ⟨u, hu, hul, hue, -, -, huv⟩ := C75_partial (hasErr := true) ho kvs { data := ds } hl hn hf
    (fun i info d _ hd _ => hclean d (List.mem_of_getElem? hd))
  simp only at hue
  -- what a row holds
  have hrow : ∀ (i : Nat) info, infos[i]? = some info → ∃ d, u.data[i]? = some d ∧
      ((d.hasValue = true ∧ ∃ x, storedCell info kvs = some x ∧ Means info d x) ∨
       (d.hasValue = false ∧ storedCell info kvs = if info.notNull = true then zeroCell info.type else none)) := by
    intro i info hinfo
    have hil := (List.getElem?_eq_some_iff.mp hinfo).1
    have hil' : i < ds.length := by omega
    obtain ⟨d, hd', hh⟩ := huv i info ds[i] hinfo (List.getElem?_eq_getElem hil')
    have hcl := hclean ds[i] (List.getElem_mem _)
    refine ⟨d, hd', ?_⟩
    unfold storedCell
    cases hlk : kvs.lookup info.col with
    | none =>
      rw [hlk] at hh
      simp only [Holds] at hh
      exact .inr ⟨by rw [hh]; exact hcl.1, rfl⟩
    | some v =>
      rw [hlk] at hh
      simp only [Holds] at hh
      simp only
      by_cases hnn : v = .atom .null ∧ info.notNull = true
      · rw [if_pos hnn] at hh ⊢
        exact .inr ⟨by rw [hh]; exact hcl.1, by rw [if_pos hnn.2]⟩
      · rw [if_neg hnn] at hh ⊢
        obtain ⟨h1, x, h2, h3⟩ := hh
        exact .inl ⟨h1, x, h2, h3⟩
  have hzero : ∀ info ∈ infos, ∃ x, zeroCell info.type = some x := by
    intro info hm
    have := (hcol info hm).2.1
    cases ht : info.type <;> simp_all [zeroCell]
  -- the rows of the statement
  have hrows : (insertRows (some u.data) infos.zipIdx).map (·.1) = present infos kvs := by
    refine filter_zipIdx infos 0 ?_
    intro j info hj
    obtain ⟨d, hd', hh⟩ := hrow j info hj
    have hown := (hcol info (List.mem_of_getElem? hj)).2.2
    obtain ⟨z, hz⟩ := hzero info (List.mem_of_getElem? hj)
    have hhd : HasData (some u.data) (0 + j) info ↔ d.hasValue = true := by
      simp [HasData, ext, hd', hown]
    rw [Bool.eq_iff_iff, decide_eq_true_eq, hhd]
    rcases hh with ⟨h1, x, h2, -⟩ | ⟨h1, h2⟩
    · simp [h1, h2]
    · rw [h2]
      cases hnn : info.notNull <;> simp [h1, hz]
  have hmapcol : (insertRows (some u.data) infos.zipIdx).map (fun r => r.1.col) = (present infos kvs).map Info.col := by
    rw [← hrows, List.map_map]; rfl
  have hmapvar : (insertRows (some u.data) infos.zipIdx).map (fun r => r.1.var) = (present infos kvs).map Info.var := by
    rw [← hrows, List.map_map]; rfl
  -- the bindings
  have hwants : ∀ (j : Nat) info, infos[j]? = some info → info ∈ present infos kvs →
      Wants (StartsWith kwInsert sql) (ext (some u.data) j) info (storedCell info kvs) := by
    intro j info hj hmem
    obtain ⟨d, hd', hh⟩ := hrow j info hj
    have hx : ext (some u.data) j = some d := by simpa [ext] using hd'
    rcases hh with ⟨h1, x, h2, h3⟩ | ⟨h1, h2⟩
    · rw [h2]
      exact .caller hx h1 h3
    · have hsome := (List.mem_filter.mp hmem).2
      have hnn : info.notNull = true := by
        rw [h2] at hsome
        cases hnn : info.notNull <;> simp_all
      obtain ⟨z, hz⟩ := hzero info (List.mem_of_getElem? hj)
      rw [h2, if_pos hnn, hz]
      refine .zero (fun d' hd2 => ?_) (hcol info (List.mem_of_getElem? hj)).2.2 (by rw [hsql]; exact starts_insert _ _) hnn hz
      rw [hx] at hd2
      cases hd2
      exact h1
  have hoi : OneIndex ((present infos kvs).map fun i => some i.var) := oneIndex_present hv _
  have hdlen : ∀ dd, some u.data = some dd → infos.length ≤ dd.length := by rintro dd ⟨⟩; omega
  have huniq : ∀ (a b : Info) (j : Nat), infos[j]? = some a → b ∈ infos → b.var = a.var → b = a := by
    intro a b j ha hb hab
    obtain ⟨m, hm⟩ := List.getElem?_of_mem hb
    have := hv m j b a hm ha hab
    subst this
    rw [ha] at hm
    cases hm
    rfl
  obtain ⟨es, rc, hrun⟩ := C47_total (sql := sql) hoi true hdlen (infos := infos) (by
    intro j info hj hm
    obtain ⟨b, hb, hbv⟩ := List.mem_map.mp hm
    simp only [Option.some.injEq] at hbv
    have := huniq info b j hj (List.mem_filter.mp hb).1 hbv
    subst this
    exact ⟨_, hwants j b hj hb⟩)
  have hstep : .step ∈ es := by
    rw [(C72_partial hoi hdlen hrun).1]
    intro p hp
    obtain ⟨b, hb, rfl⟩ := List.mem_map.mp hp
    exact ⟨b, (List.mem_filter.mp hb).1, rfl⟩
  have hunb := unboundOf_run hrun hstep
  -- the composition
  have hcomp := C77_compose kvs (some u.data) infos hdlen (fun info hm => (hcol info hm).1)
    (wu := stmts.template.isSome) (wi := true)
  rw [hmapcol, hmapvar] at hcomp
  have hw : (stmts.template.map fun _ => ([] : List Byte)) = if stmts.template.isSome then some [] else none := by
    cases stmts.template <;> rfl
  have hcomp' : compose kvs (some u.data) 0 infos (stmts.template.map fun _ => [])
      (if stmts.insertDynamic = true then some ([], []) else none) =
      .ok (if stmts.template.isSome = true then some (commas ((updateRows kvs (some u.data) infos.zipIdx).map assign))
        else none, some (commas ((present infos kvs).map Info.col), commas ((present infos kvs).map Info.var))) := by
    rw [hw, hdyn]
    exact hcomp
  let c' : Ctx S := { eng := c.eng, name := c.name, infos := some infos, data := some u.data }
  have hstart : start c' s (some sql) =
      .ok (.stepped (bindsOf es) (c.eng.step s sql (bindsOf es) 0).1 (c.eng.step s sql (bindsOf es) 0).2) := by
    simp only [start, c', hprep, hrun, Res.map, hunb]
  refine ⟨bindsOf es, ?_⟩
  generalize hq : c.eng.step s sql (bindsOf es) 0 = q at *
  obtain ⟨s1, r⟩ := q
  simp only at hstart
  have hgd : genericData c kvs = .ok (c', u) := by
    simp only [genericData, hi, hd, Option.getD_some, hu, Res.map, Option.map_some]
    rfl
  have hbinds : ∀ k info, (present infos kvs)[k]? = some info →
      ((bindsOf es).filter fun p => p.1 = k + 1).map (fun p => cellOf p.2) = [storedCell info kvs] := by
    intro k info hk
    have hmem := List.mem_of_getElem? hk
    obtain ⟨j, hj⟩ := List.getElem?_of_mem (List.mem_filter.mp hmem).1
    have := C47_partial hoi hdlen hrun (k := k) (by simp [hk]) hj
      (fun m x hm hx => hv m j x info hm hj hx) (hwants j info hj hmem)
    rw [calls_binds, List.map_map] at this
    have h2 := (List.mem_filter.mp hmem).2
    obtain ⟨x, hx⟩ := Option.isSome_iff_exists.mp h2
    rw [hx] at this ⊢
    exact this
  obtain ⟨set, hset⟩ : ∃ o, genericStmts stmts
      (if stmts.template.isSome = true then some (commas ((updateRows kvs (some u.data) infos.zipIdx).map assign)) else none,
        some (commas ((present infos kvs).map Info.col), commas ((present infos kvs).map Info.var))) = { stmts with updateX := o, insertX := some sql } := by
    refine ⟨(genericStmts stmts
      (if stmts.template.isSome = true then some (commas ((updateRows kvs (some u.data) infos.zipIdx).map assign)) else none,
        none)).updateX, ?_⟩
    simp only [genericStmts, hsql, insertSql]
  have hgen : ∀ f : Ctx S → S → Stmts → Status → Res (Option (S × Nat × Status)),
      generic c s kvs stmts (some none) f = ((f c' s { stmts with updateX := set, insertX := some sql }
        (some (some (.obj [])))).bind fun
        | none => .ok none
        | some (s, rc, status) =>
          (setKey status (str "debug") (debugVal { stmts with updateX := set, insertX := some sql } u)).map
            fun status => some (s, rc, status)) := by
    intro f
    unfold generic
    rw [hgd]
    simp only [Res.bind]
    rw [show c'.data = some u.data from rfl, show c'.infos = some infos from rfl, Option.getD_some, hcomp']
    simp only [Res.bind]
    rw [hset, show acceptResult (some none) = some (some (.obj [])) from rfl]
    simp only [genericEnd, hue, if_true]
    cases f c' s { stmts with updateX := set, insertX := some sql } (some (some (.obj []))) with
    | ub => rfl
    | segv => rfl
    | ok o =>
      cases o with
      | none => rfl
      | some o =>
        simp only [Res.bind]
        cases setKey o.2.2 (str "debug") (debugVal { stmts with updateX := set, insertX := some sql } u) <;> rfl
  unfold insertOp
  rw [hgen]
  have hins : ∀ st, insert c' s ({ stmts with updateX := set, insertX := some sql } : Stmts).insertStmt st none =
      runInsert c' s (some sql) (acceptResult st) kRowid := by
    intro st
    simp only [insert, Stmts.insertStmt, hdyn, if_true, Option.getD_none]
  rw [hins, show acceptResult (some (some (.obj []))) = some (some (.obj [])) from rfl]
  unfold runInsert runDone runSql
  rw [hstart]
  simp only [Res.bind, show acceptResult (some (some (.obj []))) = some (some (.obj [])) from rfl]
  have k1 : (kError == str "debug") = false := by decide
  have k2 : (kError == str "id") = false := by decide
  have k3 : (str "id" == str "debug") = false := by decide
  by_cases hdone : r.code = sqliteDone
  · simp only [hdone, ne_eq, not_true, if_false, if_true, setKey, Res.map]
    rw [rename_done]
    refine ⟨_, rfl, hbinds, ?_, ?_⟩
    · simp [List.lookup, k1, k2]
    · simp [List.lookup, k3, c']
  · simp only [hdone, ne_eq, not_false_iff, if_true, Bool.false_eq_true, if_false, setError, Res.map, List.lookup,
      Option.isSome_none, setKey]
    rw [rename_err]
    refine ⟨_, rfl, hbinds, ?_, ?_⟩
    · simp [List.lookup]
    · intro h; exact h.elim

/-- an engine for statements with the one parameter `@a` -/
def oneParam (code : Step) : Engine Nat where
  prep _ _ := .ok [some [64, 97]]
  names _ _ := []
  step s _ _ _ := (s + 1, code)
  rowid _ := 7
  changes _ := 1
  totalChanges _ := 1
  errmsg _ := [101]

/-- a table with the column `a` -/
def ctxA (code : Step) : Ctx Nat :=
  { eng := oneParam code, name := [110], infos := some [rowA .int], data := some [{}] }

theorem one_row (a : Info) : OneRow [a] ∧ OneVar [a] := by
  constructor
  all_goals
    intro i j x y hi hj _
    have h1 := (List.getElem?_eq_some_iff.mp hi).1
    have h2 := (List.getElem?_eq_some_iff.mp hj).1
    simp at h1 h2
    omega

/-- `{"a":5,"z":null}` -/
example : ∃ (binds : List (Nat × Bound)) (st : List (List Byte × Val)), insertOp (ctxA .done) 0 [([97], .atom (.i64 5)), ([122], .atom .null)]
      { table := [116], insertDynamic := true } (some none) = .ok (some (1, 101, some (some (.obj st)))) ∧
    (∀ k info, (present [rowA .int] [([97], .atom (.i64 5)), ([122], .atom .null)])[k]? = some info →
        (binds.filter fun p => p.1 = k + 1).map (fun p => cellOf p.2) =
          [storedCell info [([97], .atom (.i64 5)), ([122], .atom .null)]]) ∧
      (st.lookup kError = none ↔ 101 = sqliteDone) ∧
      (101 = sqliteDone → st.lookup (str "id") = some (.atom (.i64 (cInt (toU64 7))))) :=
  C87_insert (ctxA .done) 0 (ds := [{}]) (infos := [rowA .int]) (kvs := [([97], .atom (.i64 5)), ([122], .atom .null)])
    (stmts := { table := [116], insertDynamic := true }) rfl rfl rfl (by simp [Clean]) (one_row _).1 (one_row _).2
    (by simp [rowA]) (by decide) (by
      intro kv hkv info hi he
      simp only [List.mem_singleton] at hi
      subst hi
      simp only [List.mem_cons, List.not_mem_nil, or_false] at hkv
      rcases hkv with rfl | rfl
      · exact .inr ⟨5, rfl, by decide, by decide⟩
      · exact .inl rfl) rfl rfl rfl

example : present [rowA .int, { var := [64, 98], col := [98], type := .text, notNull := true }]
    [([97], .atom (.i64 5))] = [rowA .int, { var := [64, 98], col := [98], type := .text, notNull := true }] ∧
    storedCell { var := [64, 98], col := [98], type := .text, notNull := true } [([97], .atom (.i64 5))] =
      some (.text []) := ⟨rfl, rfl⟩

/-- C87 is false for selections: with a place for the result the operation never ends in an orderly way -/
theorem C87_select_false (c : Ctx S) (fuel : Nat) (s : S) (json : List (List Byte × Val)) (stmts : Stmts) (st : Option Val)
    (q : S × Nat × Status) : selectOp c fuel s json stmts (some st) ≠ .ok (some q) := by
  intro h
  unfold selectOp generic at h
  obtain ⟨⟨c', u⟩, -, h⟩ := (Res.bind_eq_ok (x := genericData c json)).mp h
  obtain ⟨r, -, h⟩ := Res.bind_eq_ok.mp h
  simp only at h
  obtain ⟨v, hv⟩ : ∃ v, acceptResult (some st) = some (some v) := by cases st <;> exact ⟨_, rfl⟩
  rw [hv] at h
  cases hsel : (genericStmts stmts r).select with
  | none => rw [hsel] at h; cases h
  | some sql =>
    rw [hsel] at h
    simp only at h
    by_cases ha : ArrayStatus (some (some v))
    · match v, ha with
      | .arr old, _ =>
        obtain ⟨o, ho, h⟩ := Res.bind_eq_ok.mp h
        obtain ⟨o', ho', rfl⟩ := Res.map_eq_ok.mp ho
        cases o' with
        | none => cases h
        | some p =>
          obtain ⟨s', rc, st', left⟩ := p
          simp only [Option.map_some] at h
          have hst : ∃ ys, st' = some (some (.arr ys)) := by
            unfold select at ho'
            obtain ⟨w, hw, e⟩ := Res.map_eq_ok.mp ho'
            cases w with
            | none => cases e
            | some w =>
              simp only [Option.map_some, Option.some.injEq, Prod.mk.injEq] at e
              have hws : w.status = some (some (.arr old)) := by
                unfold selectIter at hw
                simp only at hw
                obtain ⟨t, -, hw⟩ := Res.bind_eq_ok.mp hw
                cases t with
                | failed n msg l =>
                  obtain ⟨z, hz, -⟩ := Res.map_eq_ok.mp hw
                  simp [iterFail, acceptResult, objAppend, Res.bind] at hz
                | stepped b s1 r1 =>
                  simp only at hw
                  split at hw
                  · obtain ⟨z, hz, -⟩ := Res.map_eq_ok.mp hw
                    simp [iterFail, acceptResult, objAppend, Res.bind, setError] at hz
                  · obtain ⟨z, -, hz⟩ := Res.map_eq_ok.mp hw
                    unfold iterDone at hz
                    cases z with
                    | none => cases hz
                    | some z =>
                      simp only [Option.map_some, Option.some.injEq] at hz
                      rw [← hz]
              have e3 := e.2.2.1
              rw [hws] at e3
              simp only at e3
              split at e3
              · exact ⟨old ++ w.acc, by rw [← e3]; simp [mergeInto, mergeable, mergeVal]⟩
              · exact ⟨_, e3.symm⟩
          obtain ⟨ys, rfl⟩ := hst
          obtain ⟨z, hz, -⟩ := Res.map_eq_ok.mp h
          simp [genericEnd, setKey, Res.bind] at hz
    · rw [C83_object_segv c' fuel s sql _ ha] at h
      cases h

/-- the operation itself runs: without a place for the result it ends -/
example : selectOp (plain (small true false)) 2 0 [] { select := some [120] } none = .ok (some (1, 101, none)) := rfl

/-- C87 is false for insertions without a place for the result: the row is inserted, and then NULL is dereferenced -/
theorem C87_insert_null_false (c : Ctx S) (s : S) (json : List (List Byte × Val)) (stmts : Stmts)
    (q : S × Nat × Status) : insertOp c s json stmts none ≠ .ok (some q) := by
  intro h
  unfold insertOp generic at h
  obtain ⟨o, ho, h⟩ := Res.bind_eq_ok.mp h
  obtain ⟨⟨c', u⟩, -, ho⟩ := (Res.bind_eq_ok (x := genericData c json)).mp ho
  obtain ⟨r, -, ho⟩ := Res.bind_eq_ok.mp ho
  simp only at ho
  obtain ⟨p, hp, ho⟩ := Res.bind_eq_ok.mp ho
  cases p with
  | none => cases ho; cases h
  | some p =>
    obtain ⟨s', rc, st⟩ := p
    have hst : st = none := by
      obtain ⟨p', hp', e⟩ := Res.map_eq_ok.mp hp
      cases e
      simp only [insert, runInsert, runDone, runSql, acceptResult] at hp'
      obtain ⟨⟨s1, rc1, st1, b⟩, h1, h2⟩ := Res.bind_eq_ok.mp hp'
      obtain ⟨⟨s2, rc2, st2⟩, h3, h4⟩ := Res.bind_eq_ok.mp h1
      have hn : st2 = none := by
        obtain ⟨t, -, h3⟩ := Res.bind_eq_ok.mp h3
        cases t with
        | failed n msg l =>
          obtain ⟨z, hz, e⟩ := Res.map_eq_ok.mp h3
          cases hz
          cases e
          rfl
        | stepped b s1 r1 => cases h3; rfl
      subst hn
      have hn1 : st1 = none := by
        simp only at h4
        split at h4
        · obtain ⟨z, hz, e⟩ := Res.map_eq_ok.mp h4
          cases hz; cases e; rfl
        · cases h4; rfl
      subst hn1
      simp only at h2
      split at h2
      · obtain ⟨z, hz, e⟩ := Res.map_eq_ok.mp h2
        cases hz; cases e; rfl
      · cases h2; rfl
    subst hst
    obtain ⟨z, hz, e⟩ := Res.map_eq_ok.mp ho
    subst e
    have : z = none := by
      unfold genericEnd at hz
      simp only [setKey, Res.bind] at hz
      split at hz
      · cases hz; rfl
      · cases hz; rfl
    subst this
    cases h

/-- C87 is false for a value of a wrong type: the error is reported, but the statement is run without it -/
theorem C87_error_false : ∃ st, insertOp { ctxA .done with eng := { oneParam .done with prep := fun _ _ => .ok [] } } 0
      [([97], .atom (.str [120]))] { table := [116], insertDynamic := true } (some none) =
      .ok (some (1, 101, some (some (.obj st)))) ∧
    st.lookup kError = some (namesVal [[97]]) := ⟨_, rfl, rfl⟩

/-- C87 is false for an error of SQLite together with a value of a wrong type: the message is overwritten -/
theorem C87_lost_false : ∃ st, insertOp { ctxA .done with eng := { oneParam .done with prep := fun _ _ => .error 1 } } 0
      [([97], .atom (.str [120]))] { table := [116], insertDynamic := true } (some none) =
      .ok (some (0, 1, some (some (.obj st)))) ∧
    st.lookup kError = some (namesVal [[97]]) := ⟨_, rfl, rfl⟩

end Verif.Sqlite.Props
