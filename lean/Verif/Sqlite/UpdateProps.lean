import Verif.Sqlite.GenericProps
import Verif.Json.Entries

/-!
# Updates with a JSON object, from its values to the database

C87: updates.
-/

namespace Verif.Sqlite.Props

open Verif Verif.Sqlite
open Verif.Json (Val insertKey mergeVal mergeable mergeF lookup_insertKey)
open Verif.Dbm (str)

variable {S : Type}

/-- an operation with unused data, an object of which the values fit the columns, and a table with names -/
structure Prepared (c : Ctx S) (infos : List Info) (ds : List Data) (kvs : List (List Byte × Val)) : Prop where
  hinfos : c.infos = some infos
  hdata : c.data = some ds
  len : ds.length = infos.length
  clean : ∀ d ∈ ds, Clean d
  oneRow : OneRow infos
  oneVar : OneVar infos
  cols : ∀ info ∈ infos, info.col ≠ [] ∧ info.type ≠ .undef ∧ info.data.hasValue = false
  keys : (kvs.map Prod.fst).Nodup
  fits : ∀ kv ∈ kvs, ∀ info ∈ infos, info.col = kv.1 → Fits info kv.2

/-- the value a variable of a statement gets from an object: the value under the name of its column; an insertion gives
zero to a column that must not be null, in other statements nothing is bound to it, which SQLite takes for NULL -/
def boundCell (ins : Bool) (info : Info) (kvs : List (List Byte × Val)) : Option Cell :=
  match kvs.lookup info.col with
  | some v =>
    if v = .atom .null ∧ info.notNull = true then (if ins then zeroCell info.type else none) else jsonCell v
  | none => if ins = true ∧ info.notNull = true then zeroCell info.type else none

/-- the columns that are changed by an update: those of the object that may be updated; null is not stored in a column
that must not be null -/
def changed (infos : List Info) (kvs : List (List Byte × Val)) : List Info :=
  infos.filter fun info => !info.noUpdate && match kvs.lookup info.col with
    | some v => !(decide (v = .atom .null) && info.notNull)
    | none => false

/-- `a=@a,b=@b` -/
def setSql (infos : List Info) : List Byte := commas (infos.map fun info => info.col ++ [61] ++ info.var)

/-- SQLite accepts the statement in every state, and its parameters are variables of the table -/
def Knows (e : Engine S) (infos : List Info) (sql : List Byte) : Prop :=
  ∀ s, ∃ ps, e.prep s sql = .ok ps ∧ OneIndex ps ∧ ∀ p ∈ ps, ∃ info ∈ infos, p = some info.var

/-- the variables of the statement have the values of the object -/
def Given (e : Engine S) (infos : List Info) (kvs : List (List Byte × Val)) (s : S) (sql : List Byte)
    (binds : List (Nat × Bound)) : Prop :=
  ∀ ps, e.prep s sql = .ok ps → ∀ (k : Nat) info, info ∈ infos → ps[k]? = some (some info.var) →
    (binds.filter fun p => p.1 = k + 1).map (fun p => cellOf p.2) =
      (boundCell (getStmtType sql = .insert) info kvs).toList.map some

/-- the population of the data, the composition and the binding, for any statement -/
theorem ready_run {c : Ctx S} {infos : List Info} {ds : List Data} {kvs : List (List Byte × Val)}
    (R : Prepared c infos ds kvs) :
    ∃ u : Use, genericData c kvs = .ok ({ c with data := some u.data }, u) ∧ u.errors = [] ∧
      (∀ stmts : Stmts, compose kvs (some u.data) 0 infos (stmts.template.map fun _ => [])
        (if stmts.insertDynamic = true then some ([], []) else none) =
        .ok (if stmts.template.isSome = true then some (setSql (changed infos kvs)) else none,
          if stmts.insertDynamic = true then
            some (commas ((present infos kvs).map Info.col), commas ((present infos kvs).map Info.var)) else none)) ∧
      ∀ s sql, Knows c.eng infos sql → ∃ binds,
        start { c with data := some u.data } s (some sql) =
          .ok (.stepped binds (c.eng.step s sql binds 0).1 (c.eng.step s sql binds 0).2) ∧
        Given c.eng infos kvs s sql binds := by
  obtain ⟨u, hu, hul, hue, -, -, huv⟩ := C75_partial (hasErr := true) R.oneRow kvs { data := ds } R.len R.keys R.fits
    (fun i info d _ hd _ => R.clean d (List.mem_of_getElem? hd))
  simp only at hue
  -- what a row holds
  have hrow : ∀ (i : Nat) info, infos[i]? = some info → ∃ d, u.data[i]? = some d ∧
      ((d.hasValue = true ∧ ∃ v x, kvs.lookup info.col = some v ∧ ¬ (v = .atom .null ∧ info.notNull = true) ∧
          jsonCell v = some x ∧ Means info d x) ∨
       (d.hasValue = false ∧ ∀ v, kvs.lookup info.col = some v → v = .atom .null ∧ info.notNull = true)) := by
    intro i info hinfo
    have hil := (List.getElem?_eq_some_iff.mp hinfo).1
    have hil' : i < ds.length := by rw [R.len]; omega
    obtain ⟨d, hd', hh⟩ := huv i info ds[i] hinfo (List.getElem?_eq_getElem hil')
    have hcl := R.clean ds[i] (List.getElem_mem _)
    refine ⟨d, hd', ?_⟩
    cases hlk : kvs.lookup info.col with
    | none =>
      rw [hlk] at hh
      simp only [Holds] at hh
      exact .inr ⟨by rw [hh]; exact hcl.1, by simp⟩
    | some v =>
      rw [hlk] at hh
      simp only [Holds] at hh
      by_cases hnn : v = .atom .null ∧ info.notNull = true
      · rw [if_pos hnn] at hh
        exact .inr ⟨by rw [hh]; exact hcl.1, by rintro v' ⟨⟩; exact hnn⟩
      · rw [if_neg hnn] at hh
        obtain ⟨h1, x, h2, h3⟩ := hh
        exact .inl ⟨h1, v, x, rfl, hnn, h2, h3⟩
  have hzero : ∀ info ∈ infos, ∃ x, zeroCell info.type = some x := by
    intro info hm
    have := (R.cols info hm).2.1
    cases ht : info.type <;> simp_all [zeroCell]
  have hdlen : ∀ dd, some u.data = some dd → infos.length ≤ dd.length := by rintro dd ⟨⟩; omega
  have hhd : ∀ (j : Nat) info, infos[j]? = some info → ∀ d, u.data[j]? = some d →
      (HasData (some u.data) (0 + j) info ↔ d.hasValue = true) := by
    intro j info hj d hd
    have hown := (R.cols info (List.mem_of_getElem? hj)).2.2
    simp [HasData, ext, hd, hown]
  -- the rows of the statements
  have hins : (insertRows (some u.data) infos.zipIdx).map (·.1) = present infos kvs := by
    refine filter_zipIdx infos 0 ?_
    intro j info hj
    obtain ⟨d, hd', hh⟩ := hrow j info hj
    obtain ⟨z, hz⟩ := hzero info (List.mem_of_getElem? hj)
    rw [Bool.eq_iff_iff, decide_eq_true_eq, hhd j info hj d hd']
    unfold storedCell
    rcases hh with ⟨h1, v, x, h2, h3, h4, -⟩ | ⟨h1, h2⟩
    · simp only [h1, h2, true_or, true_iff, if_neg h3, h4, Option.isSome_some]
    · cases hlk : kvs.lookup info.col with
      | none => cases hnn : info.notNull <;> simp [h1, hz]
      | some v =>
        have := h2 v hlk
        simp [h1, this.1, this.2, hz]
  have hupd : (updateRows kvs (some u.data) infos.zipIdx).map (·.1) = changed infos kvs := by
    refine filter_zipIdx infos 0 ?_
    intro j info hj
    obtain ⟨d, hd', hh⟩ := hrow j info hj
    have hmem : info.col ∈ kvs.map Prod.fst ↔ (kvs.lookup info.col).isSome = true := by
      rw [lookup_isSome, decide_eq_true_iff]
    rw [Bool.eq_iff_iff, decide_eq_true_eq, hhd j info hj d hd', hmem]
    rcases hh with ⟨h1, v, x, h2, h3, -, -⟩ | ⟨h1, h2⟩
    · rw [h2]
      cases hnu : info.noUpdate <;> simp [h1]
      cases hnn : info.notNull
      · exact .inr rfl
      · exact .inl fun hv => h3 ⟨hv, hnn⟩
    · cases hlk : kvs.lookup info.col with
      | none => simp
      | some v =>
        have := h2 v hlk
        simp [h1, this.1, this.2]
  have hmapcol : (insertRows (some u.data) infos.zipIdx).map (fun r => r.1.col) = (present infos kvs).map Info.col := by
    rw [← hins, List.map_map]; rfl
  have hmapvar : (insertRows (some u.data) infos.zipIdx).map (fun r => r.1.var) = (present infos kvs).map Info.var := by
    rw [← hins, List.map_map]; rfl
  have hmapset : (updateRows kvs (some u.data) infos.zipIdx).map assign =
      (changed infos kvs).map fun info => info.col ++ [61] ++ info.var := by
    rw [← hupd, List.map_map]; rfl
  refine ⟨u, ?_, hue, ?_, ?_⟩
  · simp only [genericData, R.hinfos, R.hdata, Option.getD_some, hu, Res.map, Option.map_some]
  · intro stmts
    have hcomp := C77_compose kvs (some u.data) infos hdlen (fun info hm => (R.cols info hm).1)
      (wu := stmts.template.isSome) (wi := stmts.insertDynamic)
    rw [hmapcol, hmapvar, hmapset] at hcomp
    have hw : (stmts.template.map fun _ => ([] : List Byte)) = if stmts.template.isSome then some [] else none := by
      cases stmts.template <;> rfl
    rw [hw]
    exact hcomp
  · intro s sql hk
    obtain ⟨ps, hprep, hoi, hnames⟩ := hk s
    have hwants : ∀ (j : Nat) info, infos[j]? = some info →
        Wants (StartsWith kwInsert sql) (ext (some u.data) j) info (boundCell (getStmtType sql = .insert) info kvs) := by
      intro j info hj
      obtain ⟨d, hd', hh⟩ := hrow j info hj
      have hx : ext (some u.data) j = some d := by simpa [ext] using hd'
      have hown := (R.cols info (List.mem_of_getElem? hj)).2.2
      unfold boundCell
      rcases hh with ⟨h1, v, x, h2, h3, h4, h5⟩ | ⟨h1, h2⟩
      · simp only [h2, if_neg h3, h4]
        exact .caller hx h1 h5
      · have hno : ∀ d', ext (some u.data) j = some d' → d'.hasValue = false := by
          intro d' hd2
          rw [hx] at hd2
          cases hd2
          exact h1
        obtain ⟨z, hz⟩ := hzero info (List.mem_of_getElem? hj)
        by_cases hins : StartsWith kwInsert sql
        · have hdec : decide (getStmtType sql = .insert) = true :=
            decide_eq_true ((C74_kind sql kwInsert .insert rfl).mpr hins)
          cases hlk : kvs.lookup info.col with
          | none =>
            simp only [hdec, true_and]
            by_cases hnn : info.notNull = true
            · rw [if_pos hnn, hz]
              exact .zero hno hown hins hnn hz
            · rw [if_neg hnn]
              exact .nothing hno hown fun h => hnn h.2
          | some v =>
            have hv := h2 v hlk
            simp only [if_pos hv, hdec, if_true, hz]
            exact .zero hno hown hins hv.2 hz
        · have hdec : decide (getStmtType sql = .insert) = false :=
            decide_eq_false fun h => hins ((C74_kind sql kwInsert .insert rfl).mp h)
          cases hlk : kvs.lookup info.col with
          | none =>
            simp only [hdec, Bool.false_eq_true, false_and, if_false]
            exact .nothing hno hown fun h => hins h.1
          | some v =>
            have hv := h2 v hlk
            simp only [if_pos hv, hdec, Bool.false_eq_true, if_false]
            exact .nothing hno hown fun h => hins h.1
    obtain ⟨es, rc, hrun⟩ := C47_total (sql := sql) hoi true hdlen (infos := infos) (by
      intro j info hj _
      exact ⟨_, hwants j info hj⟩)
    have hstep : .step ∈ es := by
      rw [(C72_partial hoi hdlen hrun).1]
      exact hnames
    refine ⟨bindsOf es, ?_, ?_⟩
    · simp only [start, hprep, R.hinfos, hrun, Res.map, unboundOf_run hrun hstep]
    · intro ps' hps' k info hm hk
      rw [hprep] at hps'
      cases hps'
      obtain ⟨j, hj⟩ := List.getElem?_of_mem hm
      have := C47_partial hoi hdlen hrun (k := k) hk hj
        (fun m x hm hx => R.oneVar m j x info hm hj hx) (hwants j info hj)
      rwa [calls_binds, List.map_map] at this

/-- the statements of an operation -/
def readyStmts (infos : List Info) (kvs : List (List Byte × Val)) (stmts : Stmts) : Stmts :=
  { stmts with
    updateX := (match stmts.template with
      | some t => if changed infos kvs = [] then none else some (fill (setSql (changed infos kvs)) t)
      | none => stmts.updateX)
    insertX := if stmts.insertDynamic = true then some (insertSql stmts.table (present infos kvs)) else stmts.insertX }

theorem setSql_zero {infos : List Info} : (setSql infos).length = 0 ↔ infos = [] := by
  unfold setSql
  rw [commas_length]
  · simp
  · intro x hx
    obtain ⟨i, -, rfl⟩ := List.mem_map.mp hx
    simp

theorem ready_generic {c : Ctx S} {infos : List Info} {ds : List Data} {kvs : List (List Byte × Val)}
    (R : Prepared c infos ds kvs) (stmts : Stmts) :
    ∃ (c' : Ctx S) (debug : Val), c'.eng = c.eng ∧
      (∀ s sql, Knows c.eng infos sql → ∃ binds,
        start c' s (some sql) = .ok (.stepped binds (c.eng.step s sql binds 0).1 (c.eng.step s sql binds 0).2) ∧
        Given c.eng infos kvs s sql binds) ∧
      ∀ s (f : Ctx S → S → Stmts → Status → Res (Option (S × Nat × Status))),
        generic c s kvs stmts (some none) f = ((f c' s (readyStmts infos kvs stmts) (some (some (.obj [])))).bind fun
        | none => .ok none
        | some (s, rc, status) => (setKey status (str "debug") debug).map fun status => some (s, rc, status)) := by
  obtain ⟨u, h1, h2, h3, h4⟩ := ready_run R
  refine ⟨{ c with data := some u.data }, debugVal (readyStmts infos kvs stmts) u, rfl, h4, ?_⟩
  intro s f
  have hst : genericStmts stmts (if stmts.template.isSome = true then some (setSql (changed infos kvs)) else none,
      if stmts.insertDynamic = true then
        some (commas ((present infos kvs).map Info.col), commas ((present infos kvs).map Info.var)) else none) =
      readyStmts infos kvs stmts := by
    unfold genericStmts readyStmts
    congr 1
    · cases hi : stmts.insertDynamic <;> simp [insertSql]
    · cases stmts.template with
      | none => rfl
      | some t =>
        simp only [Option.isSome_some, if_true, setSql_zero]
  unfold generic
  rw [h1]
  simp only [Res.bind]
  rw [show ({ c with data := some u.data } : Ctx S).infos = some infos from R.hinfos, Option.getD_some, h3]
  simp only [Res.bind]
  rw [hst, show acceptResult (some none) = some (some (.obj [])) from rfl]
  simp only [genericEnd, h2, if_true]
  rw [← R.hinfos]
  cases f { c with data := some u.data } s (readyStmts infos kvs stmts) (some (some (.obj []))) with
  | ub => rfl
  | segv => rfl
  | ok o =>
    cases o with
    | none => rfl
    | some o =>
      simp only [Res.bind]
      cases setKey o.2.2 (str "debug") (debugVal (readyStmts infos kvs stmts) u) <;> rfl

/-- the place of the assignments -/
theorem fill_at (set : List Byte) {pre post : List Byte} (h : 37 ∉ pre) :
    fill set (pre ++ str "%s" ++ post) = pre ++ set ++ post := by
  induction pre with
  | nil => rfl
  | cons b pre ih =>
    have hb : b ≠ 37 := fun e => h (e ▸ List.mem_cons_self)
    have := ih fun hm => h (List.mem_cons_of_mem _ hm)
    simp only [List.cons_append]
    rw [fill, this]
    rintro t rfl
    exact fun _ => hb rfl

/-- a statement that is run to its end, or fails -/
theorem runDone_stepped {c : Ctx S} {s : S} {sql : List Byte} {binds : List (Nat × Bound)} {q : S × Step}
    (h : start c s (some sql) = .ok (.stepped binds q.1 q.2)) (kvs : List (List Byte × Val))
    (hk : kvs.lookup kError = none) :
    ∃ st, runDone c s (some sql) (some (some (.obj kvs))) =
        .ok (q.1, q.2.code, some (some (.obj st)), decide (q.2.code = sqliteDone)) ∧
      (q.2.code = sqliteDone → st = kvs) ∧ (q.2.code ≠ sqliteDone → (st.lookup kError).isSome = true) := by
  unfold runDone runSql
  rw [h]
  simp only [Res.bind, acceptResult]
  by_cases hd : q.2.code = sqliteDone
  · exact ⟨kvs, by simp [hd], fun _ => rfl, fun h => (h hd).elim⟩
  · refine ⟨insertKey kError (.atom (.str (failMsg c.name q.2.code sql (c.eng.errmsg q.1)))) kvs, ?_, fun h => (hd h).elim,
      fun _ => by rw [lookup_insertKey]; simp⟩
    simp [hd, setError, hk, Res.map]

/-- C87: what an update with an object does: the selection is run with the values of the object; if it finds a row the
statement with the assignments `a=@a,b=@b` of the columns of the object in the place of `%s` is run with its values, there is an error exactly if it
does not end with `SQLITE_DONE`, and the number of changes is reported; if it finds none nothing else is run -/
theorem C87_update {c : Ctx S} {infos : List Info} {ds : List Data} {kvs : List (List Byte × Val)}
    (R : Prepared c infos ds kvs) {stmts : Stmts} {sel pre post u : List Byte} (hsel : stmts.select = some sel)
    (hup : stmts.update = none) (ht : stmts.template = some (pre ++ str "%s" ++ post)) (hpre : 37 ∉ pre)
    (hch : changed infos kvs ≠ []) (hu : u = pre ++ setSql (changed infos kvs) ++ post) (k1 : Knows c.eng infos sel) (k2 : Knows c.eng infos u) (s : S) :
    ∃ b1 s1 r1, c.eng.step s sel b1 0 = (s1, r1) ∧ Given c.eng infos kvs s sel b1 ∧
      (r1.code = sqliteRow → ∃ b2 s2 r2 st, c.eng.step s1 u b2 0 = (s2, r2) ∧ Given c.eng infos kvs s1 u b2 ∧
        updateOp c s kvs stmts (some none) = .ok (some (s2, r2.code, some (some (.obj st)))) ∧
        updateIfExistsOp c s kvs stmts (some none) = .ok (some (s2, r2.code, some (some (.obj st)))) ∧
        (st.lookup kError = none ↔ r2.code = sqliteDone) ∧
        (r2.code = sqliteDone → st.lookup (str "updated_rows") = some (.atom (.i64 (c.eng.totalChanges s2))))) ∧
      (r1.code ≠ sqliteRow → ∃ st, st.lookup kError = none ∧
        updateIfExistsOp c s kvs stmts (some none) = .ok (some (s1, r1.code, some (some (.obj st)))) ∧
        (r1.code ≠ sqliteOk → updateOp c s kvs stmts (some none) = .ok (some (s1, r1.code, some (some (.obj st)))))) := by
  obtain ⟨c', debug, he, hs, hg⟩ := ready_generic R stmts
  obtain ⟨b1, h1, h2⟩ := hs s sel k1
  have hsel' : (readyStmts infos kvs stmts).select = some sel := hsel
  have hupd' : (readyStmts infos kvs stmts).updateStmt = some u := by
    simp only [Stmts.updateStmt, readyStmts, hup, ht, if_neg hch, hu, fill_at _ hpre]
    rfl
  have hne : kError ≠ str "debug" := by decide
  have hne2 : kError ≠ str "updated_rows" := by decide
  have hne3 : str "updated_rows" ≠ str "debug" := by decide
  have hsql : runSql c' s (some sel) (some (some (.obj []))) =
      .ok ((c.eng.step s sel b1 0).1, (c.eng.step s sel b1 0).2.code, some (some (.obj []))) := by
    simp only [runSql, h1, Res.bind, acceptResult]
  generalize hq1 : c.eng.step s sel b1 0 = q1 at *
  obtain ⟨s1, r1⟩ := q1
  refine ⟨b1, s1, r1, hq1, h2, ?_, ?_⟩
  · intro hrow
    obtain ⟨b2, h3, h4⟩ := hs s1 u k2
    obtain ⟨st, h5, h6, h7⟩ := runDone_stepped h3 [] rfl
    generalize hq2 : c.eng.step s1 u b2 0 = q2 at *
    obtain ⟨s2, r2⟩ := q2
    refine ⟨b2, s2, r2, ?_⟩
    by_cases hd : r2.code = sqliteDone
    · have hst := h6 hd
      subst hst
      have hrun : updateIfExists c' s (readyStmts infos kvs stmts) (some (some (.obj []))) =
          .ok (s2, r2.code, some (some (.obj (insertKey (str "updated_rows") (.atom (.i64 (c.eng.totalChanges s2))) [])))) := by
        simp only [updateIfExists, hsel', show acceptResult (some (some (.obj []))) = some (some (.obj [])) from rfl, hsql,
          Res.bind, hrow, if_true, runUpdate, hupd', h5, hd, decide_true, setKey, Res.map, he]
      have hrun2 : update c' s (readyStmts infos kvs stmts) (some (some (.obj []))) =
          .ok (s2, r2.code, some (some (.obj (insertKey (str "updated_rows") (.atom (.i64 (c.eng.totalChanges s2))) [])))) := by
        simp only [update, hrun, Res.bind, hd]
        rfl
      refine ⟨insertKey (str "debug") debug (insertKey (str "updated_rows") (.atom (.i64 (c.eng.totalChanges s2))) []),
        hq2, h4, ?_, ?_, ?_, ?_⟩
      · simp only [updateOp, hg, hrun2, Res.map, Res.bind, setKey]
      · simp only [updateIfExistsOp, hg, hrun, Res.map, Res.bind, setKey]
      · simp [lookup_insertKey, hne, hne2, hd]
      · intro _
        simp [lookup_insertKey, hne3]
    · have hst := h7 hd
      have hrun : updateIfExists c' s (readyStmts infos kvs stmts) (some (some (.obj []))) =
          .ok (s2, r2.code, some (some (.obj st))) := by
        simp only [updateIfExists, hsel', show acceptResult (some (some (.obj []))) = some (some (.obj [])) from rfl, hsql,
          Res.bind, hrow, if_true, runUpdate, hupd', h5, hd, decide_false, Bool.false_eq_true, if_false]
      have hrun2 : update c' s (readyStmts infos kvs stmts) (some (some (.obj []))) =
          .ok (s2, r2.code, some (some (.obj st))) := by
        simp only [update, hrun, Res.bind, setError, hst, if_true, Res.map]
        split <;> rfl
      refine ⟨insertKey (str "debug") debug st, hq2, h4, ?_, ?_, ?_, fun h => (hd h).elim⟩
      · simp only [updateOp, hg, hrun2, Res.map, Res.bind, setKey]
      · simp only [updateIfExistsOp, hg, hrun, Res.map, Res.bind, setKey]
      · simp only [lookup_insertKey, if_neg hne, hd, iff_false]
        intro h
        rw [h] at hst
        cases hst
  · intro hrow
    have hrun : updateIfExists c' s (readyStmts infos kvs stmts) (some (some (.obj []))) =
        .ok (s1, r1.code, some (some (.obj []))) := by
      simp only [updateIfExists, hsel', show acceptResult (some (some (.obj []))) = some (some (.obj [])) from rfl, hsql,
        Res.bind, hrow, if_false]
    refine ⟨insertKey (str "debug") debug [], ?_, ?_, ?_⟩
    · simp [lookup_insertKey, hne, List.lookup]
    · simp only [updateIfExistsOp, hg, hrun, Res.map, Res.bind, setKey]
    · intro hok
      simp only [updateOp, hg, update, hrun, Res.map, Res.bind, setKey, if_neg hok]

/-- C87: what update-or-insert with an object does: the update of the columns of the object if the selection finds a row,
else the insertion, each with the values of the object; there is an error exactly if the statement does not end with
`SQLITE_DONE` -/
theorem C87_update_or_insert {c : Ctx S} {infos : List Info} {ds : List Data} {kvs : List (List Byte × Val)}
    (R : Prepared c infos ds kvs) {stmts : Stmts} {sel pre post u ins : List Byte} (hsel : stmts.select = some sel)
    (hup : stmts.update = none) (ht : stmts.template = some (pre ++ str "%s" ++ post)) (hpre : 37 ∉ pre)
    (hdyn : stmts.insertDynamic = true) (hch : changed infos kvs ≠ [])
    (hu : u = pre ++ setSql (changed infos kvs) ++ post)
    (hi : ins = insertSql stmts.table (present infos kvs)) (k1 : Knows c.eng infos sel) (k2 : Knows c.eng infos u)
    (k3 : Knows c.eng infos ins) (s : S) :
    ∃ b1 s1 r1, c.eng.step s sel b1 0 = (s1, r1) ∧ Given c.eng infos kvs s sel b1 ∧
      ∃ b2 s2 r2 st sql, sql = (if r1.code = sqliteRow then u else ins) ∧ c.eng.step s1 sql b2 0 = (s2, r2) ∧
        Given c.eng infos kvs s1 sql b2 ∧
        updateOrInsertOp c s kvs stmts (some none) = .ok (some (s2, r2.code, some (some (.obj st)))) ∧
        (st.lookup kError = none ↔ r2.code = sqliteDone) ∧
        (st.lookup kRowid = if r1.code ≠ sqliteRow ∧ r2.code = sqliteDone then
          some (.atom (.i64 (cInt (toU64 (c.eng.rowid s2))))) else none) := by
  obtain ⟨c', debug, he, hs, hg⟩ := ready_generic R stmts
  obtain ⟨b1, h1, h2⟩ := hs s sel k1
  have hsel' : (readyStmts infos kvs stmts).select = some sel := hsel
  have hupd' : (readyStmts infos kvs stmts).updateStmt = some u := by
    simp only [Stmts.updateStmt, readyStmts, hup, ht, if_neg hch, hu, fill_at _ hpre]
    rfl
  have hins' : (readyStmts infos kvs stmts).insertStmt = some ins := by
    simp only [Stmts.insertStmt, readyStmts, hdyn, if_true, hi]
  have hne : kError ≠ str "debug" := by decide
  have hne2 : kError ≠ kRowid := by decide
  have hne3 : kRowid ≠ str "debug" := by decide
  have hsql : runSql c' s (some sel) (some (some (.obj []))) =
      .ok ((c.eng.step s sel b1 0).1, (c.eng.step s sel b1 0).2.code, some (some (.obj []))) := by
    simp only [runSql, h1, Res.bind, acceptResult]
  generalize hq1 : c.eng.step s sel b1 0 = q1 at *
  obtain ⟨s1, r1⟩ := q1
  refine ⟨b1, s1, r1, hq1, h2, ?_⟩
  have hacc : acceptResult (some (some (.obj []))) = some (some (.obj [])) := rfl
  have key : ∀ sql, Knows c.eng infos sql → ∃ b2 s2 r2 st, c.eng.step s1 sql b2 0 = (s2, r2) ∧
      Given c.eng infos kvs s1 sql b2 ∧
      runDone c' s1 (some sql) (some (some (.obj []))) = .ok (s2, r2.code, some (some (.obj st)), decide (r2.code = sqliteDone)) ∧
      (r2.code = sqliteDone → st = []) ∧
      (r2.code ≠ sqliteDone → (st.lookup kError).isSome = true ∧ st.lookup kRowid = none) := by
    intro sql k
    obtain ⟨b2, h3, h4⟩ := hs s1 sql k
    refine ⟨b2, (c.eng.step s1 sql b2 0).1, (c.eng.step s1 sql b2 0).2, ?_⟩
    unfold runDone runSql
    rw [h3]
    simp only [Res.bind, acceptResult]
    by_cases hd : (c.eng.step s1 sql b2 0).2.code = sqliteDone
    · exact ⟨[], trivial, h4, by simp [hd], fun _ => rfl, fun h => (h hd).elim⟩
    · refine ⟨insertKey kError (.atom (.str (failMsg c'.name (c.eng.step s1 sql b2 0).2.code sql (c'.eng.errmsg
        (c.eng.step s1 sql b2 0).1)))) [], trivial, h4, ?_, fun h => (hd h).elim, fun _ => ?_⟩
      · simp [hd, setError, Res.map, List.lookup]
      · simp [lookup_insertKey, hne2.symm, List.lookup]
  by_cases hrow : r1.code = sqliteRow
  · obtain ⟨b2, s2, r2, st, g1, g2, g3, g4, g5⟩ := key u k2
    refine ⟨b2, s2, r2, insertKey (str "debug") debug st, u, by rw [if_pos hrow], g1, g2, ?_, ?_, ?_⟩
    · have hrun : updateOrInsert c' s (readyStmts infos kvs stmts) (some (some (.obj []))) =
          .ok (s2, r2.code, some (some (.obj st))) := by
        simp only [updateOrInsert, hsel', hacc, hsql, Res.bind, hrow, if_true, runUpdate, hupd', g3]
        split <;> rfl
      simp only [updateOrInsertOp, hg, hrun, Res.map, Res.bind, setKey]
    · by_cases hd : r2.code = sqliteDone
      · simp [g4 hd, lookup_insertKey, hne, hd, List.lookup]
      · simp only [lookup_insertKey, if_neg hne, hd, iff_false]
        intro h
        have := (g5 hd).1
        rw [h] at this
        cases this
    · rw [if_neg (fun h => h.1 hrow), lookup_insertKey, if_neg hne3]
      by_cases hd : r2.code = sqliteDone
      · simp [g4 hd, List.lookup]
      · exact (g5 hd).2
  · obtain ⟨b2, s2, r2, st, g1, g2, g3, g4, g5⟩ := key ins k3
    by_cases hd : r2.code = sqliteDone
    · have hst := g4 hd
      subst hst
      refine ⟨b2, s2, r2, insertKey (str "debug") debug (insertKey kRowid (.atom (.i64 (cInt (toU64 (c.eng.rowid s2))))) []),
        ins, by rw [if_neg hrow], g1, g2, ?_, ?_, ?_⟩
      · have hrun : updateOrInsert c' s (readyStmts infos kvs stmts) (some (some (.obj []))) =
            .ok (s2, r2.code, some (some (.obj (insertKey kRowid (.atom (.i64 (cInt (toU64 (c.eng.rowid s2))))) [])))) := by
          simp only [updateOrInsert, hsel', hacc, hsql, Res.bind, hrow, if_false, runInsert, hins', g3, hd, decide_true,
            if_true, setKey, Res.map, he]
        simp only [updateOrInsertOp, hg, hrun, Res.map, Res.bind, setKey]
      · simp [lookup_insertKey, hne, hne2, hd, List.lookup]
      · rw [if_pos ⟨hrow, hd⟩, lookup_insertKey, if_neg hne3, lookup_insertKey, if_pos rfl]
    · refine ⟨b2, s2, r2, insertKey (str "debug") debug st, ins, by rw [if_neg hrow], g1, g2, ?_, ?_, ?_⟩
      · have hrun : updateOrInsert c' s (readyStmts infos kvs stmts) (some (some (.obj []))) =
            .ok (s2, r2.code, some (some (.obj st))) := by
          simp only [updateOrInsert, hsel', hacc, hsql, Res.bind, hrow, if_false, runInsert, hins', g3, hd, decide_false,
            Bool.false_eq_true]
        simp only [updateOrInsertOp, hg, hrun, Res.map, Res.bind, setKey]
      · simp only [lookup_insertKey, if_neg hne, hd, iff_false]
        intro h
        have := (g5 hd).1
        rw [h] at this
        cases this
      · rw [if_neg (fun h => hd h.2), lookup_insertKey, if_neg hne3]
        exact (g5 hd).2

/-- C87: an object that has nothing to change: the selection is run, and if it finds a row there is a warning, no error, and
nothing else is run -/
theorem C87_update_nothing {c : Ctx S} {infos : List Info} {ds : List Data} {kvs : List (List Byte × Val)}
    (R : Prepared c infos ds kvs) {stmts : Stmts} {sel t : List Byte} (hsel : stmts.select = some sel)
    (hup : stmts.update = none) (ht : stmts.template = some t) (hch : changed infos kvs = [])
    (k1 : Knows c.eng infos sel) (s : S) :
    ∃ b1 s1 r1, c.eng.step s sel b1 0 = (s1, r1) ∧ Given c.eng infos kvs s sel b1 ∧
      (r1.code = sqliteRow → ∃ st,
        updateOp c s kvs stmts (some none) = .ok (some (s1, sqliteDone, some (some (.obj st)))) ∧
        updateOrInsertOp c s kvs stmts (some none) = .ok (some (s1, sqliteDone, some (some (.obj st)))) ∧
        st.lookup kError = none ∧
        st.lookup (str "warning") = some (.atom (.str (str "nothing to update " ++ stmts.table)))) := by
  obtain ⟨c', debug, he, hs, hg⟩ := ready_generic R stmts
  obtain ⟨b1, h1, h2⟩ := hs s sel k1
  have hsel' : (readyStmts infos kvs stmts).select = some sel := hsel
  have htab : (readyStmts infos kvs stmts).table = stmts.table := rfl
  have hupd' : (readyStmts infos kvs stmts).updateStmt = none := by
    simp only [Stmts.updateStmt, readyStmts, hup, ht, if_pos hch]
    rfl
  have hne : kError ≠ str "debug" := by decide
  have hne2 : kError ≠ str "warning" := by decide
  have hne3 : str "warning" ≠ str "debug" := by decide
  have hsql : runSql c' s (some sel) (some (some (.obj []))) =
      .ok ((c.eng.step s sel b1 0).1, (c.eng.step s sel b1 0).2.code, some (some (.obj []))) := by
    simp only [runSql, h1, Res.bind, acceptResult]
  generalize hq1 : c.eng.step s sel b1 0 = q1 at *
  obtain ⟨s1, r1⟩ := q1
  have hacc : acceptResult (some (some (.obj []))) = some (some (.obj [])) := rfl
  refine ⟨b1, s1, r1, hq1, h2, ?_⟩
  intro hrow
  refine ⟨insertKey (str "debug") debug (insertKey (str "warning")
    (.atom (.str (str "nothing to update " ++ stmts.table))) []), ?_, ?_, ?_, ?_⟩
  · have hrun : updateIfExists c' s (readyStmts infos kvs stmts) (some (some (.obj []))) =
        .ok (s1, sqliteDone, some (some (.obj (insertKey (str "warning")
          (.atom (.str (str "nothing to update " ++ stmts.table))) [])))) := by
      simp only [updateIfExists, hsel', hacc, hsql, Res.bind, hrow, if_true, runUpdate, hupd', setKey, Res.map, htab]
    have hrun2 : update c' s (readyStmts infos kvs stmts) (some (some (.obj []))) =
        .ok (s1, sqliteDone, some (some (.obj (insertKey (str "warning")
          (.atom (.str (str "nothing to update " ++ stmts.table))) [])))) := by
      simp only [update, hrun, Res.bind]
      rfl
    simp only [updateOp, hg, hrun2, Res.map, Res.bind, setKey]
  · have hrun : updateOrInsert c' s (readyStmts infos kvs stmts) (some (some (.obj []))) =
        .ok (s1, sqliteDone, some (some (.obj (insertKey (str "warning")
          (.atom (.str (str "nothing to update " ++ stmts.table))) [])))) := by
      simp only [updateOrInsert, hsel', hacc, hsql, Res.bind, hrow, if_true, runUpdate, hupd', setKey, Res.map, htab]
    simp only [updateOrInsertOp, hg, hrun, Res.map, Res.bind, setKey]
  · simp [lookup_insertKey, hne, hne2, List.lookup]
  · rw [lookup_insertKey, if_neg hne3, lookup_insertKey, if_pos rfl]

/-- an engine for statements with the one parameter `@a`; a statement that begins with `s` gives a row if there is one -/
def rowParam (row : Bool) : Engine Nat where
  prep _ _ := .ok [some [64, 97]]
  names _ _ := []
  step s sql _ _ := (s + 1, if sql.head? = some 115 then (if row then .row [] else .done) else .done)
  rowid s := s
  changes _ := 1
  totalChanges s := s
  errmsg _ := [101]

/-- a table with the columns `a` and `b` -/
def ctxAB (row : Bool) : Ctx Nat :=
  { eng := rowParam row, name := [110], infos := some [rowA .int, { var := [64, 98], col := [98], type := .text }],
    data := some [{}, {}] }

theorem ready_ab (row : Bool) (v : Val) (h : Fits { var := [64, 98], col := [98], type := .text } v) :
    Prepared (ctxAB row) [rowA .int, { var := [64, 98], col := [98], type := .text }] [{}, {}]
      [([98], v), ([97], .atom (.i64 5))] := by
  refine ⟨rfl, rfl, rfl, by simp [Clean], ?_, ?_, by simp [rowA], by simp, ?_⟩
  · intro i j x y hi hj hxy
    have h1 := (List.getElem?_eq_some_iff.mp hi).1
    have h2 := (List.getElem?_eq_some_iff.mp hj).1
    simp only [List.length_cons, List.length_nil] at h1 h2
    obtain rfl | rfl : i = 0 ∨ i = 1 := by omega
    all_goals obtain rfl | rfl : j = 0 ∨ j = 1 := by omega
    all_goals simp [rowA] at hi hj ⊢
    all_goals subst hi; subst hj; simp at hxy
  · intro i j x y hi hj hxy
    have h1 := (List.getElem?_eq_some_iff.mp hi).1
    have h2 := (List.getElem?_eq_some_iff.mp hj).1
    simp only [List.length_cons, List.length_nil] at h1 h2
    obtain rfl | rfl : i = 0 ∨ i = 1 := by omega
    all_goals obtain rfl | rfl : j = 0 ∨ j = 1 := by omega
    all_goals simp [rowA] at hi hj ⊢
    all_goals subst hi; subst hj; simp at hxy
  · intro kv hkv info hi he
    simp only [List.mem_cons, List.not_mem_nil, or_false] at hkv hi
    rcases hkv with rfl | rfl <;> rcases hi with rfl | rfl
    · simp [rowA] at he
    · exact h
    · exact .inr ⟨5, rfl, by decide, by decide⟩
    · simp at he

theorem knows_ab (row : Bool) (sql : List Byte) :
    Knows (ctxAB row).eng [rowA .int, { var := [64, 98], col := [98], type := .text }] sql := by
  intro s
  refine ⟨[some [64, 97]], rfl, ?_, by simp [rowA]⟩
  intro i j name hi hj
  have h1 := (List.getElem?_eq_some_iff.mp hi).1
  have h2 := (List.getElem?_eq_some_iff.mp hj).1
  simp at h1 h2
  omega

/-- `{"b":"x","a":5}`, a selection and `update t set %s` -/
example : setSql (changed [rowA .int, { var := [64, 98], col := [98], type := .text }]
      [([98], .atom (.str [120])), ([97], .atom (.i64 5))]) = str "a=@a,b=@b" ∧
    fill (str "a=@a,b=@b") (str "update t set %s where a=@a") = str "update t set a=@a,b=@b where a=@a" := by decide

example (row : Bool) (s : Nat) := C87_update (ready_ab row (.atom (.str [120])) (.inr ⟨[120], rfl, by decide⟩))
  (stmts := { table := [116], select := some [115], template := some (str "update t set %s where a=@a"), insertDynamic := true })
  (pre := str "update t set ") (post := str " where a=@a")
  rfl rfl rfl (by decide) (by decide) rfl (knows_ab row _) (knows_ab row _) s

example (row : Bool) (s : Nat) := C87_update_or_insert (ready_ab row (.atom (.str [120])) (.inr ⟨[120], rfl, by decide⟩))
  (stmts := { table := [116], select := some [115], template := some (str "update t set %s where a=@a"), insertDynamic := true })
  (pre := str "update t set ") (post := str " where a=@a")
  rfl rfl rfl (by decide) rfl (by decide) rfl rfl (knows_ab row _) (knows_ab row _) (knows_ab row _) s

/-- both ways are taken -/
example : (∃ st, updateOrInsertOp (ctxAB true) 0 [([98], .atom (.str [120])), ([97], .atom (.i64 5))]
      { table := [116], select := some [115], template := some (str "update t set %s"), insertDynamic := true } (some none) =
      .ok (some (2, 101, some (some (.obj st)))) ∧ st.lookup kRowid = none) ∧
    ∃ st, updateOrInsertOp (ctxAB false) 0 [([98], .atom (.str [120])), ([97], .atom (.i64 5))]
      { table := [116], select := some [115], template := some (str "update t set %s"), insertDynamic := true } (some none) =
      .ok (some (2, 101, some (some (.obj st)))) ∧ (st.lookup kRowid).isSome = true :=
  ⟨⟨_, rfl, by decide +kernel⟩, _, rfl, by decide +kernel⟩

/-- a table of which the columns cannot be updated -/
example (s : Nat) := C87_update_nothing (c := { ctxAB true with infos := some [{ rowA .int with noUpdate := true }], data := some [{}] })
  (infos := [{ rowA .int with noUpdate := true }]) (ds := [{}]) (kvs := [([97], .atom (.i64 5))])
  ⟨rfl, rfl, rfl, by simp [Clean], (one_row _).1, (one_row _).2, by simp [rowA], by decide, by
    intro kv hkv info hi _
    simp only [List.mem_singleton] at hkv hi
    subst hkv; subst hi
    exact .inr ⟨5, rfl, by decide, by decide⟩⟩
  (stmts := { table := [116], select := some [115], template := some (str "update t set %s") }) rfl rfl rfl (by decide)
  (by
    intro s
    refine ⟨[some [64, 97]], rfl, ?_, by simp [rowA]⟩
    intro i j name hi hj
    have h1 := (List.getElem?_eq_some_iff.mp hi).1
    have h2 := (List.getElem?_eq_some_iff.mp hj).1
    simp at h1 h2
    omega) s

end Verif.Sqlite.Props
