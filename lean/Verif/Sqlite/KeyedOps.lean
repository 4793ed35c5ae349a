import Verif.Sqlite.KeyedTable

/-!
# Property C129: a table that is changed by operations

Any sequence of the operations with JSON objects (C87) with a database that keeps rows and finds them by the value of one column, followed by a
selection (C83).
-/

namespace Verif.Sqlite.Props

open Verif Verif.Sqlite
open Verif.Json (Val insertKey lookup_insertKey)
open Verif.Dbm (str)

variable {S : Type}

/-- an operation with an object -/
inductive KOp where
  | insert (kvs : List (List Byte × Val))
  | update (kvs : List (List Byte × Val))
  | updateIfExists (kvs : List (List Byte × Val))
  | updateOrInsert (kvs : List (List Byte × Val))

def KOp.obj : KOp → List (List Byte × Val)
  | .insert kvs => kvs
  | .update kvs => kvs
  | .updateIfExists kvs => kvs
  | .updateOrInsert kvs => kvs

/-- sqlite3/cee-sqlite3.c:882-932: one operation with unused data -/
def runKOp (c : Ctx S) (stmts : Stmts) (s : S) : KOp → Res (Option (S × Nat × Status))
  | .insert kvs => insertOp c s kvs stmts (some none)
  | .update kvs => updateOp c s kvs stmts (some none)
  | .updateIfExists kvs => updateIfExistsOp c s kvs stmts (some none)
  | .updateOrInsert kvs => updateOrInsertOp c s kvs stmts (some none)

/-- one operation after the other: the database and the statuses -/
def runKOps (c : Ctx S) (stmts : Stmts) (s : S) : List KOp → Res (Option (S × List Status))
  | [] => .ok (some (s, []))
  | op :: ops => (runKOp c stmts s op).bind fun
    | none => .ok none
    | some (s, _, st) => (runKOps c stmts s ops).map fun r => r.map fun q => (q.1, st :: q.2)

/-! ## What the operations mean for a list of rows -/

/-- the row has the key of the object -/
def sameKey (key : Info) (kvs : List (List Byte × Val)) (row : Info → Val) : Bool := decide (jsonCell (row key) = (kvs.lookup key.col).bind jsonCell)

/-- the values of the object in all rows with its key -/
def changeRows (key : Info) (kvs : List (List Byte × Val)) (rows : List (Info → Val)) : List (Info → Val) :=
  rows.map fun row => if sameKey key kvs row then fun i => laterVal kvs i (row i) else row

/-- the rows after an operation -/
def KOp.rows (key : Info) (rows : List (Info → Val)) : KOp → List (Info → Val)
  | .insert kvs => rows ++ [readVal kvs]
  | .update kvs => changeRows key kvs rows
  | .updateIfExists kvs => changeRows key kvs rows
  | .updateOrInsert kvs => if rows.any (sameKey key kvs) then changeRows key kvs rows else rows ++ [readVal kvs]

/-! ## Updates -/

/-- C87: an update that finds no row does nothing, whatever the object has -/
theorem update_absent {c : Ctx S} {infos : List Info} {ds : List Data} {kvs : List (List Byte × Val)}
    (R : Prepared c infos ds kvs) {stmts : Stmts} {find : List Byte} (hsel : stmts.select = some find) (k1 : Knows c.eng infos find)
    (s : S) : ∃ b1, Given c.eng infos kvs s find b1 ∧ ∀ s1, c.eng.step s find b1 0 = (s1, .done) →
      ∃ st, updateOp c s kvs stmts (some none) = .ok (some (s1, sqliteDone, some (some (.obj st)))) ∧
        updateIfExistsOp c s kvs stmts (some none) = .ok (some (s1, sqliteDone, some (some (.obj st)))) ∧ st.lookup kError = none := by
  obtain ⟨c', debug, he, hs, hg⟩ := ready_generic R stmts
  obtain ⟨b1, h1, h2⟩ := hs s find k1
  refine ⟨b1, h2, fun s1 e => ?_⟩
  rw [e] at h1
  have hsel' : (readyStmts infos kvs stmts).select = some find := hsel
  have hacc : acceptResult (some (some (.obj []))) = some (some (.obj [])) := rfl
  have hsql : runSql c' s (some find) (some (some (.obj []))) = .ok (s1, sqliteDone, some (some (.obj []))) := by
    simp only [runSql, h1, Res.bind, acceptResult, Step.code]
  have hrun : updateIfExists c' s (readyStmts infos kvs stmts) (some (some (.obj []))) = .ok (s1, sqliteDone, some (some (.obj []))) := by
    simp only [updateIfExists, hsel', hacc, hsql, Res.bind]
    rfl
  have hrun2 : update c' s (readyStmts infos kvs stmts) (some (some (.obj []))) = .ok (s1, sqliteDone, some (some (.obj []))) := by
    simp only [update, hrun, Res.bind]
    rfl
  refine ⟨insertKey (str "debug") debug [], ?_, ?_, ?_⟩
  · simp only [updateOp, hg, hrun2, Res.map, Res.bind, setKey]
  · simp only [updateIfExistsOp, hg, hrun, Res.map, Res.bind, setKey]
  · simp [lookup_insertKey, List.lookup, show kError ≠ str "debug" by decide]

/-- C87: an update that finds a row but has nothing to update -/
theorem update_nothing {c : Ctx S} {infos : List Info} {ds : List Data} {kvs : List (List Byte × Val)}
    (R : Prepared c infos ds kvs) {stmts : Stmts} {sel t : List Byte} (hsel : stmts.select = some sel)
    (hup : stmts.update = none) (ht : stmts.template = some t) (hch : changed infos kvs = [])
    (k1 : Knows c.eng infos sel) (s : S) :
    ∃ b1, Given c.eng infos kvs s sel b1 ∧ ∀ s1 r1, c.eng.step s sel b1 0 = (s1, r1) → r1.code = sqliteRow → ∃ st,
        updateOp c s kvs stmts (some none) = .ok (some (s1, sqliteDone, some (some (.obj st)))) ∧
        updateIfExistsOp c s kvs stmts (some none) = .ok (some (s1, sqliteDone, some (some (.obj st)))) ∧ st.lookup kError = none := by
  obtain ⟨c', debug, he, hs, hg⟩ := ready_generic R stmts
  obtain ⟨b1, h1, h2⟩ := hs s sel k1
  refine ⟨b1, h2, fun s1 r1 e hrow => ?_⟩
  rw [e] at h1
  have hsel' : (readyStmts infos kvs stmts).select = some sel := hsel
  have htab : (readyStmts infos kvs stmts).table = stmts.table := rfl
  have hupd' : (readyStmts infos kvs stmts).updateStmt = none := by
    simp only [Stmts.updateStmt, readyStmts, hup, ht, if_pos hch]
    rfl
  have hacc : acceptResult (some (some (.obj []))) = some (some (.obj [])) := rfl
  have hsql : runSql c' s (some sel) (some (some (.obj []))) = .ok (s1, r1.code, some (some (.obj []))) := by
    simp only [runSql, h1, Res.bind, acceptResult]
  have hrun : updateIfExists c' s (readyStmts infos kvs stmts) (some (some (.obj []))) =
      .ok (s1, sqliteDone, some (some (.obj (insertKey (str "warning")
        (.atom (.str (str "nothing to update " ++ stmts.table))) [])))) := by
    simp only [updateIfExists, hsel', hacc, hsql, Res.bind, hrow, if_true, runUpdate, hupd', setKey, Res.map, htab]
  have hrun2 : update c' s (readyStmts infos kvs stmts) (some (some (.obj []))) =
      .ok (s1, sqliteDone, some (some (.obj (insertKey (str "warning")
        (.atom (.str (str "nothing to update " ++ stmts.table))) [])))) := by
    simp only [update, hrun, Res.bind]
    rfl
  refine ⟨insertKey (str "debug") debug (insertKey (str "warning")
    (.atom (.str (str "nothing to update " ++ stmts.table))) []), ?_, ?_, ?_⟩
  · simp only [updateOp, hg, hrun2, Res.map, Res.bind, setKey]
  · simp only [updateIfExistsOp, hg, hrun, Res.map, Res.bind, setKey]
  · simp [lookup_insertKey, List.lookup, show kError ≠ str "debug" by decide, show kError ≠ str "warning" by decide]

/-- one update, of rows that are there or not -/
theorem update_keeps {c : Ctx S} {infos : List Info} {ds : List Data} {kvs : List (List Byte × Val)} (R : Prepared c infos ds kvs)
    {stmts : Stmts} {key : Info} {sel find pre post : List Byte} {rows : S → List (List Cell)}
    (K : Keyed c.eng infos key stmts.table sel find pre post rows) (hkey : key ∈ infos) (hsel : stmts.select = some find)
    (hup : stmts.update = none) (ht : stmts.template = some (pre ++ str "%s" ++ post)) (hpre : 37 ∉ pre)
    (hk : HasKey key kvs) (s : S) (F : List (Info → Cell)) (hF : rows s = F.map (infos.map ·)) :
    ∃ s' st, updateOp c s kvs stmts (some none) = .ok (some (s', sqliteDone, some (some (.obj st)))) ∧
      updateIfExistsOp c s kvs stmts (some none) = .ok (some (s', sqliteDone, some (some (.obj st)))) ∧ st.lookup kError = none ∧
      rows s' = F.map fun f => infos.map fun i => if f key = keyOf key kvs then laterCell kvs i (f i) else f i := by
  have kf := K.knowsFind hkey
  by_cases hex : ∃ f ∈ F, f key = keyOf key kvs
  · by_cases hch : changed infos kvs = []
    · obtain ⟨b1, g1, h⟩ := update_nothing R hsel hup ht hch kf s
      obtain ⟨s1, r1, e1, hr, -, hiff⟩ := K.found hkey hk g1 hF
      obtain ⟨st, h1, h2, h3⟩ := h s1 r1 e1 (hiff.2 hex)
      exact ⟨s1, st, h1, h2, h3, by rw [hr, hF]; exact Keyed.same hch F⟩
    · obtain ⟨b1, s1, r1, e1, g1, hrow, -⟩ := C87_update R hsel hup ht hpre hch rfl kf (K.knowsUpdate hkey R.oneVar hch) s
      obtain ⟨s1', r1', e1', hr, -, hiff⟩ := K.found hkey hk g1 hF
      rw [e1] at e1'
      cases e1'
      obtain ⟨b2, s2, r2, st, e2, g2, h1, h2, h3, -⟩ := hrow (hiff.2 hex)
      obtain ⟨s2', e2', hr2⟩ := K.updated hkey R.oneVar hk R.fits hch g2 (F := F) (by rw [hr, hF])
      rw [e2] at e2'
      cases e2'
      exact ⟨s2, st, h1, h2, h3.2 rfl, hr2⟩
  · obtain ⟨b1, g1, h⟩ := update_absent R hsel kf s
    obtain ⟨s1, r1, e1, hr, hd, hiff⟩ := K.found hkey hk g1 hF
    have hd' : r1 = .done := hd.resolve_left (fun h => hex (hiff.1 h))
    subst hd'
    obtain ⟨st, h1, h2, h3⟩ := h s1 e1
    refine ⟨s1, st, h1, h2, h3, ?_⟩
    rw [hr, hF]
    refine List.map_congr_left fun f hf => List.map_congr_left fun i hi => ?_
    rw [if_neg (fun h => hex ⟨f, hf, h⟩)]

/-! ## Rows in the database and rows of the specification -/

/-- a row holds the values -/
def HoldsRow (infos : List Info) (key : Info) (f : Info → Cell) (g : Info → Val) : Prop :=
  (∀ i ∈ infos, colVal (backCol (f i)) = g i) ∧ jsonCell (g key) = some (f key)

theorem holds_same {infos : List Info} {key : Info} {kvs : List (List Byte × Val)} (hk : HasKey key kvs) {f : Info → Cell} {g : Info → Val}
    (h : HoldsRow infos key f g) : sameKey key kvs g = true ↔ f key = keyOf key kvs := by
  obtain ⟨v, h1, -, h3, -⟩ := key_cell hk
  simp only [sameKey, decide_eq_true_eq, h.2, h1, Option.bind_some, h3, Option.some.injEq]

theorem holds_read {infos : List Info} {key : Info} {kvs : List (List Byte × Val)} (hk : HasKey key kvs)
    (hcol : ∀ i ∈ infos, i.type ≠ .undef) (hf : ∀ kv ∈ kvs, ∀ info ∈ infos, info.col = kv.1 → Fits info kv.2) :
    HoldsRow infos key (fun i => (storedCell i kvs).getD .null) (readVal kvs) := by
  refine ⟨fun i hi => stored_back (hcol i hi) ?_, ?_⟩
  · intro v hv
    obtain ⟨l1, l2, e, -⟩ := List.lookup_eq_some_iff.mp hv
    exact hf (i.col, v) (by rw [e]; simp) i hi rfl
  · obtain ⟨v, h1, h2, h3, -⟩ := key_cell hk
    simp only [stored_key hk, Option.getD_some, readVal, h1]
    rw [if_neg (fun h => h2 h.1)]
    exact h3

theorem holds_later {infos : List Info} {key : Info} {kvs : List (List Byte × Val)} (hk : HasKey key kvs)
    (hf : ∀ kv ∈ kvs, ∀ info ∈ infos, info.col = kv.1 → Fits info kv.2) {f : Info → Cell} {g : Info → Val}
    (h : HoldsRow infos key f g) (he : f key = keyOf key kvs) :
    HoldsRow infos key (fun i => laterCell kvs i (f i)) (fun i => laterVal kvs i (g i)) := by
  refine ⟨fun i hi => ?_, ?_⟩
  · show colVal (backCol (laterCell kvs i (f i))) = laterVal kvs i (g i)
    unfold laterCell laterVal
    cases hl : kvs.lookup i.col with
    | none => exact h.1 i hi
    | some w =>
      have hfw : Fits i w := by
        obtain ⟨l1, l2, e, -⟩ := List.lookup_eq_some_iff.mp hl
        exact hf (i.col, w) (by rw [e]; simp) i hi rfl
      obtain ⟨y, hy, hy'⟩ := fits_back hfw
      simp only [hy, Option.getD_some]
      split
      · exact h.1 i hi
      · exact hy'
  · obtain ⟨v, h1, h2, h3, -⟩ := key_cell hk
    have hl := later_key hk
    simp only [he, hl]
    unfold laterVal
    simp only [h1]
    split
    · rw [h.2, he]
    · exact h3

/-- the rows of the database hold the rows of the specification, in the same order -/
def HoldsRows (infos : List Info) (key : Info) (F : List (Info → Cell)) (G : List (Info → Val)) : Prop := List.Forall₂ (HoldsRow infos key) F G

theorem holds_append {infos : List Info} {key : Info} {F : List (Info → Cell)} {G : List (Info → Val)} {f : Info → Cell} {g : Info → Val}
    (h : HoldsRows infos key F G) (h' : HoldsRow infos key f g) : HoldsRows infos key (F ++ [f]) (G ++ [g]) := by
  induction h with
  | nil => exact .cons h' .nil
  | cons h _ ih => exact .cons h ih

theorem holds_any {infos : List Info} {key : Info} {kvs : List (List Byte × Val)} (hk : HasKey key kvs) {F : List (Info → Cell)} {G : List (Info → Val)}
    (h : HoldsRows infos key F G) : G.any (sameKey key kvs) = true ↔ ∃ f ∈ F, f key = keyOf key kvs := by
  induction h with
  | nil => simp
  | cons h _ ih => simp only [List.any_cons, Bool.or_eq_true, List.mem_cons, exists_eq_or_imp, ih, holds_same hk h]

theorem holds_change {infos : List Info} {key : Info} {kvs : List (List Byte × Val)} (hk : HasKey key kvs)
    (hf : ∀ kv ∈ kvs, ∀ info ∈ infos, info.col = kv.1 → Fits info kv.2) {F : List (Info → Cell)} {G : List (Info → Val)}
    (h : HoldsRows infos key F G) :
    HoldsRows infos key (F.map fun f i => if f key = keyOf key kvs then laterCell kvs i (f i) else f i) (changeRows key kvs G) := by
  induction h with
  | nil => exact .nil
  | @cons f g F G h _ ih =>
    refine .cons ?_ ih
    by_cases he : f key = keyOf key kvs
    · simp only [he, if_true]
      rw [if_pos ((holds_same hk h).2 he)]
      exact holds_later hk hf h he
    · simp only [he, if_false]
      rw [if_neg (fun hs => he ((holds_same hk h).1 hs))]
      exact h

/-- **C129, what holds.**  Any insertions, updates, updates of rows that may be missing, and updates or insertions, with objects that have a key and whose
values fit the columns, each with unused data, are made one after the other, starting with an empty table, and all rows are selected: no operation reports
an error, and the selection gives exactly the rows that the operations mean: an insertion adds a row, also if there is one with its key, an update changes
all rows with its key and only them, and nothing else changes.  Missing: objects without key, for which the claim is false (C128); values that do not fit;
tables with one column without label. -/
theorem C129_partial {c : Ctx S} {infos : List Info} {ds : List Data} (R : Prepared c infos ds []) {stmts : Stmts} {key : Info}
    {sel find pre post : List Byte} {rows : S → List (List Cell)} (K : Keyed c.eng infos key stmts.table sel find pre post rows) (hkey : key ∈ infos)
    (hsel : stmts.select = some find) (hup : stmts.update = none) (ht : stmts.template = some (pre ++ str "%s" ++ post)) (hpre : 37 ∉ pre)
    (hdyn : stmts.insertDynamic = true) (hone : ∀ info, infos = [info] → info.noReturn = true ∨ info.noLabel = false)
    (ops : List KOp) (hk : ∀ op ∈ ops, (op.obj.map Prod.fst).Nodup)
    (hf : ∀ op ∈ ops, ∀ kv ∈ op.obj, ∀ info ∈ infos, info.col = kv.1 → Fits info kv.2)
    (hv : ∀ op ∈ ops, ∃ v, op.obj.lookup key.col = some v ∧ v ≠ .atom .null) (s : S) (h0 : rows s = []) (fuel : Nat) (hfuel : ops.length < fuel) :
    ∃ s' sts, runKOps c stmts s ops = .ok (some (s', sts)) ∧ sts.length = ops.length ∧
      (∀ st ∈ sts, ∃ o, st = some (some (.obj o)) ∧ o.lookup kError = none) ∧
      ∃ s'', select c fuel s' sel (some none) = .ok (some (s'', sqliteDone, some (some (.arr
        ((ops.foldl (KOp.rows key) []).map fun row => .obj ((infos.filter fun i => !i.noReturn).map fun i => (i.col, row i))))), false)) := by
  have hops : ∀ (ops : List KOp) (F : List (Info → Cell)) (G : List (Info → Val)) (s : S), (∀ op ∈ ops, (op.obj.map Prod.fst).Nodup) →
      (∀ op ∈ ops, ∀ kv ∈ op.obj, ∀ info ∈ infos, info.col = kv.1 → Fits info kv.2) →
      (∀ op ∈ ops, ∃ v, op.obj.lookup key.col = some v ∧ v ≠ .atom .null) → rows s = F.map (infos.map ·) → HoldsRows infos key F G →
      ∃ s' sts F', runKOps c stmts s ops = .ok (some (s', sts)) ∧ sts.length = ops.length ∧
        (∀ st ∈ sts, ∃ o, st = some (some (.obj o)) ∧ o.lookup kError = none) ∧ rows s' = F'.map (infos.map ·) ∧ F'.length ≤ F.length + ops.length ∧
        HoldsRows infos key F' (ops.foldl (KOp.rows key) G) := by
    intro ops
    induction ops with
    | nil => intro F G s _ _ _ h hG; exact ⟨s, [], F, rfl, rfl, by simp, h, by simp, hG⟩
    | cons op ops ih =>
      intro F G s hk hf hv h hG
      rw [List.forall_mem_cons] at hk hf hv
      have R' : Prepared c infos ds op.obj := ⟨R.hinfos, R.hdata, R.len, R.clean, R.oneRow, R.oneVar, R.cols, hk.1, hf.1⟩
      have hh : HasKey key op.obj := by
        obtain ⟨v, h1, h2⟩ := hv.1
        obtain ⟨l1, l2, e, -⟩ := List.lookup_eq_some_iff.mp h1
        exact ⟨v, h1, h2, hf.1 (key.col, v) (by rw [e]; simp) key hkey rfl⟩
      have hread := holds_read (infos := infos) hh (fun i hi => (R.cols i hi).2.1) hf.1
      have hchange := holds_change hh hf.1 hG
      have hadd : HoldsRows infos key (F ++ [fun i => (storedCell i op.obj).getD .null]) (G ++ [readVal op.obj]) :=
        holds_append hG hread
      have step : ∃ s' st F', runKOp c stmts s op = .ok (some (s', sqliteDone, some (some (.obj st)))) ∧ st.lookup kError = none ∧
          rows s' = F'.map (infos.map ·) ∧ F'.length ≤ F.length + 1 ∧ HoldsRows infos key F' (op.rows key G) := by
        cases op with
        | insert kvs =>
          obtain ⟨s', st, h1, h2, h3⟩ := insert_keeps R' K.toKeeps hdyn (present_ne hkey hh) s
          exact ⟨s', st, _, h1, h2, by rw [h3, h, List.map_append]; rfl, by simp, hadd⟩
        | update kvs =>
          obtain ⟨s', st, h1, -, h2, h3⟩ := update_keeps R' K hkey hsel hup ht hpre hh s F h
          exact ⟨s', st, _, h1, h2, by rw [h3, List.map_map]; rfl, by simp, hchange⟩
        | updateIfExists kvs =>
          obtain ⟨s', st, -, h1, h2, h3⟩ := update_keeps R' K hkey hsel hup ht hpre hh s F h
          exact ⟨s', st, _, h1, h2, by rw [h3, List.map_map]; rfl, by simp, hchange⟩
        | updateOrInsert kvs =>
          obtain ⟨s', st, h1, h2, h3⟩ := upsert_keeps R' K hkey hsel hup ht hpre hdyn hh s F h
          by_cases hex : ∃ f ∈ F, f key = keyOf key kvs
          · refine ⟨s', st, _, h1, h2, by rw [h3, KOp.obj, if_pos hex, List.map_map]; rfl, by simp, ?_⟩
            simp only [KOp.rows]
            rw [if_pos (show G.any (sameKey key kvs) = true from (holds_any hh hG).2 hex)]
            exact hchange
          · refine ⟨s', st, F ++ [fun i => (storedCell i kvs).getD .null], h1, h2, by rw [h3, KOp.obj, if_neg hex, h, List.map_append]; rfl, by simp, ?_⟩
            simp only [KOp.rows]
            rw [if_neg (show ¬ G.any (sameKey key kvs) = true from fun hs => hex ((holds_any hh hG).1 hs))]
            exact hadd
      obtain ⟨s1, st, F1, h1, h2, h3, h4, h5⟩ := step
      obtain ⟨s2, sts, F2, h6, h7, h8, h9, h10, h11⟩ := ih F1 _ s1 hk.2 hf.2 hv.2 h3 h5
      refine ⟨s2, some (some (.obj st)) :: sts, F2, ?_, by simp [h7], ?_, h9, by simp only [List.length_cons]; omega, h11⟩
      · rw [runKOps, h1]
        simp only [Res.bind, h6, Res.map, Option.map_some]
      · intro x hx
        rcases List.mem_cons.1 hx with rfl | hx
        · exact ⟨st, rfl, h2⟩
        · exact h8 x hx
  obtain ⟨s', sts, F, h1, h2, h3, h4, hlen, hG⟩ := hops ops [] [] s hk hf hv (by rw [h0]; rfl) .nil
  refine ⟨s', sts, h1, h2, h3, ?_⟩
  obtain ⟨u, hu, -, -, hs⟩ := ready_run R
  have hud : u.data = ds := by
    simp only [genericData, R.hinfos, R.hdata, Option.getD_some, populateAll, Res.map, Res.ok.injEq, Prod.mk.injEq] at hu
    rw [← hu.2]
  obtain ⟨binds, h5, -⟩ := hs s' sel (fun s => ⟨[], K.selPrep s, by intro i j n h; simp at h, by simp⟩)
  rw [hud, show ({ c with data := some ds } : Ctx S) = c by rw [← R.hdata]] at h5
  obtain ⟨s'', h6⟩ := K.select s' binds
  have h7 := C83_partial c (status := some none) trivial h5 h6 fuel (by
    rw [List.length_map, h4, List.length_map]
    simp only [List.length_nil] at hlen
    omega)
  refine ⟨s'', ?_⟩
  rw [h7, K.names, h4]
  simp only [withRows, List.map_map, Function.comp_def]
  congr 8
  generalize ops.foldl (KOp.rows key) [] = G at hG
  clear h7 h4 hlen
  induction hG with
  | nil => rfl
  | @cons f g F G hfg _ ih =>
    rw [List.map_cons, List.map_cons, ih]
    congr 1
    rw [R.hinfos]
    have := row_value R.oneRow hone f
    simp only [List.map_map, Function.comp_def] at this
    rw [this]
    congr 1
    refine List.map_congr_left fun i hi => ?_
    rw [hfg.1 i (List.mem_filter.1 hi).1]

/-- `{"a":5}` is inserted twice, `{"a":5,"b":"x"}` updates both rows, `{"a":6,"b":"y"}` updates none, and is inserted then -/
example : ∃ s' sts, runKOps keyCtx keyStmts []
      [.insert [([97], .atom (.i64 5))], .insert [([97], .atom (.i64 5))], .update [([97], .atom (.i64 5)), ([98], .atom (.str [120]))],
        .updateIfExists [([97], .atom (.i64 6)), ([98], .atom (.str [121]))], .updateOrInsert [([97], .atom (.i64 6)), ([98], .atom (.str [121]))]] =
        .ok (some (s', sts)) ∧ sts.length = 5 ∧
    (∀ st ∈ sts, ∃ o, st = some (some (.obj o)) ∧ o.lookup kError = none) ∧
    ∃ s'', select keyCtx 6 s' selAB (some none) = .ok (some (s'', sqliteDone, some (some (.arr
      [.obj [([97], .atom (.i64 5)), ([98], .atom (.str [120]))], .obj [([97], .atom (.i64 5)), ([98], .atom (.str [120]))],
        .obj [([97], .atom (.i64 6)), ([98], .atom (.str [121]))]])), false)) :=
  C129_partial key_prepared (stmts := keyStmts) keyDb_keyed (by simp [tabAB]) rfl rfl rfl (by decide) rfl (by simp [tabAB])
    [.insert [([97], .atom (.i64 5))], .insert [([97], .atom (.i64 5))], .update [([97], .atom (.i64 5)), ([98], .atom (.str [120]))],
        .updateIfExists [([97], .atom (.i64 6)), ([98], .atom (.str [121]))], .updateOrInsert [([97], .atom (.i64 6)), ([98], .atom (.str [121]))]]
    (by simp [KOp.obj])
    (by
      intro op hk kv hkv info hi he
      simp only [List.mem_cons, List.not_mem_nil, or_false, tabAB] at hk hi
      have : kv = ([97], .atom (.i64 5)) ∨ kv = ([97], .atom (.i64 6)) ∨ kv = ([98], .atom (.str [120])) ∨ kv = ([98], .atom (.str [121])) := by
        rcases hk with rfl | rfl | rfl | rfl | rfl <;> simp [KOp.obj] at hkv <;>
          first | (rcases hkv with rfl | rfl <;> simp) | simp [hkv]
      rcases this with rfl | rfl | rfl | rfl <;> rcases hi with rfl | rfl
      · exact .inr ⟨5, rfl, by decide, by decide⟩
      · simp at he
      · exact .inr ⟨6, rfl, by decide, by decide⟩
      · simp at he
      · simp [rowA] at he
      · exact .inr ⟨[120], rfl, by decide⟩
      · simp [rowA] at he
      · exact .inr ⟨[121], rfl, by decide⟩)
    (by
      intro op hk
      simp only [List.mem_cons, List.not_mem_nil, or_false] at hk
      rcases hk with rfl | rfl | rfl | rfl | rfl <;> exact ⟨_, rfl, by simp⟩) [] rfl 6 (by decide)

end Verif.Sqlite.Props
