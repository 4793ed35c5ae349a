import Verif.Sqlite.OpsProps

/-!
# Properties of the operations on a database: what is run, and what is reported

C85: update or insertion.  C86: errors are reported.
-/

namespace Verif.Sqlite.Props

open Verif Verif.Sqlite
open Verif.Json (Val insertKey)
open Verif.Dbm (str)

variable {S : Type}

/-- an engine that also writes down the statements that are run -/
def logged (c : Ctx S) : Ctx (S × List (List Byte)) where
  eng := {
    prep := fun p => c.eng.prep p.1
    names := fun p => c.eng.names p.1
    step := fun p sql b k => (((c.eng.step p.1 sql b k).1, p.2 ++ [sql]), (c.eng.step p.1 sql b k).2)
    rowid := fun p => c.eng.rowid p.1
    changes := fun p => c.eng.changes p.1
    totalChanges := fun p => c.eng.totalChanges p.1
    errmsg := fun p => c.eng.errmsg p.1 }
  name := c.name
  infos := c.infos
  data := c.data

/-- codes that mean success are not used for failures -/
structure Sound (e : Engine S) : Prop where
  prep : ∀ s sql n, e.prep s sql = .error n → n ≠ sqliteOk ∧ n ≠ sqliteRow ∧ n ≠ sqliteDone
  step : ∀ s sql b k n, (e.step s sql b k).2 = .err n → n ≠ sqliteOk ∧ n ≠ sqliteRow ∧ n ≠ sqliteDone

/-- trying to run a statement changes the database from `s` to `s'` and gives a code; `ran`: the statements that are
really run, none if it cannot be prepared or a parameter is not bound -/
def Run (c : Ctx S) (s : S) (sql : List Byte) (s' : S) (code : Nat) (ran : List (List Byte)) : Prop :=
  (∃ msg left, start c s (some sql) = .ok (.failed code msg left) ∧ s' = s ∧ ran = []) ∨
  (∃ b r, start c s (some sql) = .ok (.stepped b s' r) ∧ code = r.code ∧ ran = [sql])

/-- the status can be an object -/
def ObjStatus : Status → Prop
  | some (some (.obj _)) => True
  | some (some _) => False
  | _ => True

/-- an error is reported -/
def HasError (st : Status) : Prop := ∃ kvs, st = some (some (.obj kvs)) ∧ (kvs.lookup kError).isSome = true

theorem start_logged (c : Ctx S) (s : S) (l : List (List Byte)) (sql : List Byte) :
    start (logged c) (s, l) (some sql) = (start c s (some sql)).map fun
      | .failed n msg left => .failed n msg left
      | .stepped b s' r => .stepped b (s', l ++ [sql]) r := by
  unfold start
  simp only [logged]
  cases c.eng.prep s sql with
  | error n => rfl
  | ok params =>
    simp only
    cases bindRun sql (some params) c.infos c.data true with
    | ub => rfl
    | segv => rfl
    | ok r =>
      simp only [Res.map]
      cases unboundOf r.1 <;> rfl

theorem unbound_code {c : Ctx S} {s : S} {sql : List Byte} (hs : Sound c.eng) {n : Nat} {msg : List Byte} {left : Bool}
    (h : start c s (some sql) = .ok (.failed n msg left)) : n ≠ sqliteOk ∧ n ≠ sqliteRow ∧ n ≠ sqliteDone := by
  unfold start at h
  simp only at h
  cases hp : c.eng.prep s sql with
  | error m =>
    rw [hp] at h
    simp only [Res.ok.injEq, Started.failed.injEq] at h
    rw [← h.1]
    exact hs.prep _ _ _ hp
  | ok params =>
    rw [hp] at h
    simp only [Res.map_eq_ok] at h
    obtain ⟨r, -, h⟩ := h
    split at h
    · simp only [Started.failed.injEq] at h
      rw [← h.1]
      decide
    · simp at h

/-- the status after `accept_result` and an error message -/
theorem setError_spec {st : Status} (h : ObjStatus st) (msg : List Byte) :
    ∃ st', setError (acceptResult st) msg = .ok st' ∧ ObjStatus st' ∧ (st = none ↔ st' = none) ∧
      (st ≠ none → HasError st') := by
  match st, h with
  | none, _ => exact ⟨none, rfl, trivial, by simp, by simp⟩
  | some none, _ =>
    refine ⟨some (some (.obj [(kError, .atom (.str msg))])), rfl, trivial, by simp, fun _ => ⟨_, rfl, by simp [List.lookup]⟩⟩
  | some (some (.obj kvs)), _ =>
    by_cases hk : (kvs.lookup kError).isSome = true
    · refine ⟨some (some (.obj kvs)), by simp [acceptResult, setError, hk], trivial, by simp, fun _ => ⟨_, rfl, hk⟩⟩
    · refine ⟨some (some (.obj (insertKey kError (.atom (.str msg)) kvs))), by simp [acceptResult, setError, hk], trivial,
        by simp, fun _ => ⟨_, rfl, ?_⟩⟩
      rw [Json.lookup_insertKey]; simp

theorem accept_spec {st : Status} (h : ObjStatus st) :
    ObjStatus (acceptResult st) ∧ (st = none ↔ acceptResult st = none) ∧ (HasError (acceptResult st) ↔ HasError st) := by
  match st, h with
  | none, _ => exact ⟨trivial, by simp [acceptResult], by simp [acceptResult]⟩
  | some none, _ =>
    refine ⟨trivial, by simp [acceptResult], ?_⟩
    constructor
    · rintro ⟨kvs, h1, h2⟩
      simp [acceptResult] at h1
      subst h1
      simp at h2
    · rintro ⟨kvs, h1, h2⟩
      simp at h1
  | some (some (.obj kvs)), _ => exact ⟨trivial, by simp [acceptResult], by simp [acceptResult]⟩

theorem setError_of_accepted {st : Status} (h : ObjStatus st) (msg : List Byte) :
    ∃ st', setError st msg = .ok st' ∧ ObjStatus st' ∧ (st = none ↔ st' = none) ∧
      (st ≠ none → st ≠ some none → HasError st') := by
  match st, h with
  | none, _ => exact ⟨none, rfl, trivial, by simp, by simp⟩
  | some none, _ => exact ⟨some none, rfl, trivial, by simp, by simp⟩
  | some (some (.obj kvs)), h =>
    obtain ⟨st', h1, h2, h3, h4⟩ := setError_spec (st := some (some (.obj kvs))) h msg
    exact ⟨st', h1, h2, h3, fun h _ => h4 h⟩

/-- `setKey` keeps errors, as long as it is another key -/
theorem setKey_spec {st : Status} (h : ObjStatus st) (key : List Byte) (v : Val) (hk : key ≠ kError) :
    ∃ st', setKey st key v = .ok st' ∧ ObjStatus st' ∧ (st = none ↔ st' = none) ∧ (HasError st' ↔ HasError st) ∧
      (∀ kvs, st = some (some (.obj kvs)) → ∃ kvs', st' = some (some (.obj kvs')) ∧ kvs'.lookup key = some v) := by
  match st, h with
  | none, _ => exact ⟨none, rfl, trivial, by simp, by simp, by simp⟩
  | some none, _ => exact ⟨some none, rfl, trivial, by simp, by simp, by simp⟩
  | some (some (.obj kvs)), _ =>
    refine ⟨some (some (.obj (insertKey key v kvs))), rfl, trivial, by simp, ?_, ?_⟩
    · have e : (insertKey key v kvs).lookup kError = kvs.lookup kError := by
        rw [Json.lookup_insertKey, if_neg (fun e => hk e.symm)]
      constructor
      · rintro ⟨k2, h1, h2⟩
        simp only [Option.some.injEq, Val.obj.injEq] at h1
        subst h1
        exact ⟨kvs, rfl, by rw [← e]; exact h2⟩
      · rintro ⟨k2, h1, h2⟩
        simp only [Option.some.injEq, Val.obj.injEq] at h1
        subst h1
        exact ⟨_, rfl, by rw [e]; exact h2⟩
    · rintro k2 -
      exact ⟨_, rfl, by rw [Json.lookup_insertKey]; simp⟩

/-- what `cee_sqlite3_bind_run_sql` does to the status and the log -/
theorem runSql_spec {c : Ctx S} (hs : Sound c.eng) {s s' : S} {sql : List Byte} {code : Nat} {ran : List (List Byte)}
    (h : Run c s sql s' code ran) (l : List (List Byte)) {st : Status} (ho : ObjStatus st) :
    ∃ st', runSql (logged c) (s, l) (some sql) st = .ok ((s', l ++ ran), code, st') ∧ ObjStatus st' ∧
      (st = none ↔ st' = none) ∧ st' ≠ some none ∧
      (ran = [] → (st ≠ none → HasError st') ∧ code ≠ sqliteOk ∧ code ≠ sqliteRow ∧ code ≠ sqliteDone) ∧
      (ran ≠ [] → (HasError st' ↔ HasError st)) := by
  unfold runSql
  rw [start_logged]
  rcases h with ⟨msg, left, h, rfl, rfl⟩ | ⟨b, r, h, rfl, rfl⟩
  · rw [h]
    obtain ⟨st', h1, h2, h3, h4⟩ := setError_spec ho msg
    refine ⟨st', ?_, h2, h3, ?_, fun _ => ⟨h4, unbound_code hs h⟩, by simp⟩
    · simp [Res.map, Res.bind, h1]
    · rintro rfl
      obtain ⟨_, e, _⟩ := h4 (by rw [ne_eq, h3]; simp)
      simp at e
  · rw [h]
    obtain ⟨h1, h2, h3⟩ := accept_spec ho
    refine ⟨acceptResult st, by simp [Res.map, Res.bind], h1, h2, ?_, by simp, fun _ => h3⟩
    match st with
    | none => simp [acceptResult]
    | some none => simp [acceptResult]
    | some (some v) => simp [acceptResult]

/-- the code of a step -/
theorem run_code {c : Ctx S} (hs : Sound c.eng) {s s' : S} {sql : List Byte} {code : Nat} {ran : List (List Byte)}
    (h : Run c s sql s' code ran) (hd : code = sqliteDone ∨ code = sqliteRow) : ran = [sql] := by
  rcases h with ⟨msg, left, h, rfl, rfl⟩ | ⟨b, r, h, rfl, rfl⟩
  · have := unbound_code hs h
    rcases hd with rfl | rfl
    · exact absurd rfl this.2.2
    · exact absurd rfl this.2.1
  · rfl

theorem runDone_spec {c : Ctx S} (hs : Sound c.eng) {s s' : S} {sql : List Byte} {code : Nat} {ran : List (List Byte)}
    (h : Run c s sql s' code ran) (l : List (List Byte)) {st : Status} (ho : ObjStatus st) :
    ∃ st', runDone (logged c) (s, l) (some sql) st = .ok ((s', l ++ ran), code, st', decide (code = sqliteDone)) ∧
      ObjStatus st' ∧ (st = none ↔ st' = none) ∧ st' ≠ some none ∧
      (st ≠ none → (HasError st' ↔ code ≠ sqliteDone ∨ HasError st)) := by
  obtain ⟨st1, h1, h2, h3, h4, h5, h6⟩ := runSql_spec hs h l ho
  unfold runDone
  rw [h1]
  simp only [Res.bind, Option.getD_some]
  by_cases hd : code = sqliteDone
  · rw [if_neg (by simp [hd])]
    refine ⟨st1, by simp [hd], h2, h3, h4, fun _ => ?_⟩
    rw [h6 (by rw [run_code hs h (.inl hd)]; simp)]
    simp [hd]
  · rw [if_pos hd]
    obtain ⟨st2, g1, g2, g3, g4⟩ := setError_of_accepted h2 (failMsg c.name code sql (c.eng.errmsg s'))
    refine ⟨st2, ?_, g2, h3.trans g3, ?_, fun hn => ?_⟩
    · have : setError st1 (failMsg (logged c).name code sql ((logged c).eng.errmsg (s', l ++ ran))) = .ok st2 := g1
      rw [this]
      simp [Res.map, hd]
    · rintro rfl
      by_cases hn : st1 = none
      · exact absurd (g3.mp hn) (by simp)
      · obtain ⟨_, e, _⟩ := g4 hn h4
        simp at e
    · have := g4 (fun e => hn (h3.mpr e)) h4
      simp [this, hd]

theorem kRowid_ne : kRowid ≠ kError := by decide

theorem runInsert_spec {c : Ctx S} (hs : Sound c.eng) {s s' : S} {sql : List Byte} {code : Nat} {ran : List (List Byte)}
    (h : Run c s sql s' code ran) (l : List (List Byte)) {st : Status} (ho : ObjStatus st) (key : List Byte)
    (hk : key ≠ kError) :
    ∃ st', runInsert (logged c) (s, l) (some sql) st key = .ok ((s', l ++ ran), code, st') ∧ ObjStatus st' ∧
      (st = none ↔ st' = none) ∧ (st ≠ none → (HasError st' ↔ code ≠ sqliteDone ∨ HasError st)) ∧
      (st ≠ none → code = sqliteDone →
        ∃ kvs, st' = some (some (.obj kvs)) ∧ kvs.lookup key = some (.atom (.i64 (cInt (toU64 (c.eng.rowid s')))))) := by
  obtain ⟨st1, h1, h2, h3, h4, h5⟩ := runDone_spec hs h l ho
  unfold runInsert
  rw [h1]
  simp only [Res.bind]
  by_cases hd : code = sqliteDone
  · obtain ⟨st2, g1, g2, g3, g4, g5⟩ := setKey_spec h2 key (.atom (.i64 (cInt (toU64 (c.eng.rowid s'))))) hk
    refine ⟨st2, ?_, g2, h3.trans g3, fun hn => g4.trans (h5 hn), fun hn _ => ?_⟩
    · have : setKey st1 key (.atom (.i64 (cInt (toU64 ((logged c).eng.rowid (s', l ++ ran)))))) = .ok st2 := g1
      simp [hd, this, Res.map]
    · match st1, h2, h4, g5, (fun e => hn (h3.mpr e) : st1 ≠ none) with
      | some (some (.obj kvs)), _, _, g5, _ => exact g5 kvs rfl
      | some none, _, h4, _, _ => exact (h4 rfl).elim
      | none, _, _, _, hn => exact (hn rfl).elim
  · refine ⟨st1, by simp [hd], h2, h3, h5, fun _ e => absurd e hd⟩

theorem updateStmt_eq {stmts : Stmts} {u : List Byte}
    (h : stmts.update = some u ∨ stmts.update = none ∧ stmts.updateX = some u) : stmts.updateStmt = some u := by
  rcases h with h | ⟨h1, h2⟩
  · simp [Stmts.updateStmt, h]
  · simp [Stmts.updateStmt, h1, h2]

/-- C85: if the selection gives a row, the update is run, and nothing else; the code and the errors are those of the
update -/
theorem C85_row {c : Ctx S} (hs : Sound c.eng) {s s1 s2 : S} {stmts : Stmts} {sel u : List Byte} {code : Nat}
    {r1 ran : List (List Byte)} {st : Status} (ho : ObjStatus st) (hsel : stmts.select = some sel)
    (h1 : Run c s sel s1 sqliteRow r1) (hu : stmts.update = some u ∨ stmts.update = none ∧ stmts.updateX = some u) (h2 : Run c s1 u s2 code ran)
    (l : List (List Byte)) :
    ∃ st', updateOrInsert (logged c) (s, l) stmts st = .ok ((s2, l ++ sel :: ran), code, st') ∧
      (st ≠ none → (HasError st' ↔ code ≠ sqliteDone ∨ HasError st)) := by
  obtain ⟨a1, a2, a3⟩ := accept_spec ho
  obtain ⟨st1, b1, b2, b3, b4, b5, b6⟩ := runSql_spec hs h1 l a1
  have hr1 := run_code hs h1 (.inr rfl)
  obtain ⟨st2, g1, g2, g3, g4, g5⟩ := runDone_spec hs h2 (l ++ r1) b2
  refine ⟨st2, ?_, fun hn => ?_⟩
  · unfold updateOrInsert
    rw [hsel, b1]
    simp only [Res.bind, if_true, runUpdate, updateStmt_eq hu, g1]
    by_cases hd : code = sqliteDone
    · simp [hd, Res.map, hr1]
    · simp [hd, hr1]
  · rw [g5 (fun e => hn (a2.mpr (b3.mpr e))), b6 (by rw [hr1]; simp), a3]

/-- C85: if the selection gives no row, the insertion is run, and nothing else; the code and the errors are those of the
insertion, and the number of the row is returned -/
theorem C85_absent {c : Ctx S} (hs : Sound c.eng) {s s1 s2 : S} {stmts : Stmts} {sel ins : List Byte} {code : Nat}
    {r1 ran : List (List Byte)} {st : Status} (ho : ObjStatus st) (hsel : stmts.select = some sel)
    (h1 : Run c s sel s1 sqliteDone r1) (hi : (if stmts.insertDynamic then stmts.insertX else stmts.insert) = some ins) (h2 : Run c s1 ins s2 code ran)
    (l : List (List Byte)) :
    ∃ st', updateOrInsert (logged c) (s, l) stmts st = .ok ((s2, l ++ sel :: ran), code, st') ∧
      (st ≠ none → (HasError st' ↔ code ≠ sqliteDone ∨ HasError st)) ∧
      (st ≠ none → code = sqliteDone → ∃ kvs, st' = some (some (.obj kvs)) ∧
        kvs.lookup (str "last_insert_rowid") = some (.atom (.i64 (cInt (toU64 (c.eng.rowid s2)))))) := by
  obtain ⟨a1, a2, a3⟩ := accept_spec ho
  obtain ⟨st1, b1, b2, b3, b4, b5, b6⟩ := runSql_spec hs h1 l a1
  have hr1 := run_code hs h1 (.inl rfl)
  obtain ⟨st2, g1, g2, g3, g4, g5⟩ := runInsert_spec hs h2 (l ++ r1) b2 kRowid kRowid_ne
  refine ⟨st2, ?_, fun hn => ?_, fun hn => g5 (fun e => hn (a2.mpr (b3.mpr e)))⟩
  · unfold updateOrInsert
    rw [hsel, b1]
    simp only [Res.bind]
    rw [if_neg (by decide), show stmts.insertStmt = some ins from hi, g1]
    simp [hr1]
  · rw [g4 (fun e => hn (a2.mpr (b3.mpr e))), b6 (by rw [hr1]; simp), a3]

/-- C85 is false if the selection fails: the insertion is run all the same -/
theorem C85_failed_false {c : Ctx S} (hs : Sound c.eng) {s s1 s2 : S} {stmts : Stmts} {sel ins : List Byte}
    {code n : Nat} {r1 ran : List (List Byte)} {st : Status} (ho : ObjStatus st) (hsel : stmts.select = some sel)
    (h1 : Run c s sel s1 n r1) (hn : n ≠ sqliteRow) (_hn : n ≠ sqliteDone) (hi : (if stmts.insertDynamic then stmts.insertX else stmts.insert) = some ins)
    (h2 : Run c s1 ins s2 code ran) (l : List (List Byte)) :
    ∃ st', updateOrInsert (logged c) (s, l) stmts st = .ok ((s2, l ++ r1 ++ ran), code, st') := by
  obtain ⟨a1, a2, a3⟩ := accept_spec ho
  obtain ⟨st1, b1, b2, b3, b4, b5, b6⟩ := runSql_spec hs h1 l a1
  obtain ⟨st2, g1, g2, g3, g4, g5⟩ := runInsert_spec hs h2 (l ++ r1) b2 kRowid kRowid_ne
  refine ⟨st2, ?_⟩
  unfold updateOrInsert
  rw [hsel, b1]
  simp only [Res.bind]
  rw [if_neg hn, show stmts.insertStmt = some ins from hi, g1]

/-- C86: an insertion reports an error exactly if it failed (or one was there), and the number of the row if it did not -/
theorem C86_insert {c : Ctx S} (hs : Sound c.eng) {s s' : S} {sql : List Byte} {code : Nat} {ran : List (List Byte)}
    {st : Status} (ho : ObjStatus st) (h : Run c s sql s' code ran) (key : Option (List Byte))
    (hk : key ≠ some kError) (l : List (List Byte)) :
    ∃ st', insert (logged c) (s, l) (some sql) st key = .ok ((s', l ++ ran), code, st') ∧
      (st ≠ none → (HasError st' ↔ code ≠ sqliteDone ∨ HasError st)) ∧
      (st ≠ none → code = sqliteDone → ∃ kvs, st' = some (some (.obj kvs)) ∧
        kvs.lookup (key.getD (str "last_insert_rowid")) = some (.atom (.i64 (cInt (toU64 (c.eng.rowid s')))))) := by
  obtain ⟨a1, a2, a3⟩ := accept_spec ho
  have hk' : key.getD kRowid ≠ kError := by
    cases key with
    | none => exact kRowid_ne
    | some k => intro e; exact hk (by rw [← e]; rfl)
  obtain ⟨st2, g1, g2, g3, g4, g5⟩ := runInsert_spec hs h l a1 (key.getD kRowid) hk'
  refine ⟨st2, g1, fun hn => ?_, fun hn => g5 fun e => hn (a2.mpr e)⟩
  rw [g4 fun e => hn (a2.mpr e), a3]

/-- C86: a deletion reports an error exactly if it failed, and the number of changes in any case -/
theorem C86_delete {c : Ctx S} (hs : Sound c.eng) {s s' : S} {sql : List Byte} {code : Nat} {ran : List (List Byte)}
    {st : Status} (ho : ObjStatus st) (h : Run c s sql s' code ran) (key : Option (List Byte))
    (hk : key ≠ some kError) (l : List (List Byte)) :
    ∃ st', delete (logged c) (s, l) (some sql) st key = .ok ((s', l ++ ran), code, st') ∧
      (st ≠ none → (HasError st' ↔ code ≠ sqliteDone ∨ HasError st)) ∧
      (st ≠ none → ∃ kvs, st' = some (some (.obj kvs)) ∧
        kvs.lookup (key.getD (str "deleted")) = some (.atom (.i64 (c.eng.changes s')))) := by
  obtain ⟨a1, a2, a3⟩ := accept_spec ho
  have hk' : key.getD (str "deleted") ≠ kError := by
    cases key with
    | none => decide
    | some k => intro e; exact hk (by rw [← e]; rfl)
  obtain ⟨st1, h1, h2, h3, h4, h5⟩ := runDone_spec hs h l a1
  obtain ⟨st2, g1, g2, g3, g4, g5⟩ := setKey_spec h2 (key.getD (str "deleted")) (.atom (.i64 (c.eng.changes s'))) hk'
  have e : setKey st1 (key.getD (str "deleted")) (.atom (.i64 ((logged c).eng.changes (s', l ++ ran)))) = .ok st2 := g1
  refine ⟨st2, ?_, fun hn => ?_, fun hn => ?_⟩
  · unfold delete
    rw [h1]
    simp only [Res.bind, e, Res.map]
  · rw [g4, h5 fun e => hn (a2.mpr e), a3]
  · match st1, h2, h4, g5, (fun e => hn (a2.mpr (h3.mpr e)) : st1 ≠ none) with
    | some (some (.obj kvs)), _, _, g5, _ => exact g5 kvs rfl
    | some none, _, h4, _, _ => exact (h4 rfl).elim
    | none, _, _, _, hn => exact (hn rfl).elim

/-- C86: an update of a row that exists reports an error exactly if it failed -/
theorem C86_update {c : Ctx S} (hs : Sound c.eng) {s s1 s2 : S} {stmts : Stmts} {sel u : List Byte} {code : Nat}
    {r1 ran : List (List Byte)} {st : Status} (ho : ObjStatus st) (hsel : stmts.select = some sel)
    (h1 : Run c s sel s1 sqliteRow r1) (hu : stmts.update = some u ∨ stmts.update = none ∧ stmts.updateX = some u) (h2 : Run c s1 u s2 code ran)
    (h0 : code ≠ sqliteOk) (l : List (List Byte)) :
    ∃ st', update (logged c) (s, l) stmts st = .ok ((s2, l ++ sel :: ran), code, st') ∧
      (st ≠ none → (HasError st' ↔ code ≠ sqliteDone ∨ HasError st)) := by
  obtain ⟨a1, a2, a3⟩ := accept_spec ho
  obtain ⟨st1, b1, b2, b3, b4, b5, b6⟩ := runSql_spec hs h1 l a1
  have hr1 := run_code hs h1 (.inr rfl)
  obtain ⟨st2, g1, g2, g3, g4, g5⟩ := runDone_spec hs h2 (l ++ r1) b2
  have hfin : st ≠ none → (HasError st2 ↔ code ≠ sqliteDone ∨ HasError st) := by
    intro hn
    rw [g5 (fun e => hn (a2.mpr (b3.mpr e))), b6 (by rw [hr1]; simp), a3]
  by_cases hd : code = sqliteDone
  · obtain ⟨st3, k1, k2, k3, k4, k5⟩ := setKey_spec g2 (str "updated_rows") (.atom (.i64 (c.eng.totalChanges s2)))
      (by decide)
    have e : setKey st2 (str "updated_rows") (.atom (.i64 ((logged c).eng.totalChanges (s2, l ++ r1 ++ ran)))) = .ok st3 :=
      k1
    refine ⟨st3, ?_, fun hn => k4.trans (hfin hn)⟩
    unfold update updateIfExists
    rw [hsel, b1]
    simp only [Res.bind, if_true, runUpdate, updateStmt_eq hu, g1]
    simp only [hd, decide_true, if_true, e, Res.map]
    rw [if_neg (by decide), hr1]
    simp
  · refine ⟨st2, ?_, hfin⟩
    unfold update updateIfExists
    rw [hsel, b1]
    simp only [Res.bind, if_true, runUpdate, updateStmt_eq hu, g1]
    simp [hd, h0, hr1]

/-- C86 is false for an update if the selection does not give a row: nothing is reported, neither that there is no such row
(the code is `SQLITE_DONE`), nor that the selection failed when it was run -/
theorem C86_update_false {c : Ctx S} (hs : Sound c.eng) {s s1 : S} {stmts : Stmts} {sel : List Byte} {n : Nat}
    {st : Status} (ho : ObjStatus st) (hsel : stmts.select = some sel) (h1 : Run c s sel s1 n [sel]) (hn : n ≠ sqliteRow)
    (h0 : n ≠ sqliteOk) (l : List (List Byte)) :
    ∃ st', update (logged c) (s, l) stmts st = .ok ((s1, l ++ [sel]), n, st') ∧ (HasError st' ↔ HasError st) := by
  obtain ⟨a1, a2, a3⟩ := accept_spec ho
  obtain ⟨st1, b1, b2, b3, b4, b5, b6⟩ := runSql_spec hs h1 l a1
  refine ⟨st1, ?_, (b6 (by simp)).trans a3⟩
  unfold update updateIfExists
  rw [hsel, b1]
  simp only [Res.bind]
  rw [if_neg hn]
  simp only
  rw [if_neg h0]

/-! ## examples -/

/-- the first statement gives rows if `found`; others end; the state counts what was run -/
def small (found : Bool) (fail : Bool) : Engine Nat where
  prep _ sql := if sql = [] then .error 21 else .ok []
  names _ _ := [[97]]
  step s sql _ _ := (s + 1, if sql = [115] then (if fail then .err 5 else if found then .row [.int 1] else .done) else .done)
  rowid s := s
  changes _ := 1
  totalChanges _ := 1
  errmsg _ := [101]

theorem small_sound (a b : Bool) : Sound (small a b) := by
  constructor
  · intro s sql n h
    simp only [small] at h
    split at h
    · cases h; decide
    · cases h
  · intro s sql bs k n h
    simp only [small] at h
    split at h
    · cases a <;> cases b <;> simp at h <;> subst h <;> decide
    · cases h

def smallStmts : Stmts := { select := some [115], insert := some [105], update := some [117] }

example : ∃ st', updateOrInsert (logged (plain (small true false))) (0, []) smallStmts (some none) =
    .ok ((2, [[115], [117]]), 101, st') ∧ (some none ≠ (none : Status) → (HasError st' ↔ 101 ≠ sqliteDone ∨ HasError (some none))) :=
  C85_row (c := plain (small true false)) (small_sound _ _) (stmts := smallStmts) (st := some none) trivial rfl
    (.inr ⟨[], .row [.int 1], rfl, rfl, rfl⟩) (.inl rfl) (.inr ⟨[], .done, rfl, rfl, rfl⟩) []

/-- the selection fails, and a row is inserted -/
example : ∃ st', updateOrInsert (logged (plain (small true true))) (0, []) smallStmts (some none) =
    .ok ((2, [[115], [105]]), 101, st') :=
  C85_failed_false (c := plain (small true true)) (small_sound _ _) (stmts := smallStmts) (st := some none) trivial rfl
    (.inr ⟨[], .err 5, rfl, rfl, rfl⟩) (by decide) (by decide) rfl (.inr ⟨[], .done, rfl, rfl, rfl⟩) []

example : ∃ st', update (logged (plain (small false false))) (0, []) smallStmts (some none) =
    .ok ((1, [[115]]), 101, st') ∧ (HasError st' ↔ HasError (some none)) :=
  C86_update_false (c := plain (small false false)) (small_sound _ _) (stmts := smallStmts) (st := some none) trivial rfl
    (.inr ⟨[], .done, rfl, rfl, rfl⟩) (by decide) (by decide) []

example : ∃ st', updateOrInsert (logged (plain (small false false))) (0, []) smallStmts (some none) =
    .ok ((2, [[115], [105]]), 101, st') ∧
      (some none ≠ (none : Status) → (HasError st' ↔ 101 ≠ sqliteDone ∨ HasError (some none))) ∧
      (some none ≠ (none : Status) → 101 = sqliteDone → ∃ kvs, st' = some (some (.obj kvs)) ∧
        kvs.lookup (str "last_insert_rowid") = some (.atom (.i64 (cInt (toU64 2))))) :=
  C85_absent (c := plain (small false false)) (small_sound _ _) (stmts := smallStmts) (st := some none) trivial rfl
    (.inr ⟨[], .done, rfl, rfl, rfl⟩) rfl (.inr ⟨[], .done, rfl, rfl, rfl⟩) []

/-- a statement that cannot be prepared -/
example : ∃ st', insert (logged (plain (small false false))) (0, []) (some []) (some none) none =
    .ok ((0, []), 21, st') ∧
      (some none ≠ (none : Status) → (HasError st' ↔ 21 ≠ sqliteDone ∨ HasError (some none))) ∧
      (some none ≠ (none : Status) → 21 = sqliteDone → ∃ kvs, st' = some (some (.obj kvs)) ∧
        kvs.lookup (str "last_insert_rowid") = some (.atom (.i64 (cInt (toU64 0))))) :=
  C86_insert (c := plain (small false false)) (small_sound _ _) (st := some none) trivial
    (.inl ⟨_, _, rfl, rfl, rfl⟩) none (by simp) []

/-- a statement that fails when it is run -/
example : ∃ st', delete (logged (plain (small false true))) (0, []) (some [115]) (some none) none =
    .ok ((1, [[115]]), 5, st') ∧
      (some none ≠ (none : Status) → (HasError st' ↔ 5 ≠ sqliteDone ∨ HasError (some none))) ∧
      (some none ≠ (none : Status) → ∃ kvs, st' = some (some (.obj kvs)) ∧
        kvs.lookup (str "deleted") = some (.atom (.i64 1))) :=
  C86_delete (c := plain (small false true)) (small_sound _ _) (st := some none) trivial
    (.inr ⟨[], .err 5, rfl, rfl, rfl⟩) none (by simp) []

example : ∃ st', update (logged (plain (small true false))) (0, []) smallStmts (some none) =
    .ok ((2, [[115], [117]]), 101, st') ∧
      (some none ≠ (none : Status) → (HasError st' ↔ 101 ≠ sqliteDone ∨ HasError (some none))) :=
  C86_update (c := plain (small true false)) (small_sound _ _) (stmts := smallStmts) (st := some none) trivial rfl
    (.inr ⟨[], .row [.int 1], rfl, rfl, rfl⟩) (.inl rfl) (.inr ⟨[], .done, rfl, rfl, rfl⟩) (by decide) []

example : Run (plain (small false false)) 0 [] 0 21 [] := .inl ⟨_, _, rfl, rfl, rfl⟩

end Verif.Sqlite.Props
