import Verif.Sqlite.FlowProps

/-!
# C124: selection of one row, or insertion (`cee_sqlite3_select1_or_insert`, sqlite3/cee-sqlite3.c:558-598)

Claim: if the selection finds rows, the first one is given to the caller and nothing is inserted; if it finds none, the
insertion is run, and nothing else, and the number of the row is given; if it fails, nothing is inserted and the error is
reported.

It holds for rows that are objects without a column named `error`.
-/

namespace Verif.Sqlite.Props

open Verif Verif.Sqlite
open Verif.Json (Val insertKey mergeVal mergeable)
open Verif.Dbm (str)

variable {S : Type}

/-- C124, a row is found: the database is left as the selection leaves it, the code is `SQLITE_DONE`, and the caller gets
the first row: nothing without a place for it, the row itself, or the status with the columns of the row, which win -/
theorem C124_found (c : Ctx S) {s s1 s2 : S} {stmts : Stmts} {sel : List Byte} {binds : List (Nat × Bound)} {r : Step}
    {cols : List Col} {rest : List (List Col)} (hsel : stmts.select = some sel)
    (h1 : start c s (some sel) = .ok (.stepped binds s1 r))
    (h2 : Yields c.eng sel binds 1 s1 r (cols :: rest) s2) (fuel : Nat) (hf : rest.length + 1 < fuel) :
    (select1OrInsert c fuel s stmts none = .ok (some (s2, sqliteDone, none))) ∧
    (select1OrInsert c fuel s stmts (some none) =
      .ok (some (s2, sqliteDone, some (some (valueOf c.infos (c.eng.names s sel) cols))))) ∧
    (∀ a b, valueOf c.infos (c.eng.names s sel) cols = .obj b → b.lookup kError = none →
      ∃ kvs, select1OrInsert c fuel s stmts (some (some (.obj a))) =
        .ok (some (s2, sqliteDone, some (some (.obj kvs)))) ∧
      ∀ k, kvs.lookup k = (b.lookup k).or (a.lookup k)) := by
  obtain ⟨-, g2, g3⟩ := C84_rows c h1 h2 fuel (by simpa using hf)
  have hone := (g2 cols rest rfl).2
  refine ⟨?_, ?_, ?_⟩
  · simp [select1OrInsert, hsel, hone, Res.bind, orFound, Res.map]
  · simp [select1OrInsert, hsel, hone, Res.bind, orFound, Res.map]
  · intro a b hv he
    obtain ⟨kvs, k1, k2⟩ := g3 cols rest a b rfl hv
    refine ⟨kvs, ?_, k2⟩
    have hm : giveOne (some (some (.obj a))) (.obj b) = some (some (.obj kvs)) := by
      have h := C83_partial c (status := some none) trivial h1 h2 fuel (by simpa using hf)
      unfold select1 at k1
      rw [h] at k1
      simpa [Res.bind, withRows, errorOf, firstOf, hv] using k1
    have hm' : mergeInto (.obj a) (.obj b) = .obj kvs := by simpa [giveOne] using hm
    simp [select1OrInsert, hsel, hone, hv, Res.bind, orFound, errorOf, he, Res.map, hm']

/-- C124, no row is found: the selection and the insertion are run, and nothing else; code and errors are those of the
insertion, and the number of the row is given if it succeeds -/
theorem C124_absent {c : Ctx S} (hs : Sound c.eng) {s s1 s2 : S} {stmts : Stmts} {sel ins : List Byte} {code : Nat}
    {binds : List (Nat × Bound)} {ran : List (List Byte)} {st : Status} (ho : ObjStatus st)
    (hsel : stmts.select = some sel) (h1 : start c s (some sel) = .ok (.stepped binds s1 .done))
    (hi : (if stmts.insertDynamic then stmts.insertX else stmts.insert) = some ins)
    (h2 : Run c s1 ins s2 code ran) (l : List (List Byte)) (fuel : Nat) :
    ∃ st', select1OrInsert (logged c) (fuel + 1) (s, l) stmts st = .ok (some ((s2, l ++ sel :: ran), code, st')) ∧
      (st ≠ none → (HasError st' ↔ code ≠ sqliteDone ∨ HasError st)) ∧
      (st ≠ none → code = sqliteDone → ∃ kvs, st' = some (some (.obj kvs)) ∧
        kvs.lookup (str "last_insert_rowid") = some (.atom (.i64 (cInt (toU64 (c.eng.rowid s2)))))) := by
  have hl : start (logged c) (s, l) (some sel) = .ok (.stepped binds (s1, l ++ [sel]) .done) := by
    rw [start_logged, h1]; rfl
  have hone := (C84_rows (logged c) hl (.done _ _) (fuel + 1) (by simp)).1 rfl (some none)
  obtain ⟨a1, a2, a3⟩ := accept_spec ho
  obtain ⟨st2, g1, g2, g3, g4, g5⟩ := runInsert_spec hs h2 (l ++ [sel]) a1 kRowid kRowid_ne
  refine ⟨st2, ?_, fun hn => ?_, fun hn => g5 (fun e => hn (a2.mpr e))⟩
  · simp [select1OrInsert, hsel, hone, Res.bind, show stmts.insertStmt = some ins from hi, g1, Res.map]
  · rw [g4 (fun e => hn (a2.mpr e)), a3]

/-- C124, the selection fails: nothing is inserted, and the error is reported -/
theorem C124_failed (c : Ctx S) (fuel : Nat) {s s1 : S} {stmts : Stmts} {sel : List Byte} {code : Nat}
    {msg : List Byte} {left : Bool} (hsel : stmts.select = some sel) (h : Failure c s sel s1 code msg left)
    (hc : code ≠ sqliteDone) :
    select1OrInsert c fuel s stmts none = .ok (some (s1, code, none)) ∧
    select1OrInsert c fuel s stmts (some none) =
      .ok (some (s1, code, some (some (.obj [(kError, .atom (.str msg))])))) ∧
    (∀ a, a.lookup kError = none → select1OrInsert c fuel s stmts (some (some (.obj a))) =
      .ok (some (s1, code, some (some (.obj (insertKey kError (.atom (.str msg)) a)))))) := by
  have hone := (C84_failed c fuel h hc).2.1
  refine ⟨?_, ?_, ?_⟩
  · simp [select1OrInsert, hsel, hone, Res.bind, orFound, Res.map]
  · simp [select1OrInsert, hsel, hone, Res.bind, orFound, Res.map]
  · intro a ha
    simp [select1OrInsert, hsel, hone, Res.bind, orFound, Res.map, errorOf, List.lookup, objAppend, ha]

/-- C124 is false for a row with a column named `error`: it is taken for an error, and the other columns are lost -/
theorem C124_error_column_false (c : Ctx S) {s s1 s2 : S} {stmts : Stmts} {sel : List Byte}
    {binds : List (Nat × Bound)} {r : Step} {cols : List Col} {rest : List (List Col)} (hsel : stmts.select = some sel)
    (h1 : start c s (some sel) = .ok (.stepped binds s1 r))
    (h2 : Yields c.eng sel binds 1 s1 r (cols :: rest) s2) (fuel : Nat) (hf : rest.length + 1 < fuel)
    {a b : List (List Byte × Val)} {e : Val} (hv : valueOf c.infos (c.eng.names s sel) cols = .obj b)
    (he : b.lookup kError = some e) (ha : a.lookup kError = none) :
    ∃ kvs, select1OrInsert c fuel s stmts (some (some (.obj a))) = .ok (some (s2, sqliteDone, some (some (.obj kvs)))) ∧
      ∀ k, k ≠ kError → kvs.lookup k = a.lookup k := by
  obtain ⟨-, g2, -⟩ := C84_rows c h1 h2 fuel (by simpa using hf)
  have hone := (g2 cols rest rfl).2
  refine ⟨insertKey kError e a, ?_, ?_⟩
  · simp [select1OrInsert, hsel, hone, hv, Res.bind, orFound, Res.map, errorOf, he, objAppend, ha]
  · intro k hk
    rw [Json.lookup_insertKey, if_neg hk]

/-- C124 is false for a bare value (a column without label): with a status that is an object already, it is lost, though
the code is `SQLITE_DONE` and nothing is inserted -/
theorem C124_bare_false (c : Ctx S) {s s1 s2 : S} {stmts : Stmts} {sel : List Byte}
    {binds : List (Nat × Bound)} {r : Step} {cols : List Col} {rest : List (List Col)} (hsel : stmts.select = some sel)
    (h1 : start c s (some sel) = .ok (.stepped binds s1 r))
    (h2 : Yields c.eng sel binds 1 s1 r (cols :: rest) s2) (fuel : Nat) (hf : rest.length + 1 < fuel)
    {a : List (List Byte × Val)} {x : Json.Atom} (hv : valueOf c.infos (c.eng.names s sel) cols = .atom x) :
    select1OrInsert c fuel s stmts (some (some (.obj a))) = .ok (some (s2, sqliteDone, some (some (.obj a)))) := by
  obtain ⟨-, g2, -⟩ := C84_rows c h1 h2 fuel (by simpa using hf)
  have hone := (g2 cols rest rfl).2
  simp [select1OrInsert, hsel, hone, hv, Res.bind, orFound, Res.map, errorOf, mergeInto, mergeable]

/-! ## examples -/

/-- two rows are found: the first is given -/
example : ∃ kvs, select1OrInsert (plain (steps fun k => if k < 2 then .row [.int k, .null] else .done)) 3 () smallStmts
    (some (some (.obj [([99], .atom .null), ([97], .atom (.i64 9))]))) =
      .ok (some ((), sqliteDone, some (some (.obj kvs)))) ∧
    ∀ k, kvs.lookup k = (List.lookup k [([97], .atom (.i64 0)), ([98], .atom .null)]).or
      (List.lookup k [([99], .atom .null), ([97], .atom (.i64 9))]) :=
  (C124_found (plain (steps fun k => if k < 2 then .row [.int k, .null] else .done)) (s := ()) (stmts := smallStmts)
    (binds := []) (s1 := ()) (s2 := ()) (cols := [.int 0, .null]) (rest := [[.int 1, .null]]) rfl rfl
    (.row (s' := ()) rfl (.row (s' := ()) rfl (.done _ _))) 3 (by decide)).2.2 _ _ rfl rfl

/-- no row is found: a row is inserted -/
example : ∃ st', select1OrInsert (logged (plain (small false false))) 1 (0, []) smallStmts (some none) =
    .ok (some ((2, [[115], [105]]), 101, st')) ∧
      (some none ≠ (none : Status) → (HasError st' ↔ 101 ≠ sqliteDone ∨ HasError (some none))) ∧
      (some none ≠ (none : Status) → 101 = sqliteDone → ∃ kvs, st' = some (some (.obj kvs)) ∧
        kvs.lookup (str "last_insert_rowid") = some (.atom (.i64 (cInt (toU64 2))))) :=
  C124_absent (c := plain (small false false)) (small_sound _ _) (stmts := smallStmts) (st := some none) trivial rfl rfl
    rfl (.inr ⟨[], .done, rfl, rfl, rfl⟩) [] 0

/-- the selection fails: only it was run -/
example : select1OrInsert (plain (small false true)) 1 0 smallStmts none = .ok (some (1, 5, none)) :=
  (C124_failed (plain (small false true)) 1 (stmts := smallStmts) rfl
    (.inr ⟨[], .err 5, rfl, rfl, by decide, by decide, rfl, rfl⟩) (by decide)).1

/-- a table with the columns `a` and `error` and one row -/
def withError : Engine Unit :=
  { steps (fun k => if k = 0 then .row [.text [120], .text [121]] else .done) with names := fun _ _ => [[97], kError] }

example : ∃ kvs, select1OrInsert (plain withError) 2 () smallStmts (some (some (.obj []))) =
    .ok (some ((), sqliteDone, some (some (.obj kvs)))) ∧
      ∀ k, k ≠ kError → kvs.lookup k = List.lookup k ([] : List (List Byte × Val)) :=
  C124_error_column_false (plain withError) (s := ()) (stmts := smallStmts) (binds := []) (s1 := ()) (s2 := ())
    (cols := [.text [120], .text [121]]) (rest := []) (b := [([97], .atom (.str [120])), (kError, .atom (.str [121]))])
    (e := .atom (.str [121])) rfl rfl (.row (s' := ()) rfl (.done _ _)) 2 (by decide) rfl rfl rfl

/-- a table whose only column has no label -/
def bareCtx : Ctx Unit where
  eng := { steps (fun k => if k = 0 then .row [.text [120]] else .done) with names := fun _ _ => [[97]] }
  name := [110]
  infos := some [{ var := [64, 97], col := [97], type := .text, noLabel := true }]
  data := none

example : select1OrInsert bareCtx 2 () smallStmts (some (some (.obj []))) =
    .ok (some ((), sqliteDone, some (some (.obj [])))) :=
  C124_bare_false bareCtx (s := ()) (stmts := smallStmts) (binds := []) (s1 := ()) (s2 := ()) (cols := [.text [120]])
    (rest := []) (x := .str [120]) rfl rfl (.row (s' := ()) rfl (.done _ _)) 2 (by decide) rfl

end Verif.Sqlite.Props
