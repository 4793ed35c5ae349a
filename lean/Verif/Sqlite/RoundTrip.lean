import Verif.Sqlite.UpdateProps

/-!
# Property C123: what is stored can be read again

Insertions of JSON objects (C87) followed by a selection (C83), with a database that keeps rows.
-/

namespace Verif.Sqlite.Props

open Verif Verif.Sqlite
open Verif.Json (Val insertKey lookup_insertKey)
open Verif.Dbm (str)

variable {S : Type}

/-- how a stored value is given back -/
def backCol : Cell → Col
  | .null => .null
  | .int i => .int i
  | .text s => .text s
  | .blob s => .blob s

/-- A database that keeps the rows of one table with the columns of `infos`, without constraints and conversions: an insertion with at least one column
puts a row behind the others, with the bound values and NULL in the columns that are not named; the statement `sel` gives all rows. -/
structure Keeps (e : Engine S) (infos : List Info) (table sel : List Byte) (rows : S → List (List Cell)) : Prop where
  prep : ∀ s Q, infos.filter Q ≠ [] → e.prep s (insertSql table (infos.filter Q)) = .ok ((infos.filter Q).map fun i => some i.var)
  insert : ∀ s Q binds (v : Info → Cell), infos.filter Q ≠ [] →
    (∀ (k : Nat) info, (infos.filter Q)[k]? = some info → (binds.filter fun p => p.1 = k + 1).map (fun p => cellOf p.2) = [some (v info)]) →
    ∃ s', e.step s (insertSql table (infos.filter Q)) binds 0 = (s', .done) ∧ rows s' = rows s ++ [infos.map fun i => if Q i = true then v i else .null]
  selPrep : ∀ s, e.prep s sel = .ok []
  names : ∀ s, e.names s sel = infos.map Info.col
  select : ∀ s binds, ∃ s', Yields e sel binds 1 (e.step s sel binds 0).1 (e.step s sel binds 0).2 ((rows s).map (·.map backCol)) s'

/-- one insertion after the other, each with unused data: the database and the statuses -/
def insertEach (c : Ctx S) (stmts : Stmts) (s : S) : List (List (List Byte × Val)) → Res (Option (S × List Status))
  | [] => .ok (some (s, []))
  | kvs :: objs => (insertOp c s kvs stmts (some none)).bind fun
    | none => .ok none
    | some (s, _, st) => (insertEach c stmts s objs).map fun r => r.map fun q => (q.1, st :: q.2)

/-- the zero of a type as a JSON value -/
def zeroVal : STy → Val
  | .text => .atom (.str [])
  | .blob => .atom (.blob 0)
  | .undef => .atom .null
  | _ => .atom (.i64 0)

/-- what is read for a column of a stored object: the value of the object; without one null, or zero if the column must not be null -/
def readVal (kvs : List (List Byte × Val)) (info : Info) : Val :=
  match kvs.lookup info.col with
  | some v => if v = .atom .null ∧ info.notNull = true then zeroVal info.type else v
  | none => if info.notNull = true then zeroVal info.type else .atom .null

theorem zero_back {t : STy} (ht : t ≠ .undef) : ∃ x, zeroCell t = some x ∧ colVal (backCol x) = zeroVal t := by
  cases t <;> first | exact absurd rfl ht | exact ⟨_, rfl, rfl⟩

theorem takeWhile_text {s : List Byte} (h : 0 ∉ s) : s.takeWhile (· != 0) = s := by
  induction s with
  | nil => rfl
  | cons x s ih =>
    rw [List.mem_cons, not_or] at h
    rw [List.takeWhile_cons, if_pos (by simpa using fun e => h.1 e.symm), ih h.2]

theorem fits_back {info : Info} {v : Val} (h : Fits info v) : ∃ x, jsonCell v = some x ∧ colVal (backCol x) = v := by
  rcases h with rfl | h
  · exact ⟨_, rfl, rfl⟩
  · cases ht : info.type <;> rw [ht] at h <;> simp only at h
    case int => obtain ⟨n, rfl, -⟩ := h; exact ⟨_, rfl, rfl⟩
    case int64 => obtain ⟨n, rfl⟩ := h; exact ⟨_, rfl, rfl⟩
    case text =>
      obtain ⟨s, rfl, h0⟩ := h
      exact ⟨_, rfl, by simp only [backCol, colVal, takeWhile_text h0]⟩

/-- the cell of a column and what is read from it -/
theorem stored_back {kvs : List (List Byte × Val)} {info : Info} (ht : info.type ≠ .undef)
    (hf : ∀ v, kvs.lookup info.col = some v → Fits info v) :
    colVal (backCol ((storedCell info kvs).getD .null)) = readVal kvs info := by
  obtain ⟨z, hz, hz'⟩ := zero_back ht
  unfold storedCell readVal
  cases hl : kvs.lookup info.col with
  | none =>
    by_cases hn : info.notNull = true
    · simp only [if_pos hn, hz, Option.getD_some, hz']
    · simp only [if_neg hn]; rfl
  | some v =>
    obtain ⟨x, hx, hx'⟩ := fits_back (hf v hl)
    by_cases hn : v = .atom .null ∧ info.notNull = true
    · simp only [if_pos hn, hz, Option.getD_some, hz']
    · simp only [if_neg hn, hx, Option.getD_some, hx']

theorem flag_of_mem {infos : List Info} (ho : OneRow infos) {info : Info} (h : info ∈ infos) (flag : Info → Bool) :
    flagOf (some infos) flag info.col = flag info := by
  unfold flagOf
  obtain ⟨i, hi, e⟩ := List.mem_iff_getElem.1 h
  have h1 := findIdx_col ho (List.getElem?_eq_getElem hi) rfl
  have h2 : infos.find? (fun x => x.col == info.col) = some info := by
    rw [← e, List.find?_eq_bind_findIdx?_getElem?, h1]
    simp [hi]
  simp only [h2]

theorem cols_nodup {infos : List Info} (ho : OneRow infos) : (infos.map Info.col).Nodup := by
  rw [List.nodup_iff_pairwise_ne, List.pairwise_iff_getElem]
  intro i j hi hj hij he
  simp only [List.length_map] at hi hj
  simp only [List.getElem_map] at he
  have := ho i j _ _ (List.getElem?_eq_getElem hi) (List.getElem?_eq_getElem hj) he
  omega

/-- the object of a row -/
theorem row_value {infos : List Info} (ho : OneRow infos) (hone : ∀ info, infos = [info] → info.noReturn = true ∨ info.noLabel = false)
    (v : Info → Cell) : valueOf (some infos) (infos.map Info.col) ((infos.map v).map backCol) =
      .obj ((infos.filter fun i => !i.noReturn).map fun i => (i.col, colVal (backCol (v i)))) := by
  have hz : (infos.map Info.col).zip ((infos.map v).map backCol) = infos.map fun i => (i.col, backCol (v i)) := by
    rw [List.map_map, List.zip_map']
    rfl
  obtain ⟨kvs, h1, -, -, h2⟩ := C82_row (some infos) (infos.map fun i => (i.col, backCol (v i))) (by
    rintro ⟨name, c, h, h1, h2⟩
    obtain ⟨info, rfl⟩ : ∃ i, infos = [i] := by
      rw [← List.length_eq_one_iff]
      simpa using congrArg List.length h
    simp only [List.map_cons, List.map_nil, List.cons.injEq, Prod.mk.injEq, and_true] at h
    obtain ⟨rfl, -⟩ := h
    rw [← flagOf_iff, flag_of_mem ho (by simp)] at h1 h2
    rcases hone info rfl with h | h
    · exact h1 h
    · rw [h] at h2; cases h2)
  have h3 := rowVal_valueOf (some infos) (infos.map Info.col) ((infos.map v).map backCol)
  rw [hz, h1] at h3
  injection h3 with h3
  rw [← h3, h2 (by rw [List.map_map]; exact cols_nodup ho)]
  congr 1
  unfold returned
  rw [List.filter_map, List.map_map]
  have : infos.filter ((fun p : List Byte × Col => !flagOf (some infos) (·.noReturn) p.1) ∘ fun i => (i.col, backCol (v i))) =
      infos.filter fun i => !i.noReturn := by
    refine List.filter_congr fun i hi => ?_
    simp only [Function.comp, flag_of_mem ho hi]
  rw [this]
  rfl

/-- one insertion -/
theorem insert_keeps {c : Ctx S} {infos : List Info} {ds : List Data} {kvs : List (List Byte × Val)} (R : Prepared c infos ds kvs)
    {stmts : Stmts} {sel : List Byte} {rows : S → List (List Cell)} (K : Keeps c.eng infos stmts.table sel rows) (hdyn : stmts.insertDynamic = true)
    (hp : present infos kvs ≠ []) (s : S) :
    ∃ s' st, insertOp c s kvs stmts (some none) = .ok (some (s', sqliteDone, some (some (.obj st)))) ∧ st.lookup kError = none ∧
      rows s' = rows s ++ [infos.map fun i => (storedCell i kvs).getD .null] := by
  obtain ⟨binds, st, h1, h2, h3, -⟩ := C87_insert c s R.hinfos R.hdata R.len R.clean R.oneRow R.oneVar R.cols R.keys R.fits hdyn rfl (K.prep s _ hp)
  obtain ⟨s', e, hr⟩ := K.insert s (fun info => (storedCell info kvs).isSome) binds (fun i => (storedCell i kvs).getD .null) hp (by
    intro k info hk
    rw [h2 k info hk]
    have := List.mem_of_getElem? hk
    rw [List.mem_filter] at this
    obtain ⟨x, hx⟩ := Option.isSome_iff_exists.1 this.2
    rw [hx]; rfl)
  have e' : c.eng.step s (insertSql stmts.table (present infos kvs)) binds 0 = (s', .done) := e
  rw [e'] at h1 h3
  refine ⟨s', st, h1, h3.2 rfl, ?_⟩
  rw [hr]
  congr 2
  refine List.map_congr_left fun i _ => ?_
  cases h : storedCell i kvs <;> simp

/-- **C123, what holds.**  Objects whose values fit the columns are inserted one after the other, each with unused data, and all rows are selected: no
insertion reports an error, and behind the rows that were there before, the selection gives the objects in their order, each with its own values in the
columns that may be returned.  Keys without a column are left out; a column without a value is null, or zero if it must not be null.  Missing: the values
that do not fit, objects without any column, a single column without label, and operations used twice, for which the claim is false. -/
theorem C123_partial {c : Ctx S} {infos : List Info} {ds : List Data} (R : Prepared c infos ds []) {stmts : Stmts} {sel : List Byte}
    {rows : S → List (List Cell)} (K : Keeps c.eng infos stmts.table sel rows) (hdyn : stmts.insertDynamic = true)
    (hone : ∀ info, infos = [info] → info.noReturn = true ∨ info.noLabel = false) (objs : List (List (List Byte × Val)))
    (hk : ∀ kvs ∈ objs, (kvs.map Prod.fst).Nodup) (hf : ∀ kvs ∈ objs, ∀ kv ∈ kvs, ∀ info ∈ infos, info.col = kv.1 → Fits info kv.2)
    (hp : ∀ kvs ∈ objs, present infos kvs ≠ []) (s : S) (fuel : Nat) (hfuel : (rows s).length + objs.length < fuel) :
    ∃ s' sts, insertEach c stmts s objs = .ok (some (s', sts)) ∧ (∀ st ∈ sts, ∃ o, st = some (some (.obj o)) ∧ o.lookup kError = none) ∧
      ∃ s'' old, select c fuel s' sel (some none) = .ok (some (s'', sqliteDone, some (some (.arr (old ++ objs.map fun kvs =>
        .obj ((infos.filter fun i => !i.noReturn).map fun i => (i.col, readVal kvs i))))), false)) ∧ old.length = (rows s).length := by
  -- the insertions
  have hins : ∀ (objs : List (List (List Byte × Val))) (s : S), (∀ kvs ∈ objs, (kvs.map Prod.fst).Nodup) →
      (∀ kvs ∈ objs, ∀ kv ∈ kvs, ∀ info ∈ infos, info.col = kv.1 → Fits info kv.2) → (∀ kvs ∈ objs, present infos kvs ≠ []) →
      ∃ s' sts, insertEach c stmts s objs = .ok (some (s', sts)) ∧ (∀ st ∈ sts, ∃ o, st = some (some (.obj o)) ∧ o.lookup kError = none) ∧
        rows s' = rows s ++ objs.map fun kvs => infos.map fun i => (storedCell i kvs).getD .null := by
    intro objs
    induction objs with
    | nil => intro s _ _ _; exact ⟨s, [], rfl, by simp, by simp⟩
    | cons kvs objs ih =>
      intro s hk hf hp
      rw [List.forall_mem_cons] at hk hf hp
      have R' : Prepared c infos ds kvs := ⟨R.hinfos, R.hdata, R.len, R.clean, R.oneRow, R.oneVar, R.cols, hk.1, hf.1⟩
      obtain ⟨s1, st, h1, h2, h3⟩ := insert_keeps R' K hdyn hp.1 s
      obtain ⟨s2, sts, h4, h5, h6⟩ := ih s1 hk.2 hf.2 hp.2
      refine ⟨s2, some (some (.obj st)) :: sts, ?_, ?_, ?_⟩
      · rw [insertEach, h1]
        simp only [Res.bind, h4, Res.map, Option.map_some]
      · intro x hx
        rcases List.mem_cons.1 hx with rfl | hx
        · exact ⟨st, rfl, h2⟩
        · exact h5 x hx
      · rw [h6, h3]; simp
  obtain ⟨s', sts, h1, h2, h3⟩ := hins objs s hk hf hp
  refine ⟨s', sts, h1, h2, ?_⟩
  -- the selection
  obtain ⟨u, hu, -, -, hs⟩ := ready_run R
  have hud : u.data = ds := by
    simp only [genericData, R.hinfos, R.hdata, Option.getD_some, populateAll, Res.map, Res.ok.injEq, Prod.mk.injEq] at hu
    rw [← hu.2]
  obtain ⟨binds, h4, -⟩ := hs s' sel (fun s => ⟨[], K.selPrep s, by intro i j n h; simp at h, by simp⟩)
  rw [hud, show ({ c with data := some ds } : Ctx S) = c by rw [← R.hdata]] at h4
  obtain ⟨s'', h5⟩ := K.select s' binds
  have h6 := C83_partial c (status := some none) trivial h4 h5 fuel (by rw [List.length_map, h3]; simpa using hfuel)
  refine ⟨s'', (rows s).map (fun r => valueOf c.infos (infos.map Info.col) (r.map backCol)), ?_, by simp⟩
  rw [h6, K.names, h3]
  simp only [withRows, List.map_append, List.map_map, Function.comp_def]
  congr 9
  refine List.map_congr_left fun kvs hkv => ?_
  rw [R.hinfos]
  have := row_value R.oneRow hone (fun i => (storedCell i kvs).getD .null)
  simp only [List.map_map, Function.comp_def] at this
  rw [this]
  congr 1
  refine List.map_congr_left fun i hi => ?_
  rw [List.mem_filter] at hi
  rw [stored_back (R.cols i hi.1).2.1]
  intro v hv
  obtain ⟨l1, l2, e, -⟩ := List.lookup_eq_some_iff.mp hv
  exact hf kvs hkv (i.col, v) (by rw [e]; simp) i hi.1 rfl

/-- **C123 is false for objects without a column of the table.**  The statement that is run is `insert into T () values ()`, which SQLite refuses; then the
operation reports an error and stores nothing, although every column may be null. -/
theorem C123_empty_false {c : Ctx S} {infos : List Info} {ds : List Data} {kvs : List (List Byte × Val)} (R : Prepared c infos ds kvs) {stmts : Stmts}
    (hdyn : stmts.insertDynamic = true) (hp : present infos kvs = []) (s : S) {n : Nat}
    (hno : c.eng.prep s (str "insert into " ++ stmts.table ++ str " () values ()") = .error n) (hn : n ≠ sqliteDone) :
    ∃ st, insertOp c s kvs stmts (some none) = .ok (some (s, n, some (some (.obj st)))) ∧ (st.lookup kError).isSome = true := by
  obtain ⟨c', debug, he, -, hg⟩ := ready_generic R stmts
  have hsql : (readyStmts infos kvs stmts).insertStmt = some (str "insert into " ++ stmts.table ++ str " () values ()") := by
    simp only [Stmts.insertStmt, readyStmts, hdyn, if_true, insertSql, hp, List.map_nil, commas, List.append_nil, List.append_assoc]
    rfl
  unfold insertOp
  rw [hg]
  simp only [hsql, insert, runInsert, runDone, runSql, start, he, hno, Res.bind, acceptResult, setError, List.lookup, Option.isSome_none, Bool.false_eq_true,
    if_false, Res.map, hn, ne_eq, not_false_iff, if_true, lookup_insertKey, Option.isSome_some, setKey]
  rw [rename_err]
  exact ⟨_, rfl, by simp [List.lookup]⟩

/-! ## A database that keeps rows -/

/-- the columns `a` and `b` -/
def tabAB : List Info := [rowA .int, { var := [64, 98], col := [98], type := .text }]

def selAB : List Byte := str "select a,b from t"

/-- the value bound to a parameter -/
def boundAt (binds : List (Nat × Bound)) (k : Nat) : Cell := (((binds.filter fun p => p.1 = k).map fun p => cellOf p.2).head?.getD none).getD .null

def memDb : Engine (List (List Cell)) where
  prep _ sql :=
    if sql = selAB then .ok []
    else if sql = str "insert into t (a,b) values (@a,@b)" then .ok [some (str "@a"), some (str "@b")]
    else if sql = str "insert into t (a) values (@a)" then .ok [some (str "@a")]
    else if sql = str "insert into t (b) values (@b)" then .ok [some (str "@b")]
    else .error 1
  names _ _ := [[97], [98]]
  step s sql binds k :=
    if sql = selAB then (s, match s[k]? with
      | some r => .row (r.map backCol)
      | none => .done)
    else if sql = str "insert into t (a,b) values (@a,@b)" then (s ++ [[boundAt binds 1, boundAt binds 2]], .done)
    else if sql = str "insert into t (a) values (@a)" then (s ++ [[boundAt binds 1, .null]], .done)
    else if sql = str "insert into t (b) values (@b)" then (s ++ [[.null, boundAt binds 1]], .done)
    else (s, .err 1)
  rowid s := s.length
  changes _ := 1
  totalChanges _ := 1
  errmsg _ := [101]

theorem memDb_keeps : Keeps memDb tabAB [116] selAB id := by
  have f : ∀ Q : Info → Bool, tabAB.filter Q = (if Q (rowA .int) then [rowA .int] else []) ++
      (if Q { var := [64, 98], col := [98], type := .text } then [{ var := [64, 98], col := [98], type := .text }] else []) := by
    intro Q
    simp only [tabAB, List.filter_cons, List.filter_nil]
    cases Q (rowA .int) <;> cases Q { var := [64, 98], col := [98], type := .text } <;> rfl
  refine ⟨?_, ?_, fun _ => rfl, fun _ => rfl, ?_⟩
  · intro s Q hne
    rw [f] at hne ⊢
    cases h1 : Q (rowA .int) <;> cases h2 : Q { var := [64, 98], col := [98], type := .text } <;> rw [h1, h2] at hne
    · exact absurd rfl hne
    all_goals rfl
  · intro s Q binds v hne hb
    rw [f] at hne hb ⊢
    cases h1 : Q (rowA .int) <;> cases h2 : Q { var := [64, 98], col := [98], type := .text } <;> rw [h1, h2] at hne hb
    · exact absurd rfl hne
    all_goals
      simp only [tabAB, List.map_cons, List.map_nil, h1, h2, if_true, Bool.false_eq_true, if_false] at hb ⊢
      have b1 := hb 0 _ rfl
      have e1 : ∀ k x, (binds.filter fun p => p.1 = k).map (fun p => cellOf p.2) = [some x] → boundAt binds k = x := by
        intro k x h
        unfold boundAt
        rw [h]; rfl
      have e2 := e1 _ _ b1
    · exact ⟨_, rfl, by rw [← e2]; rfl⟩
    · exact ⟨_, rfl, by rw [← e2]; rfl⟩
    · have e3 := e1 _ _ (hb 1 _ rfl)
      exact ⟨_, rfl, by rw [← e2, ← e3]; rfl⟩
  · intro s binds
    have key : ∀ (n k : Nat), s.length - k = n → Yields memDb selAB binds (k + 1) s (memDb.step s selAB binds k).2 ((s.drop k).map (·.map backCol)) s := by
      intro n
      induction n with
      | zero =>
        intro k hk
        rw [List.drop_of_length_le (by omega)]
        have : memDb.step s selAB binds k = (s, .done) := by
          simp only [memDb, if_true, List.getElem?_eq_none (show s.length ≤ k by omega)]
        rw [this]
        exact .done _ _
      | succ n ih =>
        intro k hk
        have hlt : k < s.length := by omega
        rw [List.drop_eq_getElem_cons hlt]
        have : memDb.step s selAB binds k = (s, .row (s[k].map backCol)) := by
          simp only [memDb, if_true, List.getElem?_eq_getElem hlt]
        rw [this]
        exact .row (s' := s) (r := (memDb.step s selAB binds (k + 1)).2) (by simp only [memDb, if_true]) (ih (k + 1) (by omega))
    exact ⟨s, key _ 0 rfl⟩

def memCtx : Ctx (List (List Cell)) := { eng := memDb, name := [110], infos := some tabAB, data := some [{}, {}] }

theorem mem_prepared : Prepared memCtx tabAB [{}, {}] [] := by
  have := ready_ab true (.atom .null) (.inl rfl)
  exact ⟨rfl, rfl, rfl, by simp [Clean], this.oneRow, this.oneVar, this.cols, by simp, by simp⟩

/-- `{"a":5,"z":1}` and `{"b":"x"}` -/
example : ∃ s' sts, insertEach memCtx { table := [116], insertDynamic := true } []
      [[([97], .atom (.i64 5)), ([122], .atom (.i64 1))], [([98], .atom (.str [120]))]] = .ok (some (s', sts)) ∧
    (∀ st ∈ sts, ∃ o, st = some (some (.obj o)) ∧ o.lookup kError = none) ∧
    ∃ s'' old, select memCtx 3 s' selAB (some none) = .ok (some (s'', sqliteDone, some (some (.arr (old ++
      [.obj [([97], .atom (.i64 5)), ([98], .atom .null)], .obj [([97], .atom .null), ([98], .atom (.str [120]))]]))), false)) ∧ old.length = 0 :=
  C123_partial mem_prepared (stmts := { table := [116], insertDynamic := true }) memDb_keeps rfl (by simp [tabAB])
    [[([97], .atom (.i64 5)), ([122], .atom (.i64 1))], [([98], .atom (.str [120]))]] (by decide)
    (by
      intro kvs hk kv hkv info hi he
      simp only [List.mem_cons, List.not_mem_nil, or_false, tabAB] at hk hi
      rcases hk with rfl | rfl <;> rcases hi with rfl | rfl <;> simp at hkv
      · rcases hkv with rfl | rfl
        · exact .inr ⟨5, rfl, by decide, by decide⟩
        · simp [rowA] at he
      · rcases hkv with rfl | rfl <;> simp at he
      · subst hkv; simp [rowA] at he
      · subst hkv; exact .inr ⟨[120], rfl, by decide⟩)
    (by decide) [] 3 (by decide)

/-- `{"z":1}` has no column -/
example : ∃ st, insertOp memCtx [] [([122], .atom (.i64 1))] { table := [116], insertDynamic := true } (some none) =
    .ok (some ([], 1, some (some (.obj st)))) ∧ (st.lookup kError).isSome = true :=
  C123_empty_false (infos := tabAB) (ds := [{}, {}]) ⟨rfl, rfl, rfl, mem_prepared.clean, mem_prepared.oneRow, mem_prepared.oneVar, mem_prepared.cols,
    by decide, by simp [tabAB, rowA]⟩ rfl (by decide) [] rfl (by decide)

/-- **C123 is false for an operation that is used twice**: `{"b":"x"}` is inserted, then `{"a":null}` with the data as they are after the first
insertion.  The second row has the text of the first object. -/
theorem C123_reuse_false : ∃ c' u s1 s2 st1 st2, genericData memCtx [([98], .atom (.str [120]))] = .ok (c', u) ∧
    insertOp memCtx [] [([98], .atom (.str [120]))] { table := [116], insertDynamic := true } (some none) = .ok (some (s1, sqliteDone, st1)) ∧
    insertOp c' s1 [([97], .atom .null)] { table := [116], insertDynamic := true } (some none) = .ok (some (s2, sqliteDone, st2)) ∧
    select c' 3 s2 selAB (some none) = .ok (some (s2, sqliteDone, some (some (.arr [.obj [([97], .atom .null), ([98], .atom (.str [120]))],
      .obj [([97], .atom .null), ([98], .atom (.str [120]))]])), false)) :=
  ⟨_, _, [[.null, .text [120]]], [[.null, .text [120]], [.null, .text [120]]], _, _, rfl, rfl, rfl, rfl⟩

end Verif.Sqlite.Props
