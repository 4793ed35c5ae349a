import Verif.Sqlite.FlowProps
import Verif.Json.SelectProps

/-!
# Properties of selection under a key, and of the next number

C88: selection under a key.  C89: the next number.
-/

namespace Verif.Sqlite.Props

open Verif Verif.Sqlite
open Verif.Json (Val insertKey mergeVal mergeable mergeF)
open Verif.Dbm (str)

variable {S : Type}

/-- the object `b` is `a` with `v` under `key` -/
def Updated (a : List (List Byte × Val)) (key : List Byte) (v : Val) (b : List (List Byte × Val)) : Prop :=
  b.lookup key = some v ∧ ∀ k, k ≠ key → b.lookup k = a.lookup k

theorem updated_insertKey (a : List (List Byte × Val)) (key : List Byte) (v : Val) : Updated a key v (insertKey key v a) :=
  ⟨by rw [Json.lookup_insertKey]; simp, fun k hk => by rw [Json.lookup_insertKey, if_neg hk]⟩

/-- C88: all rows are put under the key, behind those of an array that is there, or behind a text; the other keys stay -/
theorem C88_rows (c : Ctx S) {s s1 s2 : S} {sql : List Byte} {binds : List (Nat × Bound)} {r : Step}
    {rows : List (List Col)} (h1 : start c s (some sql) = .ok (.stepped binds s1 r))
    (h2 : Yields c.eng sql binds 1 s1 r rows s2) (fuel : Nat) (hf : rows.length < fuel) (key : List Byte)
    (a : List (List Byte × Val)) :
    (a.lookup key = none → ∃ b, selectAs c fuel s sql (some (some (.obj a))) key =
      .ok (some (s2, sqliteDone, some (some (.obj b)))) ∧
      Updated a key (.arr (rows.map (valueOf c.infos (c.eng.names s sql)))) b) ∧
    (∀ ys, a.lookup key = some (.arr ys) → ∃ b, selectAs c fuel s sql (some (some (.obj a))) key =
      .ok (some (s2, sqliteDone, some (some (.obj b)))) ∧
      Updated a key (.arr (ys ++ rows.map (valueOf c.infos (c.eng.names s sql)))) b) ∧
    (∀ t, a.lookup key = some (.atom (.str t)) → ∃ b, selectAs c fuel s sql (some (some (.obj a))) key =
      .ok (some (s2, sqliteDone, some (some (.obj b)))) ∧
      Updated a key (.arr (.atom (.str t) :: rows.map (valueOf c.infos (c.eng.names s sql)))) b) ∧
    selectAs c fuel s sql none key = .ok (some (s2, sqliteDone, none)) := by
  have h := C83_partial c (status := some none) trivial h1 h2 fuel hf
  refine ⟨fun hl => ⟨_, ?_, updated_insertKey _ _ _⟩, fun ys hl => ⟨_, ?_, updated_insertKey _ _ _⟩,
    fun t hl => ⟨_, ?_, updated_insertKey _ _ _⟩, ?_⟩
  all_goals
    unfold selectAs
    rw [h]
    simp only [Res.bind, withRows, Option.getD_some, errorOf]
  · simp [objAppend, hl, Res.map]
  · simp [objAppend, hl, Res.map, addTo]
  · simp [objAppend, hl, Res.map, addTo]

/-- C88 is false if there is no status yet: it becomes the array itself, there is no key -/
theorem C88_null_false (c : Ctx S) {s s1 s2 : S} {sql : List Byte} {binds : List (Nat × Bound)} {r : Step}
    {rows : List (List Col)} (h1 : start c s (some sql) = .ok (.stepped binds s1 r))
    (h2 : Yields c.eng sql binds 1 s1 r rows s2) (fuel : Nat) (hf : rows.length < fuel) (key : List Byte) :
    selectAs c fuel s sql (some none) key =
      .ok (some (s2, sqliteDone, some (some (.arr (rows.map (valueOf c.infos (c.eng.names s sql))))))) := by
  have h := C83_partial c (status := some none) trivial h1 h2 fuel hf
  unfold selectAs
  rw [h]
  rfl

/-- C88: a failure is reported under `error`, and the keys of the status stay -/
theorem C88_failed (c : Ctx S) (fuel : Nat) {s s1 : S} {sql : List Byte} {code : Nat} {msg : List Byte} {left : Bool}
    (h : Failure c s sql s1 code msg left) (hc : code ≠ sqliteDone) (key : List Byte) (a : List (List Byte × Val))
    (ha : a.lookup kError = none) :
    ∃ b, selectAs c fuel s sql (some (some (.obj a))) key = .ok (some (s1, code, some (some (.obj b)))) ∧
      Updated a kError (.atom (.str msg)) b := by
  have h1 := (C83_failed c fuel h hc).1
  refine ⟨_, ?_, updated_insertKey _ _ _⟩
  unfold selectAs
  rw [h1]
  simp [Res.bind, errorOf, List.lookup, objAppend, ha, Res.map]

/-- C88: the first row is put under the key, or merged into the object that is there; the other keys stay -/
theorem C88_one (c : Ctx S) {s s1 s2 : S} {sql : List Byte} {binds : List (Nat × Bound)} {r : Step}
    {cols : List Col} {rest : List (List Col)} (h1 : start c s (some sql) = .ok (.stepped binds s1 r))
    (h2 : Yields c.eng sql binds 1 s1 r (cols :: rest) s2) (fuel : Nat) (hf : rest.length + 1 < fuel) (key : List Byte)
    (he : errorOf (some (valueOf c.infos (c.eng.names s sql) cols)) = none) (a : List (List Byte × Val)) :
    (a.lookup key = none → ∃ b, select1As c fuel s sql (some (some (.obj a))) key =
      .ok (some (s2, sqliteDone, some (some (.obj b)))) ∧
      Updated a key (valueOf c.infos (c.eng.names s sql) cols) b) ∧
    (∀ o, a.lookup key = some o → ∃ b, select1As c fuel s sql (some (some (.obj a))) key =
      .ok (some (s2, sqliteDone, some (some (.obj b)))) ∧
      Updated a key (mergeInto o (valueOf c.infos (c.eng.names s sql) cols)) b) ∧
    (∃ b, select1As c fuel s sql (some none) key = .ok (some (s2, sqliteDone, some (some (.obj b)))) ∧
      Updated [] key (valueOf c.infos (c.eng.names s sql) cols) b) := by
  have h := ((C84_rows c h1 h2 fuel (by simpa using hf)).2.1 cols rest rfl).2
  refine ⟨fun hl => ⟨_, ?_, updated_insertKey _ _ _⟩, fun o hl => ⟨_, ?_, updated_insertKey _ _ _⟩,
    ⟨_, ?_, updated_insertKey _ _ _⟩⟩
  all_goals
    unfold select1As
    rw [h]
    simp only [Res.bind, Option.getD_some, he, acceptResult]
  · simp [hl]
  · simp [hl]
  · simp

/-- C88 is false if there is no row: with the key in the status nothing changes, without it (or without a status) the
NULL pointer of the missing row is used -/
theorem C88_absent_false (c : Ctx S) {s s1 s2 : S} {sql : List Byte} {binds : List (Nat × Bound)} {r : Step}
    (h1 : start c s (some sql) = .ok (.stepped binds s1 r)) (h2 : Yields c.eng sql binds 1 s1 r [] s2) (fuel : Nat)
    (hf : 0 < fuel) (key : List Byte) :
    (∀ a, a.lookup key = none → select1As c fuel s sql (some (some (.obj a))) key = .ub) ∧
    select1As c fuel s sql (some none) key = .ub ∧
    (∀ a o, a.lookup key = some o → ∃ b, select1As c fuel s sql (some (some (.obj a))) key =
      .ok (some (s2, sqliteDone, some (some (.obj b)))) ∧ Updated a key o b) := by
  have h := (C84_rows c h1 h2 fuel hf).1 rfl (some none)
  refine ⟨fun a hl => ?_, ?_, fun a o hl => ⟨_, ?_, updated_insertKey _ _ _⟩⟩
  all_goals
    unfold select1As
    rw [h]
    simp only [Res.bind, Option.getD_some, errorOf, acceptResult]
  · simp [hl]
  · simp
  · simp [hl]

/-- C88 is false for a failure: everything that was in the status is replaced -/
theorem C88_one_failed_false (c : Ctx S) (fuel : Nat) {s s1 : S} {sql : List Byte} {code : Nat} {msg : List Byte}
    {left : Bool} (h : Failure c s sql s1 code msg left) (hc : code ≠ sqliteDone) (key : List Byte) (st : Option Val) :
    select1As c fuel s sql (some st) key = .ok (some (s1, code, some (some (.obj [(kError, .atom (.str msg))])))) := by
  have h1 := (C84_failed c fuel h hc).2.1
  unfold select1As
  rw [h1]
  simp [Res.bind, errorOf, List.lookup]

example : ∃ b, selectAs (plain (steps fun k => if k < 2 then .row [.int k, .null] else .done)) 3 () [120]
      (some (some (.obj [([107], .arr [.atom .null])]))) [107] = .ok (some ((), 101, some (some (.obj b)))) ∧
    Updated [([107], .arr [.atom .null])] [107] (.arr [.atom .null, .obj [([97], .atom (.i64 0)), ([98], .atom .null)],
      .obj [([97], .atom (.i64 1)), ([98], .atom .null)]]) b :=
  (C88_rows (plain (steps fun k => if k < 2 then .row [.int k, .null] else .done)) (s := ()) (sql := [120])
    (binds := []) (s1 := ()) (rows := [[.int 0, .null], [.int 1, .null]]) rfl
    (.row (s' := ()) rfl (.row (s' := ()) rfl (.done _ _))) 3 (by decide) [107]
    [([107], .arr [.atom .null])]).2.1 [.atom .null] rfl

example : select1As (plain (steps fun _ => .done)) 3 () [120] (some none) [107] = .ub :=
  (C88_absent_false (plain (steps fun _ => .done)) (s := ()) (sql := [120]) (binds := []) (s1 := ()) rfl (.done _ _) 3
    (by decide) [107]).2.1

example : ∃ b, select1As (plain (steps fun k => if k < 2 then .row [.int k, .null] else .done)) 3 () [120]
      (some none) [107] = .ok (some ((), 101, some (some (.obj b)))) ∧
    Updated [] [107] (.obj [([97], .atom (.i64 0)), ([98], .atom .null)]) b :=
  (C88_one (plain (steps fun k => if k < 2 then .row [.int k, .null] else .done)) (s := ()) (sql := [120])
    (binds := []) (s1 := ()) (cols := [.int 0, .null]) (rest := [[.int 1, .null]]) rfl
    (.row (s' := ()) rfl (.row (s' := ()) rfl (.done _ _))) 3 (by decide) [107] rfl []).2.2

/-! ## the next number -/

/-- the query of a next number as it is meant -/
def maxQuery (column clause : List Byte) : List Byte :=
  str "select max(" ++ column ++ str ") as max_value " ++ clause ++ str ";"

/-- the context of the query: there is nothing to bind -/
def bare (c : Ctx S) : Ctx S := { c with infos := none, data := none }

theorem toIntx_id {n : Int} (h1 : -2 ^ 31 ≤ n) (h2 : n < 2 ^ 31) : cInt (toU64 n) = n := by
  have := Verif.Json.Props.cInt_u64 n
  omega

/-- the one column of the query -/
theorem value_max (c : Ctx S) (s : S) (sql : List Byte) (x : Col)
    (hn : c.eng.names s sql = [str "max_value"]) :
    valueOf (bare c).infos ((bare c).eng.names s sql) [x] = .obj [(str "max_value", colVal x)] := by
  have : (bare c).eng.names s sql = [str "max_value"] := hn
  rw [this]
  rfl

theorem max_ne_error : (str "max_value" == kError) = false := by decide
theorem error_ne_max : (kError == str "max_value") = false := by decide

theorem nextInt_value (c : Ctx S) {s s1 s2 : S} {column clause : List Byte} {r : Step} {x : Col}
    (hl : (maxQuery column clause).length < 128) (hn : c.eng.names s (maxQuery column clause) = [str "max_value"])
    (h1 : start (bare c) s (some (maxQuery column clause)) = .ok (.stepped [] s1 r))
    (h2 : Yields c.eng (maxQuery column clause) [] 1 s1 r [[x]] s2) (fuel : Nat) (hf : 1 < fuel) (status : Status) :
    nextInt c fuel s column clause status = ((maxValue (some (.obj [(str "max_value", colVal x)]))).bind fun
      | some n => .ok (some (s2, n, status))
      | none => match status with
        | none => .ub
        | some _ => .ok (some (s2, -1, some (some (.obj [(str "max_value", colVal x)]))))) := by
  have hq : nextQuery column clause = maxQuery column clause := by
    unfold nextQuery Dbm.cut
    exact List.take_of_length_le (by simpa [maxQuery] using (show (maxQuery column clause).length ≤ 127 by omega))
  have h := ((C84_rows (bare c) h1 h2 fuel (by simpa using hf)).2.1 [x] [] rfl).2
  rw [value_max c s _ x hn] at h
  unfold nextInt
  rw [hq]
  rw [show ({ c with infos := none, data := none } : Ctx S) = bare c from rfl, h]
  simp only [Res.bind, Option.getD_some, errorOf, List.lookup, error_ne_max]
  cases maxValue (some (.obj [(str "max_value", colVal x)])) with
  | ub => rfl
  | segv => rfl
  | ok o => cases o <;> cases status <;> rfl

/-- C89: if the query fits and its result is a number below the greatest `int`, the next one is returned; if there are no
rows, 1.  The status is not changed.  For another value -1 is returned and the status is the row. -/
theorem C89_partial (c : Ctx S) {s s1 s2 : S} {column clause : List Byte} {r : Step} {x : Col}
    (hl : (maxQuery column clause).length < 128) (hn : c.eng.names s (maxQuery column clause) = [str "max_value"])
    (h1 : start (bare c) s (some (maxQuery column clause)) = .ok (.stepped [] s1 r))
    (h2 : Yields c.eng (maxQuery column clause) [] 1 s1 r [[x]] s2) (fuel : Nat) (hf : 1 < fuel) (status : Status) :
    (∀ n : Int, x = .int n → -2 ^ 31 ≤ n → n < 2 ^ 31 - 1 →
      nextInt c fuel s column clause status = .ok (some (s2, n + 1, status))) ∧
    (x = .null → nextInt c fuel s column clause status = .ok (some (s2, 1, status))) ∧
    (∀ t, x = .text t → status ≠ none → ∃ st, nextInt c fuel s column clause status = .ok (some (s2, -1, st))) := by
  rw [nextInt_value c hl hn h1 h2 fuel hf]
  refine ⟨?_, ?_, ?_⟩
  · rintro n rfl h3 h4
    simp only [maxValue, colVal, List.lookup, beq_self_eq_true]
    rw [toIntx_id h3 (by omega)]
    unfold succInt
    rw [if_neg (by omega)]
    rfl
  · rintro rfl
    simp [maxValue, colVal, List.lookup, Res.bind]
  · rintro t rfl hs
    cases status with
    | none => exact (hs rfl).elim
    | some st => simp [maxValue, colVal, List.lookup, Res.bind]

/-- C89 is false for numbers that are no `int`: from `2^31` to `2^32 - 1` the result is `2^32` too small, and behind the
greatest `int` the addition overflows -/
theorem C89_int_false (c : Ctx S) {s s1 s2 : S} {column clause : List Byte} {r : Step} {n : Int}
    (hl : (maxQuery column clause).length < 128) (hn : c.eng.names s (maxQuery column clause) = [str "max_value"])
    (h1 : start (bare c) s (some (maxQuery column clause)) = .ok (.stepped [] s1 r))
    (h2 : Yields c.eng (maxQuery column clause) [] 1 s1 r [[.int n]] s2) (fuel : Nat) (hf : 1 < fuel) (status : Status) :
    (n = 2 ^ 31 - 1 → nextInt c fuel s column clause status = .ub) ∧
    (2 ^ 31 ≤ n → n < 2 ^ 32 → nextInt c fuel s column clause status = .ok (some (s2, n + 1 - 2 ^ 32, status))) := by
  rw [nextInt_value c hl hn h1 h2 fuel hf]
  simp only [maxValue, colVal, List.lookup, beq_self_eq_true]
  constructor
  · rintro rfl
    rw [toIntx_id (by decide) (by decide)]
    rfl
  · intro h3 h4
    have e : cInt (toU64 n) = n - 2 ^ 32 := by
      have := Verif.Json.Props.cInt_u64 n
      omega
    rw [e]
    unfold succInt
    rw [if_neg (by omega)]
    simp only [Res.map, Res.bind, Res.ok.injEq, Option.some.injEq, Prod.mk.injEq, and_true, true_and]
    omega

/-- C89: a failure gives -1 and is reported; without a status a NULL pointer is written through -/
theorem C89_failed (c : Ctx S) (fuel : Nat) {s s1 : S} {column clause : List Byte} {code : Nat} {msg : List Byte}
    {left : Bool} (hl : (maxQuery column clause).length < 128)
    (h : Failure (bare c) s (maxQuery column clause) s1 code msg left) (hc : code ≠ sqliteDone) :
    (∀ st, nextInt c fuel s column clause (some st) =
      .ok (some (s1, -1, some (some (.obj [(kError, .atom (.str msg))]))))) ∧
    nextInt c fuel s column clause none = .ub := by
  have hq : nextQuery column clause = maxQuery column clause := by
    unfold nextQuery Dbm.cut
    exact List.take_of_length_le (by simpa [maxQuery] using (show (maxQuery column clause).length ≤ 127 by omega))
  have h1 := (C84_failed (bare c) fuel h hc).2.1
  constructor
  · intro st
    unfold nextInt
    rw [hq, show ({ c with infos := none, data := none } : Ctx S) = bare c from rfl, h1]
    simp [Res.bind, errorOf, List.lookup]
  · unfold nextInt
    rw [hq, show ({ c with infos := none, data := none } : Ctx S) = bare c from rfl, h1]
    simp [Res.bind, errorOf, List.lookup]

/-- C89 is false for a query of 128 bytes and more: whatever the query would give, its first 127 bytes are run -/
theorem C89_long_false (c : Ctx S) (fuel : Nat) {s s1 : S} {column clause : List Byte} {code : Nat} {msg : List Byte}
    {left : Bool} (hl : 128 ≤ (maxQuery column clause).length)
    (h : Failure (bare c) s ((maxQuery column clause).take 127) s1 code msg left) (hc : code ≠ sqliteDone) (st : Option Val) :
    (maxQuery column clause).take 127 ≠ maxQuery column clause ∧
    nextInt c fuel s column clause (some st) = .ok (some (s1, -1, some (some (.obj [(kError, .atom (.str msg))])))) := by
  refine ⟨fun e => ?_, ?_⟩
  · have := congrArg List.length e
    rw [List.length_take] at this
    omega
  · have hq : nextQuery column clause = (maxQuery column clause).take 127 := rfl
    have h1 := (C84_failed (bare c) fuel h hc).2.1
    unfold nextInt
    rw [hq, show ({ c with infos := none, data := none } : Ctx S) = bare c from rfl, h1]
    simp [Res.bind, errorOf, List.lookup]

/-- an engine that gives one row with one value for every text that ends with a semicolon -/
def single (x : Col) : Engine Unit where
  prep _ sql := if sql.getLast? = some 59 then .ok [] else .error 1
  names _ _ := [str "max_value"]
  step _ _ _ k := ((), if k = 0 then .row [x] else .done)
  rowid _ := 5
  changes _ := 1
  totalChanges _ := 1
  errmsg _ := [101]

theorem single_start (x : Col) (column clause : List Byte) :
    start (bare (plain (single x))) () (some (maxQuery column clause)) = .ok (.stepped [] () (.row [x])) := by
  have hp : (single x).prep () (maxQuery column clause) = .ok [] := by
    simp only [single]
    rw [if_pos]
    rw [maxQuery, List.getLast?_append]
    rfl
  simp only [start, bare, plain, hp]
  rfl

theorem single_yields (x : Col) (sql : List Byte) : Yields (single x) sql [] 1 () (.row [x]) [[x]] () :=
  .row (s' := ()) rfl (.done _ _)

example : nextInt (plain (single (.int 41))) 2 () (str "id") (str "from t") none = .ok (some ((), 42, none)) :=
  (C89_partial (plain (single (.int 41))) (by decide) rfl (single_start _ _ _) (single_yields _ _) 2 (by decide) none).1
    41 rfl (by decide) (by decide)

/-- the next number after 4294967295 is 0 -/
example : nextInt (plain (single (.int 4294967295))) 2 () (str "id") (str "from t") none = .ok (some ((), 0, none)) :=
  (C89_int_false (plain (single (.int 4294967295))) (by decide) rfl (single_start _ _ _) (single_yields _ _) 2 (by decide)
    none).2 (by decide) (by decide)

/-- a clause of 128 letters -/
example : ∃ st, nextInt (plain (single (.int 41))) 2 () (str "id") (List.replicate 128 97) (some none) =
    .ok (some ((), -1, st)) :=
  ⟨_, (C89_long_false (plain (single (.int 41))) 2 (s := ()) (s1 := ()) (left := false) (code := 1)
    (msg := failMsg [110] 1 ((maxQuery (str "id") (List.replicate 128 97)).take 127) [101])
    (by simp only [maxQuery, List.length_append, List.length_replicate]; omega)
    (.inl ⟨by
      have hp : (single (.int 41)).prep () ((maxQuery (str "id") (List.replicate 128 97)).take 127) = .error 1 := by
        simp only [single]
        rw [if_neg (by decide +kernel)]
      simp only [start, bare, plain, hp]
      rfl, rfl⟩) (by decide) none).2⟩

end Verif.Sqlite.Props
