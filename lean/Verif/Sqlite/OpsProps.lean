import Verif.Sqlite.Ops
import Verif.Sqlite.BindProps
import Verif.Json.Entries
import Verif.Json.MergeProps

/-!
# Properties of the operations on a database

C82: rows.  C83: selection.  C84: selection of one row.
-/

namespace Verif.Sqlite.Props

open Verif Verif.Sqlite
open Verif.Json (Val insertKey mergeVal mergeable mergeF)
open Verif.Dbm (str)

variable {S : Type}

/-! ## rows -/

/-- the first row of the table with this column has the flag -/
def Flagged (infos : Option (List Info)) (flag : Info → Bool) (name : List Byte) : Prop :=
  ∃ pre i post, infos = some (pre ++ i :: post) ∧ i.col = name ∧ (∀ j ∈ pre, j.col ≠ name) ∧ flag i = true

theorem flagOf_iff (infos : Option (List Info)) (flag : Info → Bool) (name : List Byte) :
    flagOf infos flag name = true ↔ Flagged infos flag name := by
  unfold flagOf Flagged
  cases infos with
  | none => simp
  | some is =>
    simp only
    constructor
    · intro h
      cases hf : is.find? (fun i => i.col == name) with
      | none => rw [hf] at h; simp at h
      | some i =>
        rw [hf] at h
        obtain ⟨h1, pre, post, h2, h3⟩ := List.find?_eq_some_iff_append.mp hf
        exact ⟨pre, i, post, by rw [h2], by simpa using h1, fun j hj => by simpa using h3 j hj, h⟩
    · rintro ⟨pre, i, post, h1, h2, h3, h4⟩
      simp only [Option.some.injEq] at h1
      have : is.find? (fun i => i.col == name) = some i := by
        rw [List.find?_eq_some_iff_append]
        exact ⟨by simpa using h2, pre, post, h1, fun j hj => by simpa using h3 j hj⟩
      rw [this]
      exact h4

/-- the columns that are returned -/
def returned (infos : Option (List Info)) (cols : List (List Byte × Col)) : List (List Byte × Col) :=
  cols.filter fun p => !flagOf infos (·.noReturn) p.1

theorem rowLoop_obj (infos : Option (List Info)) (cols : List (List Byte × Col)) (obj : List (List Byte × Val))
    (single : Option Val) (b : Bool) :
    (rowLoop infos cols obj single b).1 =
      (returned infos cols).foldl (fun o p => insertKey p.1 (colVal p.2) o) obj := by
  induction cols generalizing obj single b with
  | nil => rfl
  | cons p cols ih =>
    obtain ⟨name, c⟩ := p
    rw [rowLoop]
    cases h : flagOf infos (·.noReturn) name with
    | true => simp [ih, returned, h]
    | false => simp [ih, returned, h]

theorem foldl_lookup (l : List (List Byte × Col)) (obj : List (List Byte × Val)) (k : List Byte) :
    (l.foldl (fun o p => insertKey p.1 (colVal p.2) o) obj).lookup k =
      ((l.reverse.lookup k).map colVal).or (obj.lookup k) := by
  induction l generalizing obj with
  | nil => simp
  | cons p l ih =>
    rw [List.foldl_cons, ih, Json.lookup_insertKey, List.reverse_cons, List.lookup_append]
    obtain ⟨n, c⟩ := p
    cases l.reverse.lookup k with
    | some x => simp
    | none =>
      by_cases h : k = n
      · subst h; simp
      · simp [h, List.lookup_cons, beq_false_of_ne h]

theorem foldl_nodup (l : List (List Byte × Col)) (obj : List (List Byte × Val)) (h : (obj.map (·.1)).Nodup) :
    ((l.foldl (fun o p => insertKey p.1 (colVal p.2) o) obj).map (·.1)).Nodup := by
  induction l generalizing obj with
  | nil => exact h
  | cons p l ih => exact ih _ (Json.nodup_insertKey h)

theorem foldl_fresh (l : List (List Byte × Col)) (obj : List (List Byte × Val))
    (h : (obj.map (·.1) ++ l.map (·.1)).Nodup) :
    l.foldl (fun o p => insertKey p.1 (colVal p.2) o) obj = obj ++ l.map fun p => (p.1, colVal p.2) := by
  induction l generalizing obj with
  | nil => simp
  | cons p l ih =>
    have hp : p.1 ∉ obj.map (·.1) := by
      intro hm
      rw [List.map_cons, List.nodup_append] at h
      exact h.2.2 _ hm _ (by simp) rfl
    have hi : insertKey p.1 (colVal p.2) obj = obj ++ [(p.1, colVal p.2)] := by
      clear ih h
      induction obj with
      | nil => rfl
      | cons a obj ih =>
        simp only [List.map_cons, List.mem_cons, not_or] at hp
        rw [insertKey, if_neg (fun e => hp.1 e.symm), ih hp.2]
        rfl
    rw [List.foldl_cons, hi, ih _ (by simpa using h)]
    simp

/-- C82: a row gives an object with the returned columns, the value of each is the one of the (last) column of that name -/
theorem C82_row (infos : Option (List Info)) (cols : List (List Byte × Col))
    (h : ¬ ∃ name c, cols = [(name, c)] ∧ ¬ Flagged infos (·.noReturn) name ∧ Flagged infos (·.noLabel) name) :
    ∃ kvs, rowVal infos cols = .ok (.obj kvs) ∧ (kvs.map (·.1)).Nodup ∧
      (∀ k v, kvs.lookup k = some v ↔ ∃ pre c post, cols = pre ++ (k, c) :: post ∧ ¬ Flagged infos (·.noReturn) k ∧
        (∀ q ∈ post, q.1 ≠ k) ∧ v = colVal c) ∧
      ((cols.map (·.1)).Nodup → kvs = (returned infos cols).map fun p => (p.1, colVal p.2)) := by
  refine ⟨(rowLoop infos cols [] none false).1, ?_, ?_, ?_, ?_⟩
  · unfold rowVal
    simp only
    rw [if_neg]
    rintro ⟨h1, h2⟩
    obtain ⟨⟨name, c⟩, rfl⟩ := List.length_eq_one_iff.mp h1
    refine h ⟨name, c, rfl, ?_, ?_⟩
    · rw [← flagOf_iff]
      intro hr
      rw [rowLoop, if_pos hr] at h2
      simp [rowLoop] at h2
    · rw [← flagOf_iff]
      rw [rowLoop] at h2
      split at h2
      · simp [rowLoop] at h2
      · exact h2
  · rw [rowLoop_obj]
    exact foldl_nodup _ _ (by simp)
  · intro k v
    rw [rowLoop_obj, foldl_lookup]
    simp only [List.lookup_nil, Option.or_none, Option.map_eq_some_iff]
    constructor
    · rintro ⟨c, hc, rfl⟩
      have hk : flagOf infos (·.noReturn) k = false := by
        have : (k, c) ∈ (returned infos cols).reverse := by
          obtain ⟨l1, l2, e, -⟩ := List.lookup_eq_some_iff.mp hc
          rw [e]; simp
        rw [List.mem_reverse] at this
        simpa [returned] using (List.mem_filter.mp this).2
      have : ∃ pre post, cols = pre ++ (k, c) :: post ∧ ∀ q ∈ post, q.1 ≠ k := by
        clear h
        induction cols with
        | nil => simp [returned] at hc
        | cons p cols ih =>
          unfold returned at hc ih
          rw [List.filter_cons] at hc
          cases hl : (cols.filter fun p => !flagOf infos (·.noReturn) p.1).reverse.lookup k with
          | some c' =>
            have e : c' = c := by
              split at hc
              · rw [List.reverse_cons, List.lookup_append, hl] at hc; simpa using hc
              · rw [hl] at hc; simpa using hc
            obtain ⟨pre, post, h1, h2⟩ := ih (by rw [hl, e])
            exact ⟨p :: pre, post, by rw [h1]; rfl, h2⟩
          | none =>
            split at hc
            · rw [List.reverse_cons, List.lookup_append, hl] at hc
              obtain ⟨n, x⟩ := p
              simp only [Option.none_or, List.lookup_cons, List.lookup_nil] at hc
              cases hb : k == n with
              | false => rw [hb] at hc; simp at hc
              | true =>
                rw [hb] at hc
                simp only [Option.some.injEq] at hc
                have hb' : k = n := by simpa using hb
                subst hb'; subst hc
                refine ⟨[], cols, rfl, fun q hq he => ?_⟩
                obtain ⟨qn, qc⟩ := q
                simp only at he
                subst he
                have : (qn, qc) ∈ (cols.filter fun p => !flagOf infos (·.noReturn) p.1).reverse := by
                  simp [hq, hk]
                rw [List.lookup_eq_none_iff] at hl
                have := hl _ this
                simp at this
            · rw [hl] at hc; simp at hc
      obtain ⟨pre, post, h1, h2⟩ := this
      exact ⟨pre, c, post, h1, by rw [← flagOf_iff, hk]; simp, h2, rfl⟩
    · rintro ⟨pre, c, post, rfl, hk, hp, rfl⟩
      refine ⟨c, ?_, rfl⟩
      have hk' : flagOf infos (·.noReturn) k = false := by
        rw [← Bool.not_eq_true, flagOf_iff]; exact hk
      have hn : (returned infos post).reverse.lookup k = none := by
        rw [List.lookup_eq_none_iff]
        intro p hm
        rw [List.mem_reverse] at hm
        have := hp p (List.mem_filter.mp hm).1
        simpa [bne_iff_ne] using fun e => this e.symm
      have : returned infos (pre ++ (k, c) :: post) = returned infos pre ++ (k, c) :: returned infos post := by
        simp [returned, hk']
      rw [this, List.reverse_append, List.reverse_cons, List.lookup_append, List.lookup_append, hn]
      simp
  · intro hd
    rw [rowLoop_obj, foldl_fresh]
    · rfl
    · rw [List.map_nil, List.nil_append]
      exact List.Nodup.sublist (List.Sublist.map _ List.filter_sublist) hd

/-- C82: a row of a single column without label gives the value alone -/
theorem C82_bare (infos : Option (List Info)) (name : List Byte) (c : Col) (h1 : ¬ Flagged infos (·.noReturn) name)
    (h2 : Flagged infos (·.noLabel) name) : rowVal infos [(name, c)] = .ok (colVal c) := by
  have e1 : flagOf infos (·.noReturn) name = false := by rw [← Bool.not_eq_true, flagOf_iff]; exact h1
  have e2 := (flagOf_iff _ _ _).mpr h2
  simp [rowVal, rowLoop, e1, e2]

/-- what the caller gets for a column: integers, doubles and NULL as they are, of a text what is before the first
NUL, of a blob its size -/
inductive ColumnIs : Col → Val → Prop where
  | int (i : Int) : ColumnIs (.int i) (.atom (.i64 i))
  | float (b : UInt64) : ColumnIs (.float b) (.atom (.dbl b))
  | null : ColumnIs .null (.atom .null)
  | text (s : List Byte) : 0 ∉ s → ColumnIs (.text s) (.atom (.str s))
  | cut (s r : List Byte) : 0 ∉ s → ColumnIs (.text (s ++ 0 :: r)) (.atom (.str s))
  | blob (b : List Byte) : ColumnIs (.blob b) (.atom (.blob b.length))

/-- C82: the value of a column -/
theorem C82_kinds (c : Col) (v : Val) : colVal c = v ↔ ColumnIs c v := by
  have hs : ∀ s : List Byte, 0 ∉ s → s.takeWhile (· != 0) = s := by
    intro s
    induction s with
    | nil => intro _; rfl
    | cons x s ih =>
      intro h0
      simp only [List.mem_cons, not_or] at h0
      rw [List.takeWhile_cons, if_pos (by simpa using fun e => h0.1 e.symm), ih h0.2]
  constructor
  · rintro rfl
    cases c with
    | int i => exact .int i
    | float b => exact .float b
    | null => exact .null
    | blob b => exact .blob b
    | text s =>
      by_cases h : 0 ∈ s
      · have key : ∀ s : List Byte, 0 ∈ s → ∃ a r, s = a ++ 0 :: r ∧ 0 ∉ a := by
          intro s
          induction s with
          | nil => intro h; cases h
          | cons x s ih =>
            intro h
            by_cases hx : x = 0
            · exact ⟨[], s, by simp [hx], by simp⟩
            · obtain ⟨a, r, e, ha⟩ := ih (by simpa [Ne.symm hx] using h)
              exact ⟨x :: a, r, by rw [e]; rfl, by simpa [ha] using Ne.symm hx⟩
        obtain ⟨a, r, rfl, ha⟩ := key s h
        have e : colVal (.text (a ++ 0 :: r)) = .atom (.str a) := by
          rw [colVal, List.takeWhile_append_of_pos (by
            intro y hy; simp only [bne_iff_ne, ne_eq]; rintro rfl; exact ha hy)]
          simp
        rw [e]; exact .cut a r ha
      · rw [colVal, hs s h]; exact .text s h
  · intro h
    cases h with
    | text s h => rw [colVal, hs s h]
    | cut s r h =>
      rw [colVal, List.takeWhile_append_of_pos (by
        intro y hy; simp only [bne_iff_ne, ne_eq]; rintro rfl; exact h hy)]
      simp
    | _ => rfl

/-- C82: a value is kept, except that a text is cut at its first NUL and that of a blob only the size is modelled -/
theorem C82_value (a b : Col) (ha : ∀ s, a = .text s → 0 ∉ s) (hb : ∀ s, b = .text s → 0 ∉ s)
    (hab : ∀ x y, ¬ (a = .blob x ∧ b = .blob y)) (h : colVal a = colVal b) : a = b := by
  have hs : ∀ s : List Byte, 0 ∉ s → s.takeWhile (· != 0) = s := by
    intro s
    induction s with
    | nil => intro _; rfl
    | cons x s ih =>
      intro h0
      simp only [List.mem_cons, not_or] at h0
      rw [List.takeWhile_cons, if_pos (by simpa using fun e => h0.1 e.symm), ih h0.2]
  cases a <;> cases b <;> simp [colVal] at h <;> first | rw [h] | rfl | skip
  · rename_i s t
    rw [hs _ (ha s rfl), hs _ (hb t rfl)] at h
    rw [h]
  · exact (hab _ _ ⟨rfl, rfl⟩).elim

/-- C82 is false for texts with a NUL: two different texts give the same value -/
theorem C82_text_false : rowVal none [([97], .text [65, 0, 66])] = rowVal none [([97], .text [65, 0, 67])] := rfl

def rowInfos : List Info :=
  [{ var := [64, 97], col := [97], type := .int }, { var := [64, 98], col := [98], type := .text, noReturn := true },
   { var := [64, 99], col := [99], type := .text, noLabel := true }]

example : Flagged (some rowInfos) (·.noReturn) [98] :=
  ⟨rowInfos.take 1, { var := [64, 98], col := [98], type := .text, noReturn := true }, rowInfos.drop 2, rfl, rfl, by
    simp [rowInfos], rfl⟩

example : rowVal (some rowInfos) [([97], .int 7), ([98], .text [65]), ([99], .null)] =
    .ok (.obj [([97], .atom (.i64 7)), ([99], .atom .null)]) := rfl

example : rowVal (some rowInfos) [([99], .text [65])] = .ok (.atom (.str [65])) := rfl

/-! ## selection -/

/-- the steps of a statement up to its end: from call `k` on, with the result `r` of the call before, the rows are given
one after the other, and then `SQLITE_DONE` -/
inductive Yields (e : Engine S) (sql : List Byte) (binds : List (Nat × Bound)) :
    Nat → S → Step → List (List Col) → S → Prop where
  | done (k : Nat) (s : S) : Yields e sql binds k s .done [] s
  | row {k : Nat} {s s' s'' : S} {cols : List Col} {r : Step} {rows : List (List Col)}
      (h : e.step s sql binds k = (s', r)) (rest : Yields e sql binds (k + 1) s' r rows s'') :
      Yields e sql binds k s (.row cols) (cols :: rows) s''

theorem rowVal_ok (infos : Option (List Info)) (cols : List (List Byte × Col)) : ∃ v, rowVal infos cols = .ok v := by
  by_cases h : ∃ name c, cols = [(name, c)] ∧ ¬ Flagged infos (·.noReturn) name ∧ Flagged infos (·.noLabel) name
  · obtain ⟨name, c, rfl, h1, h2⟩ := h
    exact ⟨_, C82_bare infos name c h1 h2⟩
  · obtain ⟨kvs, h, -⟩ := C82_row infos cols h
    exact ⟨_, h⟩

/-- the value of a row -/
def valueOf (infos : Option (List Info)) (names : List (List Byte)) (cols : List Col) : Val :=
  match rowVal infos (names.zip cols) with
  | .ok v => v
  | _ => .atom .null

theorem rowVal_valueOf (infos : Option (List Info)) (names : List (List Byte)) (cols : List Col) :
    rowVal infos (names.zip cols) = .ok (valueOf infos names cols) := by
  obtain ⟨v, h⟩ := rowVal_ok infos (names.zip cols)
  simp [valueOf, h]

theorem iterLoop_rows (c : Ctx S) (sql : List Byte) (names : List (List Byte)) (binds : List (Nat × Bound)) {k : Nat}
    {s s' : S} {r : Step} {rows : List (List Col)} (hy : Yields c.eng sql binds k s r rows s') (fuel : Nat)
    (hf : rows.length < fuel) (acc : List Val) :
    iterLoop c sql names binds (addRow c.infos) fuel k s r acc =
      .ok (some (s', sqliteDone, acc ++ rows.map (valueOf c.infos names))) := by
  induction hy generalizing fuel acc with
  | done k s =>
    obtain ⟨fuel, rfl⟩ : ∃ n, fuel = n + 1 := ⟨fuel - 1, by omega⟩
    simp [iterLoop, Step.code]
  | @row k s s1 s2 cols r rows h rest ih =>
    obtain ⟨fuel, rfl⟩ : ∃ n, fuel = n + 1 := ⟨fuel - 1, by simp at hf; omega⟩
    rw [iterLoop, if_neg (by simp [Step.code, sqliteRow, sqliteDone]), addRow]
    simp only [visible, rowVal_valueOf, Res.map, Res.bind, h]
    rw [if_neg (by simp), ih fuel (by simpa using hf)]
    simp

/-- the status of a selection can be an array -/
def ArrayStatus : Status → Prop
  | some (some (.arr _)) => True
  | some (some _) => False
  | _ => True

/-- the rows are put behind what is there -/
def withRows : Status → List Val → Status
  | none, _ => none
  | some none, vs => some (some (.arr vs))
  | some (some (.arr old)), vs => some (some (.arr (old ++ vs)))
  | st, _ => st

/-- C83: if the statement gives rows and then ends, all rows are returned in order, behind those that are there already,
and the statement is finalized -/
theorem C83_partial (c : Ctx S) {s s1 s2 : S} {sql : List Byte} {binds : List (Nat × Bound)} {r : Step}
    {rows : List (List Col)} {status : Status} (hst : ArrayStatus status)
    (h1 : start c s (some sql) = .ok (.stepped binds s1 r)) (h2 : Yields c.eng sql binds 1 s1 r rows s2) (fuel : Nat)
    (hf : rows.length < fuel) :
    select c fuel s sql status =
      .ok (some (s2, sqliteDone, withRows status (rows.map (valueOf c.infos (c.eng.names s sql))), false)) := by
  have hr : ¬ (r.code ≠ sqliteRow ∧ r.code ≠ sqliteDone) := by
    cases h2 <;> simp [Step.code, sqliteRow, sqliteDone]
  have key : ∀ st : Status, (iterLoop c sql (c.eng.names s sql) binds (addRow c.infos) fuel 1 s1 r []).map (iterDone st) =
      .ok (some ⟨s2, sqliteDone, st, rows.map (valueOf c.infos (c.eng.names s sql)), false⟩) := by
    intro st
    rw [iterLoop_rows c sql _ binds h2 fuel hf]
    simp [Res.map, iterDone]
  unfold select selectIter
  match status, hst with
  | none, _ => simp only [h1, Res.bind, if_neg hr, key]; rfl
  | some none, _ => simp only [h1, Res.bind, if_neg hr, key]; rfl
  | some (some (.arr old)), _ =>
    simp only [h1, Res.bind, if_neg hr, key]
    simp [Res.map, withRows, mergeInto, mergeable, mergeVal]

/-- C83: a status that is neither NULL nor an array is not accepted -/
theorem C83_object_segv (c : Ctx S) (fuel : Nat) (s : S) (sql : List Byte) (status : Status) (h : ¬ ArrayStatus status) :
    select c fuel s sql status = .segv := by
  unfold select selectIter
  match status, h with
  | some (some (.obj _)), _ => rfl
  | some (some (.atom _)), _ => rfl
  | none, h => exact (h trivial).elim
  | some none, h => exact (h trivial).elim
  | some (some (.arr _)), h => exact (h trivial).elim

theorem iterLoop_hangs (c : Ctx S) (sql : List Byte) (names : List (List Byte)) (binds : List (Nat × Bound))
    (hn : ∀ s k, (c.eng.step s sql binds (k + 1)).2.code ≠ sqliteDone) (fuel k : Nat) (s : S) (r : Step)
    (hr : r.code ≠ sqliteDone) (acc : List Val) :
    iterLoop c sql names binds (addRow c.infos) fuel (k + 1) s r acc = .ok none := by
  induction fuel generalizing k s r acc with
  | zero => rfl
  | succ fuel ih =>
    obtain ⟨v, hv⟩ := rowVal_ok c.infos (visible names r)
    rw [iterLoop, if_neg hr, addRow, hv]
    exact ih _ _ _ (hn _ _) _

/-- C83 is false: if the statement gives a row and then never `SQLITE_DONE` (it fails again and again), the selection does
not end, whatever the fuel -/
theorem C83_hang_false (c : Ctx S) {s s1 : S} {sql : List Byte} {binds : List (Nat × Bound)} {cols : List Col}
    {status : Status} (hst : ArrayStatus status) (h1 : start c s (some sql) = .ok (.stepped binds s1 (.row cols)))
    (hn : ∀ s k, (c.eng.step s sql binds (k + 1)).2.code ≠ sqliteDone) (fuel : Nat) :
    select c fuel s sql status = .ok none := by
  have hr : ¬ ((Step.row cols).code ≠ sqliteRow ∧ (Step.row cols).code ≠ sqliteDone) := by simp [Step.code]
  have key : iterLoop c sql (c.eng.names s sql) binds (addRow c.infos) fuel 1 s1 (.row cols) [] = .ok none :=
    iterLoop_hangs c sql _ binds hn fuel 0 s1 _ (by simp [Step.code, sqliteRow, sqliteDone]) []
  unfold select selectIter
  match status, hst with
  | none, _ => simp only [h1, Res.bind, if_neg hr, key]; rfl
  | some none, _ => simp only [h1, Res.bind, if_neg hr, key]; rfl
  | some (some (.arr old)), _ => simp only [h1, Res.bind, if_neg hr, key]; rfl

/-- the message of a statement that was not run, or whose first step failed -/
def Failure (c : Ctx S) (s : S) (sql : List Byte) (s1 : S) (code : Nat) (msg : List Byte) (left : Bool) : Prop :=
  (start c s (some sql) = .ok (.failed code msg left) ∧ s1 = s) ∨
  (∃ binds r, start c s (some sql) = .ok (.stepped binds s1 r) ∧ r.code = code ∧ code ≠ sqliteRow ∧ code ≠ sqliteDone ∧
    msg = failMsg c.name code sql (c.eng.errmsg s1) ∧ left = true)

/-- C83: a failure is reported in a new object -/
theorem C83_failed (c : Ctx S) (fuel : Nat) {s s1 : S} {sql : List Byte} {code : Nat} {msg : List Byte} {left : Bool}
    (h : Failure c s sql s1 code msg left) (hc : code ≠ sqliteDone) :
    select c fuel s sql (some none) = .ok (some (s1, code, some (some (.obj [(kError, .atom (.str msg))])), left)) ∧
    select c fuel s sql none = .ok (some (s1, code, none, left)) := by
  unfold select selectIter
  rcases h with ⟨h, rfl⟩ | ⟨binds, r, h, rfl, h1, h2, rfl, rfl⟩
  · simp [h, Res.bind, Res.map, iterFail, acceptResult, objAppend, insertKey, setError, List.lookup, hc]
  · simp [h, Res.bind, Res.map, iterFail, acceptResult, objAppend, insertKey, setError, List.lookup, h1, h2]

/-- C83 is false for a failure if there is an array already -/
theorem C83_array_false (c : Ctx S) (fuel : Nat) {s s1 : S} {sql : List Byte} {code : Nat} {msg : List Byte}
    {left : Bool} (h : Failure c s sql s1 code msg left) (old : List Val) :
    select c fuel s sql (some (some (.arr old))) = .segv := by
  unfold select selectIter
  rcases h with ⟨h, rfl⟩ | ⟨binds, r, h, rfl, h1, h2, rfl, rfl⟩
  · simp [h, Res.bind, Res.map, iterFail, acceptResult, objAppend]
  · simp [h, Res.bind, Res.map, iterFail, acceptResult, objAppend, setError, h1, h2]

/-- an engine that gives the same steps for every statement without parameters -/
def steps (l : Nat → Step) : Engine Unit where
  prep _ _ := .ok []
  names _ _ := [[97], [98]]
  step _ _ _ k := ((), l k)
  rowid _ := 5
  changes _ := 1
  totalChanges _ := 1
  errmsg _ := [101]

def plain (e : Engine S) : Ctx S := { eng := e, name := [110], infos := none, data := none }

example : select (plain (steps fun k => if k < 2 then .row [.int k, .null] else .done)) 3 () [120] (some none) =
    .ok (some ((), 101, some (some (.arr [.obj [([97], .atom (.i64 0)), ([98], .atom .null)],
      .obj [([97], .atom (.i64 1)), ([98], .atom .null)]])), false)) :=
  C83_partial (plain (steps fun k => if k < 2 then .row [.int k, .null] else .done)) (s := ()) (sql := [120])
    (status := some none) trivial (binds := []) (s1 := ()) (rows := [[.int 0, .null], [.int 1, .null]]) rfl
    (.row (s' := ()) rfl (.row (s' := ()) rfl (.done _ _))) 3 (by decide)

/-- the statement fails after the first row -/
example (fuel : Nat) : select (plain (steps fun k => if k = 0 then .row [.int k, .null] else .err 5)) fuel () [120] none =
    .ok none :=
  C83_hang_false (plain (steps fun k => if k = 0 then .row [.int k, .null] else .err 5)) (s := ()) (sql := [120])
    (status := none) trivial (binds := []) (s1 := ()) (cols := [.int 0, .null]) rfl
    (fun _ k => by simp [plain, steps, Step.code, sqliteDone]) fuel

example : Failure (plain (steps fun _ => .err 5)) () [120] () 5 (failMsg [110] 5 [120] [101]) true :=
  .inr ⟨[], .err 5, rfl, rfl, by decide, by decide, rfl, rfl⟩

/-- C83 is false: after a failure of the first step the statement is not finalized -/
theorem C83_left_false (c : Ctx S) (fuel : Nat) {s s1 : S} {sql : List Byte} {binds : List (Nat × Bound)} {n : Nat}
    (h : start c s (some sql) = .ok (.stepped binds s1 (.err n))) (h1 : n ≠ sqliteRow) (h2 : n ≠ sqliteDone) :
    ∃ st, select c fuel s sql (some none) = .ok (some (s1, n, st, true)) :=
  ⟨_, (C83_failed c fuel (.inr ⟨binds, .err n, h, rfl, h1, h2, rfl, rfl⟩) h2).1⟩

/-! ## one row -/

/-- the columns of a row merged into an object: a column wins -/
theorem mergeF_row (a b : List (List Byte × Val)) (hb : (b.map (·.1)).Nodup) (hv : ∀ e ∈ b, ∃ x, e.2 = .atom x)
    (k : List Byte) : (mergeF a b).lookup k = (b.lookup k).or (a.lookup k) := by
  rw [Json.lookup_mergeF a b hb]
  cases h : b.lookup k with
  | none => rfl
  | some y =>
    obtain ⟨l1, l2, e, -⟩ := List.lookup_eq_some_iff.mp h
    obtain ⟨x, hx⟩ := hv (k, y) (by rw [e]; simp)
    simp only at hx
    subst hx
    cases a.lookup k with
    | none => rfl
    | some z => cases z <;> simp [mergeVal]

/-- C84: the first row is returned, the others are ignored; without a row the status stays as it is -/
theorem C84_rows (c : Ctx S) {s s1 s2 : S} {sql : List Byte} {binds : List (Nat × Bound)} {r : Step}
    {rows : List (List Col)} (h1 : start c s (some sql) = .ok (.stepped binds s1 r))
    (h2 : Yields c.eng sql binds 1 s1 r rows s2) (fuel : Nat) (hf : rows.length < fuel) :
    (rows = [] → ∀ status, select1 c fuel s sql status = .ok (some (s2, sqliteDone, status))) ∧
    (∀ cols rest, rows = cols :: rest →
      select1 c fuel s sql none = .ok (some (s2, sqliteDone, none)) ∧
      select1 c fuel s sql (some none) =
        .ok (some (s2, sqliteDone, some (some (valueOf c.infos (c.eng.names s sql) cols))))) ∧
    (∀ cols rest a b, rows = cols :: rest → valueOf c.infos (c.eng.names s sql) cols = .obj b →
      ∃ kvs, select1 c fuel s sql (some (some (.obj a))) = .ok (some (s2, sqliteDone, some (some (.obj kvs)))) ∧
      ∀ k, kvs.lookup k = (b.lookup k).or (a.lookup k)) := by
  have h := C83_partial c (status := some none) trivial h1 h2 fuel hf
  have hs : ∀ status, select1 c fuel s sql status = match (generalizing := false) rows with
      | [] => .ok (some (s2, sqliteDone, status))
      | cols :: _ => .ok (some (s2, sqliteDone, giveOne status (valueOf c.infos (c.eng.names s sql) cols))) := by
    intro status
    unfold select1
    rw [h]
    cases rows <;> simp [Res.bind, withRows, errorOf, firstOf]
  refine ⟨?_, ?_, ?_⟩
  · rintro rfl status
    exact hs status
  · rintro cols rest rfl
    exact ⟨hs none, hs (some none)⟩
  · rintro cols rest a b rfl hv
    refine ⟨mergeF a b, ?_, ?_⟩
    · rw [hs]
      simp only [hv]
      simp [giveOne, mergeInto, mergeable, mergeVal]
    · have hz := rowVal_valueOf c.infos (c.eng.names s sql) cols
      rw [hv] at hz
      by_cases hbare : ∃ name x, (c.eng.names s sql).zip cols = [(name, x)] ∧ ¬ Flagged c.infos (·.noReturn) name ∧
          Flagged c.infos (·.noLabel) name
      · obtain ⟨name, x, e, g1, g2⟩ := hbare
        rw [e, C82_bare c.infos name x g1 g2] at hz
        cases x <;> simp [colVal] at hz
      · obtain ⟨kvs, g1, g2, g3, -⟩ := C82_row c.infos _ hbare
        rw [g1] at hz
        simp only [Res.ok.injEq, Val.obj.injEq] at hz
        subst hz
        refine mergeF_row a kvs g2 ?_
        rintro ⟨k, v⟩ he
        have hl : ∃ w, kvs.lookup k = some w := by
          have := (Json.lookup_isSome (l := kvs)).mpr (List.mem_map.mpr ⟨_, he, rfl⟩)
          exact Option.isSome_iff_exists.mp this
        obtain ⟨w, hw⟩ := hl
        have : w = v := by
          have hmem := List.lookup_eq_some_iff.mp hw
          obtain ⟨l1, l2, e, -⟩ := hmem
          subst e
          rw [List.map_append, List.map_cons] at g2
          rcases List.mem_append.mp he with hm | hm
          · exact (List.nodup_append.mp g2 |>.2.2 k (List.mem_map.mpr ⟨_, hm, rfl⟩) k (by simp) rfl).elim
          · rcases List.mem_cons.mp hm with hm | hm
            · simp only [Prod.mk.injEq] at hm; exact hm.2.symm
            · have := List.nodup_append.mp g2 |>.2.1
              rw [List.nodup_cons] at this
              exact (this.1 (List.mem_map.mpr ⟨_, hm, rfl⟩)).elim
        subst this
        obtain ⟨_, x, _, _, _, _, e⟩ := (g3 k w).mp hw
        subst e
        cases x <;> exact ⟨_, rfl⟩

/-- C84: a failure is added to the status under `error` -/
theorem C84_failed (c : Ctx S) (fuel : Nat) {s s1 : S} {sql : List Byte} {code : Nat} {msg : List Byte} {left : Bool}
    (h : Failure c s sql s1 code msg left) (hc : code ≠ sqliteDone) :
    select1 c fuel s sql none = .ok (some (s1, code, none)) ∧
    select1 c fuel s sql (some none) = .ok (some (s1, code, some (some (.obj [(kError, .atom (.str msg))])))) ∧
    (∀ a, a.lookup kError = none → select1 c fuel s sql (some (some (.obj a))) =
      .ok (some (s1, code, some (some (.obj (insertKey kError (.atom (.str msg)) a)))))) ∧
    (∀ a x, (∀ t, x ≠ .str t) → a.lookup kError = some (.atom x) →
      select1 c fuel s sql (some (some (.obj a))) = .segv) := by
  have h1 := (C83_failed c fuel h hc).1
  refine ⟨?_, ?_, ?_, ?_⟩
  · simp [select1, h1, Res.bind, errorOf, List.lookup, giveError, acceptResult, Res.map]
  · simp [select1, h1, Res.bind, errorOf, List.lookup, giveError, acceptResult, Res.map, objAppend, insertKey]
  · intro a ha
    simp [select1, h1, Res.bind, errorOf, List.lookup, giveError, acceptResult, Res.map, objAppend, ha]
  · intro a x hx ha
    simp only [select1, h1, Res.bind, errorOf, List.lookup, giveError, acceptResult, Res.map, objAppend, ha, Option.getD_some,
      beq_self_eq_true]

example : select1 (plain (steps fun k => if k < 2 then .row [.int k, .null] else .done)) 3 () [120]
    (some (some (.obj [([99], .atom .null), ([97], .atom (.i64 9))]))) =
    .ok (some ((), 101, some (some (.obj [([99], .atom .null), ([97], .atom (.i64 0)), ([98], .atom .null)])))) := by
  simp [select1, select, selectIter, start, plain, steps, bindRun, Res.bind, Res.map, unboundOf, bindsOf, Step.code,
    sqliteRow, sqliteDone, iterLoop, addRow, rowVal, rowLoop, visible, iterDone, errorOf, firstOf, giveOne, mergeInto,
    mergeable, mergeVal, mergeF, flagOf, insertKey, colVal, List.lookup]

end Verif.Sqlite.Props
