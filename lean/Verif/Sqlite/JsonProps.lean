import Verif.Sqlite.Json
import Verif.Sqlite.BindProps
import Verif.Json.SelectProps

/-!
# Properties of the way from JSON objects to SQL

C75: the data taken from an object.  C76: the table made from an object.  C77: the dynamic parts of statements.
C78: insertion of an array of objects.
-/

namespace Verif.Sqlite.Props

open Verif Verif.Sqlite Verif.Json

/-- what a JSON value is in a database -/
def jsonCell : Val → Option Cell
  | .atom .null => some .null
  | .atom (.i64 n) => some (.int n)
  | .atom (.str s) => some (.text s)
  | _ => none

/-- the value can be stored in the column -/
def Fits (info : Info) (v : Val) : Prop :=
  v = .atom .null ∨
    match info.type with
    | .int => ∃ n : Int, v = .atom (.i64 n) ∧ -2 ^ 31 ≤ n ∧ n < 2 ^ 31
    | .int64 => ∃ n, v = .atom (.i64 n)
    | .text => ∃ s, v = .atom (.str s) ∧ 0 ∉ s
    | _ => False

/-- data that were not used before -/
def Clean (d : Data) : Prop := d.hasValue = false ∧ d.isNull = false ∧ d.size = 0

instance (v : Val) : Decidable (v = .atom .null) := by
  cases v with
  | atom a => exact if h : a = .null then .isTrue (by rw [h]) else .isFalse (by simpa using h)
  | arr xs => exact .isFalse (by simp)
  | obj xs => exact .isFalse (by simp)

/-- what a row holds when the object was read: its old data if there is nothing in the object for it, or null for a
column that cannot be null; else the value -/
def Holds (info : Info) (old new : Data) : Option Val → Prop
  | none => new = old
  | some v => if v = .atom .null ∧ info.notNull = true then new = old
    else new.hasValue = true ∧ ∃ c, jsonCell v = some c ∧ Means info new c

theorem toIntx_small {n : Int} (h1 : -2 ^ 31 ≤ n) (h2 : n < 2 ^ 31) : toIntx (.atom (.i64 n)) = some n := by
  simp only [toIntx, Option.some.injEq]
  have := Verif.Json.Props.cInt_u64 n
  omega

/-- one row -/
theorem popRow_fits {hasErr : Bool} {info : Info} {d : Data} {v : Val} (hf : Fits info v) (hc : Clean d) :
    ∃ r, popRow hasErr info d v = .ok r ∧ r ≠ .error ∧ (r = .keep ↔ v = .atom .null ∧ info.notNull = true) ∧
      (∀ d', r = .set d' → Holds info d d' (some v)) ∧ (r = .keep → Holds info d d (some v)) := by
  obtain ⟨c1, c2, c3⟩ := hc
  by_cases hv : v = .atom .null
  · subst hv
    refine ⟨_, rfl, by split <;> simp, by split <;> simp_all, ?_, ?_⟩
    · intro d' hd
      split at hd
      · cases hd
      · rename_i hn
        cases hd
        simp [Holds, hn, jsonCell, Means]
    · intro hd
      split at hd
      · rename_i hn
        simp [Holds, hn]
      · cases hd
  · rcases hf with hf | hf
    · exact absurd hf hv
    · split at hf
      · rename_i ht
        obtain ⟨n, rfl, h1, h2⟩ := hf
        refine ⟨.set { d with i := n, hasValue := true }, ?_, by simp, by simp, ?_, by simp⟩
        · simp only [popRow, ht, toIntx_small h1 h2]
        · rintro d' ⟨⟩
          simp [Holds, jsonCell, Means, ht, c2]
      · rename_i ht
        obtain ⟨n, rfl⟩ := hf
        refine ⟨.set { d with i64 := n, hasValue := true }, ?_, by simp, by simp, ?_, by simp⟩
        · simp only [popRow, ht, toI64x]
        · rintro d' ⟨⟩
          simp [Holds, jsonCell, Means, ht, c2]
      · rename_i ht
        obtain ⟨s, rfl, h1⟩ := hf
        refine ⟨.set { d with value := some (s ++ [0]), hasValue := true }, ?_, by simp, by simp, ?_, by simp⟩
        · simp only [popRow, ht]
        · rintro d' ⟨⟩
          simp only [Holds, reduceCtorEq, false_and, if_false, jsonCell, Option.some.injEq, exists_eq_left', true_and,
            Val.atom.injEq]
          simp only [Means, c2, Bool.false_eq_true, false_and, if_false, ht, c3]
          exact .inl ⟨s, [], by simp [h1]⟩
      · exact hf.elim

/-- no two rows are for the same column -/
def OneRow (infos : List Info) : Prop :=
  ∀ (i j : Nat) (a b : Info), infos[i]? = some a → infos[j]? = some b → a.col = b.col → i = j

theorem findIdx_col {infos : List Info} (ho : OneRow infos) {key : List Byte} {i : Nat} {info : Info}
    (hi : infos[i]? = some info) (hk : info.col = key) : infos.findIdx? (fun x => x.col == key) = some i := by
  cases h : infos.findIdx? (fun x => x.col == key) with
  | none =>
    rw [List.findIdx?_eq_none_iff] at h
    have := h info (List.mem_of_getElem? hi)
    simp [hk] at this
  | some j =>
    rw [List.findIdx?_eq_some_iff_getElem] at h
    obtain ⟨hj, h1, _⟩ := h
    rw [ho j i infos[j] info (List.getElem?_eq_getElem hj) hi (by rw [eq_of_beq h1, hk])]

/-- one entry of the object -/
theorem populate_step {hasErr : Bool} {infos : List Info} (ho : OneRow infos) (u : Use) {key : List Byte} {v : Val}
    (hl : u.data.length = infos.length)
    (hf : ∀ (i : Nat) info d, infos[i]? = some info → info.col = key → u.data[i]? = some d →
      Fits info v ∧ Clean d) :
    ∃ u', populate hasErr infos u key v = .ok (u', false) ∧ u'.data.length = infos.length ∧
      u'.errors = u.errors ∧
      (u'.unused = if ∃ info ∈ infos, info.col = key then u.unused else u.unused ++ [key]) ∧
      (u'.used = if ∃ info ∈ infos, info.col = key ∧ ¬ (v = .atom .null ∧ info.notNull = true) then u.used ++ [key]
        else u.used) ∧
      (∀ (i : Nat) info, infos[i]? = some info → info.col ≠ key → u'.data[i]? = u.data[i]?) ∧
      (∀ (i : Nat) info d, infos[i]? = some info → info.col = key → u.data[i]? = some d →
        ∃ d', u'.data[i]? = some d' ∧ Holds info d d' (some v)) := by
  unfold populate
  cases h : infos.findIdx? (fun x => x.col == key) with
  | none =>
    rw [List.findIdx?_eq_none_iff] at h
    have hno : ∀ info ∈ infos, info.col ≠ key := by
      intro info hi he
      have := h info hi
      simp [he] at this
    refine ⟨_, rfl, hl, rfl, ?_, ?_, fun _ _ _ _ => rfl, ?_⟩
    · rw [if_neg]
      rintro ⟨info, hi, he⟩
      exact hno info hi he
    · rw [if_neg]
      rintro ⟨info, hi, he, _⟩
      exact hno info hi he
    · intro i info d hi he
      exact absurd he (hno info (List.mem_of_getElem? hi))
  | some j =>
    rw [List.findIdx?_eq_some_iff_getElem] at h
    obtain ⟨hj, h1, _⟩ := h
    have hjd : j < u.data.length := by omega
    have hjk := eq_of_beq h1
    simp only [List.getElem?_eq_getElem hj, List.getElem?_eq_getElem hjd]
    obtain ⟨hfit, hcl⟩ := hf j infos[j] u.data[j] (List.getElem?_eq_getElem hj) hjk (List.getElem?_eq_getElem hjd)
    obtain ⟨r, hr, hne, hk, hset, hkeep⟩ := popRow_fits (hasErr := hasErr) hfit hcl
    have hex : ∃ info ∈ infos, info.col = key := ⟨infos[j], List.getElem_mem hj, hjk⟩
    have huniq : ∀ (i : Nat) info, infos[i]? = some info → info.col = key → i = j := by
      intro i info hi he
      exact ho i j info infos[j] hi (List.getElem?_eq_getElem hj) (by rw [he, hjk])
    rw [hr, Res.map_ok']
    cases r with
    | error => exact absurd rfl hne
    | keep =>
      refine ⟨_, rfl, hl, rfl, by rw [if_pos hex], ?_, fun _ _ _ _ => rfl, ?_⟩
      · rw [if_neg]
        rintro ⟨info, hi, he, hn⟩
        obtain ⟨m, hm⟩ := List.getElem?_of_mem hi
        obtain rfl := huniq m info hm he
        rw [List.getElem?_eq_getElem hj] at hm
        cases hm
        exact hn (hk.mp rfl)
      intro i info d hi he hd
      obtain rfl := huniq i info hi he
      rw [List.getElem?_eq_getElem hj] at hi
      rw [List.getElem?_eq_getElem hjd] at hd
      cases hi; cases hd
      exact ⟨_, List.getElem?_eq_getElem hjd, hkeep rfl⟩
    | set d' =>
      refine ⟨_, rfl, by simpa using hl, rfl, by rw [if_pos hex], ?_, ?_, ?_⟩
      · rw [if_pos ⟨infos[j], List.getElem_mem hj, hjk, fun h => by simpa using hk.mpr h⟩, hjk]
      · intro i info hi he
        have : j ≠ i := by
          rintro rfl
          rw [List.getElem?_eq_getElem hj] at hi
          cases hi
          exact he hjk
        simp [List.getElem?_set, this]
      · intro i info d hi he hd
        obtain rfl := huniq i info hi he
        rw [List.getElem?_eq_getElem hj] at hi
        rw [List.getElem?_eq_getElem hjd] at hd
        cases hi; cases hd
        exact ⟨d', by simp [hjd], hset d' rfl⟩

theorem lookup_none {kvs : List (List Byte × Val)} {k : List Byte} (h : k ∉ kvs.map Prod.fst) :
    kvs.lookup k = none := by
  induction kvs with
  | nil => rfl
  | cons kv kvs ih =>
    simp only [List.map_cons, List.mem_cons, not_or] at h
    rw [List.lookup_cons, beq_eq_false_iff_ne.mpr h.1]
    exact ih h.2

/-- C75: reading an object into unused data: every row holds the value of its column, the keys without a row and those
with one are reported, in order, and there is no error -/
theorem C75_partial {hasErr : Bool} {infos : List Info} (ho : OneRow infos) (kvs : List (List Byte × Val)) (u : Use)
    (hl : u.data.length = infos.length) (hn : (kvs.map Prod.fst).Nodup)
    (hf : ∀ kv ∈ kvs, ∀ info ∈ infos, info.col = kv.1 → Fits info kv.2)
    (hc : ∀ (i : Nat) info d, infos[i]? = some info → u.data[i]? = some d → info.col ∈ kvs.map Prod.fst → Clean d) :
    ∃ u', populateAll hasErr infos u kvs = .ok u' ∧ u'.data.length = infos.length ∧ u'.errors = u.errors ∧
      u'.unused = u.unused ++ (kvs.map Prod.fst).filter (fun k => ¬ ∃ info ∈ infos, info.col = k) ∧
      u'.used = u.used ++ (kvs.filter fun kv => ∃ info ∈ infos, info.col = kv.1 ∧
        ¬ (kv.2 = .atom .null ∧ info.notNull = true)).map Prod.fst ∧
      ∀ (i : Nat) info d, infos[i]? = some info → u.data[i]? = some d →
        ∃ d', u'.data[i]? = some d' ∧ Holds info d d' (kvs.lookup info.col) := by
  induction kvs generalizing u with
  | nil => exact ⟨u, rfl, hl, rfl, by simp, by simp, fun i info d _ hd => ⟨d, hd, rfl⟩⟩
  | cons kv kvs ih =>
    obtain ⟨k, v⟩ := kv
    simp only [List.map_cons, List.nodup_cons] at hn
    obtain ⟨u1, h1, hl1, he1, hu1, hw1, hother, hsame⟩ := populate_step (hasErr := hasErr) ho u (key := k) (v := v) hl (by
      intro i info d hi hk hd
      exact ⟨hf (k, v) (by simp) info (List.mem_of_getElem? hi) hk, hc i info d hi hd (by simp [hk])⟩)
    have hneq : ∀ info : Info, info.col ∈ kvs.map Prod.fst → info.col ≠ k := by
      rintro info hm rfl
      exact hn.1 hm
    obtain ⟨u', h2, hl2, he2, hu2, hw2, hd2⟩ := ih u1 hl1 hn.2 (fun kv hkv => hf kv (by simp [hkv])) (by
      intro i info d hi hd hm
      rw [hother i info hi (hneq info hm)] at hd
      exact hc i info d hi hd (by simp only [List.map_cons, List.mem_cons]; exact .inr hm))
    refine ⟨u', ?_, hl2, by rw [he2, he1], ?_, ?_, ?_⟩
    · simp only [populateAll, h1, Res.bind, Bool.false_eq_true, if_false, h2]
    · rw [hu2, hu1, List.map_cons, List.filter_cons]
      by_cases hex : ∃ info ∈ infos, info.col = k
      · simp [hex]
      · simp [hex]
    · rw [hw2, hw1, List.filter_cons]
      by_cases hex : ∃ info ∈ infos, info.col = k ∧ ¬ (v = .atom .null ∧ info.notNull = true)
      · rw [if_pos hex, if_pos (by simpa using hex)]
        simp
      · rw [if_neg hex, if_neg (by simpa using hex)]
    · intro i info d hi hd
      by_cases hk : info.col = k
      · obtain ⟨d', hd', hh⟩ := hsame i info d hi hk hd
        obtain ⟨d2, hd2', hh2⟩ := hd2 i info d' hi hd'
        have hno : kvs.lookup info.col = none := by
          rw [hk]
          exact lookup_none hn.1
        rw [hno] at hh2
        refine ⟨d2, hd2', ?_⟩
        rw [hh2, List.lookup_cons, hk, beq_self_eq_true]
        exact hh
      · rw [← hother i info hi hk] at hd
        obtain ⟨d2, hd2', hh2⟩ := hd2 i info d hi hd
        refine ⟨d2, hd2', ?_⟩
        rw [List.lookup_cons, beq_eq_false_iff_ne.mpr hk]
        exact hh2

/-- C75: the values of an object that is read into unused data reach the parameters of the statement -/
theorem C75_bound {sql : List Byte} {params : List (Option (List Byte))} (hp : OneIndex params)
    {hasErr pp : Bool} {infos : List Info} (ho : OneRow infos) (kvs : List (List Byte × Val)) (u : Use)
    (hl : u.data.length = infos.length) (hn : (kvs.map Prod.fst).Nodup)
    (hf : ∀ kv ∈ kvs, ∀ info ∈ infos, info.col = kv.1 → Fits info kv.2)
    (hc : ∀ (i : Nat) info d, infos[i]? = some info → u.data[i]? = some d → info.col ∈ kvs.map Prod.fst → Clean d)
    {k i : Nat} {info : Info} {v : Val} (hk : params[k]? = some (some info.var)) (hi : infos[i]? = some info)
    (hone : ∀ (m : Nat) x, infos[m]? = some x → x.var = info.var → m = i)
    (hv : kvs.lookup info.col = some v) (hnn : v = .atom .null → info.notNull = false) :
    ∃ u', populateAll hasErr infos u kvs = .ok u' ∧ ∀ es rc,
      bindRun sql (some params) (some infos) (some u'.data) pp = .ok (es, rc) →
      (calls (k + 1) es).map cellOf = [jsonCell v] := by
  obtain ⟨u', h1, h2, _, _, _, h5⟩ := C75_partial (hasErr := hasErr) ho kvs u hl hn hf hc
  refine ⟨u', h1, fun es rc h => ?_⟩
  have hil : i < infos.length := (List.getElem?_eq_some_iff.mp hi).1
  obtain ⟨d', hd', hh⟩ := h5 i info u.data[i] hi (List.getElem?_eq_getElem (by omega))
  rw [hv] at hh
  have hno : ¬ (v = .atom .null ∧ info.notNull = true) := by
    rintro ⟨hv, hn⟩
    rw [hnn hv] at hn
    exact Bool.noConfusion hn
  simp only [Holds, hno, if_false] at hh
  obtain ⟨hh1, c, hh2, hh3⟩ := hh
  have := C47_partial hp (by rintro ds ⟨⟩; omega) h hk hi hone (.caller (d := d') (c := c) (by simpa [ext] using hd') hh1 hh3)
  rw [this, hh2]
  rfl

/-- the column `a`, which may be null, for `@a` -/
def rowA (t : STy) : Info := { var := [64, 97], col := [97], type := t }

/-- C75 without the condition that the data are unused is false: after an object with null for a column, NULL is
bound for this column ever after (`{"a":null}`, then `{"a":5}`) -/
theorem C75_stale_false : ∃ (infos : List Info) (u1 u2 : Use), infos = [rowA .int] ∧
    populateAll true infos { data := [{}] } [([97], .atom .null)] = .ok u1 ∧
    populateAll true infos u1 [([97], .atom (.i64 5))] = .ok u2 ∧
    ∃ es rc, bindRun kwUpdate (some [some [64, 97]]) (some infos) (some u2.data) false = .ok (es, rc) ∧
      calls 1 es = [.null] :=
  ⟨_, _, _, rfl, rfl, rfl, _, _, rfl, rfl⟩

/-- C75 is false for numbers that are no `int`: 4294967297 is stored as 1, and no error is reported -/
theorem C75_wrap_false : ∃ u, populateAll true [rowA .int] { data := [{}] } [([97], .atom (.i64 4294967297))] = .ok u ∧
    u.errors = [] ∧ u.data[0]?.map Data.i = some 1 ∧ u.data[0]?.map Data.hasValue = some true := by
  have h : toIntx (.atom (.i64 4294967297)) = some 1 := by
    have := Verif.Json.Props.cInt_u64 4294967297
    simp only [toIntx, Option.some.injEq]
    omega
  refine ⟨{ data := [{ i := 1, hasValue := true }], used := [[97]] }, ?_, rfl, rfl, rfl⟩
  simp [populateAll, populate, popRow, rowA, h, Res.map, Res.bind, List.findIdx?_cons]

/-- C75: a value that is no text, in a column of texts, is no error but a use of a NULL pointer -/
theorem C75_text_false : populateAll true [rowA .text] { data := [{}] } [([97], .atom (.i64 5))] = .ub := rfl

/-- C75: a value for a blob, without a place for errors, is a use of a NULL pointer -/
theorem C75_blob_false : populateAll false [rowA .blob] { data := [{}] } [([97], .atom (.i64 5))] = .ub := rfl

/-- C75: an error is reported at the first value of a wrong type, and the values behind it are not read -/
theorem C75_error_stops {hasErr : Bool} {infos : List Info} {u u' : Use} {k : List Byte} {v : Val}
    {kvs : List (List Byte × Val)} (h : populate hasErr infos u k v = .ok (u', true)) :
    populateAll hasErr infos u ((k, v) :: kvs) = .ok u' ∧ u'.data = u.data ∧ u'.errors = u.errors ++ [k] := by
  refine ⟨by simp [populateAll, h, Res.bind], ?_⟩
  unfold populate at h
  cases hf : infos.findIdx? (fun x => x.col == k) with
  | none => rw [hf] at h; cases h
  | some j =>
    rw [hf] at h
    rw [List.findIdx?_eq_some_iff_getElem] at hf
    obtain ⟨hj, h1, _⟩ := hf
    simp only [List.getElem?_eq_getElem hj] at h
    split at h
    · rename_i info d hi hd
      cases hi
      rw [Res.map_eq_ok] at h
      obtain ⟨r, _, h⟩ := h
      cases r <;> simp only [Prod.mk.injEq, Bool.false_eq_true, and_false, and_true] at h
      rw [← h, eq_of_beq h1]
      exact ⟨rfl, rfl⟩
    · cases h

/-- C75 for `cee_sqlite3_bind_data_from_json` itself: names are put behind those of an array that is given, into a new array
if there is none, and nowhere if the caller does not ask for them -/
theorem C75_call {infos : List Info} (ho : OneRow infos) (kvs : List (List Byte × Val)) (data : List Data)
    (used unused errors : Names) (hl : data.length = infos.length) (hn : (kvs.map Prod.fst).Nodup)
    (hf : ∀ kv ∈ kvs, ∀ info ∈ infos, info.col = kv.1 → Fits info kv.2)
    (hc : ∀ (i : Nat) info d, infos[i]? = some info → data[i]? = some d → info.col ∈ kvs.map Prod.fst → Clean d) :
    ∃ data' used' unused' errors', bindDataFromJson infos data (.obj kvs) used unused errors =
        .ok (data', used', unused', errors', 0) ∧ data'.length = infos.length ∧
      (used = none → used' = none) ∧ (unused = none → unused' = none) ∧ (errors = none → errors' = none) ∧
      (∀ old, used = some old → used' = some (some (old.getD [] ++ (kvs.filter fun kv => ∃ info ∈ infos, info.col = kv.1 ∧
        ¬ (kv.2 = .atom .null ∧ info.notNull = true)).map Prod.fst))) ∧
      (∀ old, unused = some old → unused' = some (some (old.getD [] ++
        (kvs.map Prod.fst).filter (fun k => ¬ ∃ info ∈ infos, info.col = k)))) ∧
      (∀ old, errors = some old → errors' = some (some (old.getD []))) ∧
      ∀ (i : Nat) info d, infos[i]? = some info → data[i]? = some d →
        ∃ d', data'[i]? = some d' ∧ Holds info d d' (kvs.lookup info.col) := by
  obtain ⟨u', h1, h2, h3, h4, h5, h6⟩ := C75_partial (hasErr := errors.isSome) ho kvs
    ⟨data, used.start, unused.start, errors.start⟩ hl hn hf hc
  refine ⟨u'.data, used.close u'.used, unused.close u'.unused, errors.close u'.errors,
    by rw [bindDataFromJson, h1]; rfl, h2, ?_, ?_, ?_, ?_, ?_, ?_, h6⟩
  · rintro rfl; rfl
  · rintro rfl; rfl
  · rintro rfl; rfl
  · rintro old rfl; rw [h5]; rfl
  · rintro old rfl; rw [h4]; rfl
  · rintro old rfl; rw [h3]; rfl

/-- C75 is false when the caller gives no array for errors: a value of a wrong type in front hides all others, whatever they
are, and 0 is returned as if the object had been empty -/
theorem C75_silent_false (infos : List Info) (data : List Data) (used unused : Names) {k : List Byte} {v : Val}
    {u' : Use} (kvs : List (List Byte × Val))
    (h : populate false infos ⟨data, used.start, unused.start, []⟩ k v = .ok (u', true)) :
    bindDataFromJson infos data (.obj ((k, v) :: kvs)) used unused none =
      bindDataFromJson infos data (.obj []) used unused none := by
  obtain ⟨h1, h2, -⟩ := C75_error_stops (kvs := kvs) h
  have hu : u'.used = used.start ∧ u'.unused = unused.start := by
    unfold populate at h
    cases hf : infos.findIdx? (fun x => x.col == k) with
    | none => rw [hf] at h; cases h
    | some j =>
      rw [hf] at h
      dsimp only at h
      split at h
      · rw [Res.map_eq_ok] at h
        obtain ⟨r, _, h⟩ := h
        cases r <;> simp only [Prod.mk.injEq, Bool.false_eq_true, and_false, and_true] at h
        rw [← h]
        exact ⟨rfl, rfl⟩
      · cases h
  simp only [bindDataFromJson, Option.isSome_none]
  rw [show Names.start none = [] from rfl, h1]
  simp [populateAll, Res.map, h2, hu.1, hu.2, Names.close]

/-- a text for a column of numbers -/
example : ∃ u', populate false [rowA .int] ⟨[{}], Names.start (some none), Names.start none, []⟩ [97]
    (.atom (.str [120])) = .ok (u', true) := ⟨_, rfl⟩

/-- an object with a number for `a` and a text for `b`, and a key without a column -/
example : ∃ u', populateAll true [rowA .int, { var := [64, 98], col := [98], type := .text }] { data := [{}, {}] }
      [([98], .atom (.str [120])), ([99], .atom .null), ([97], .atom (.i64 5))] = .ok u' ∧
    u'.unused = [[99]] ∧ u'.used = [[98], [97]] ∧ u'.data[0]?.map Data.hasValue = some true := ⟨_, rfl, rfl, rfl, rfl⟩

example : OneRow [rowA .int] ∧ Fits (rowA .int) (.atom (.i64 5)) ∧ Clean {} := by
  refine ⟨?_, .inr ⟨5, rfl, by decide, by decide⟩, rfl, rfl, rfl⟩
  intro i j a b hi hj _
  have h1 := (List.getElem?_eq_some_iff.mp hi).1
  have h2 := (List.getElem?_eq_some_iff.mp hj).1
  simp at h1 h2
  omega

/-- a call with an array for the names without a column, in which there is a name already, and a NULL array for errors -/
example : ∃ data', bindDataFromJson [rowA .int] [{}] (.obj [([97], .atom (.i64 5)), ([99], .atom .null)]) none
    (some (some [[98]])) (some none) = .ok (data', none, some (some [[98], [99]]), some (some []), 0) := ⟨_, rfl⟩

/-- a number in a column of texts stops the reading: `populate` with `true` -/
example : ∃ u', populate true [rowA .int] { data := [{}] } [97] (.atom (.str [])) = .ok (u', true) := ⟨_, rfl⟩

/-! ## the table made from an object -/

/-- the value can be an entry of the table -/
def Simple (v : Val) : Prop :=
  v = .atom .null ∨ (∃ n : Int, v = .atom (.i64 n) ∧ -2 ^ 31 ≤ n ∧ n < 2 ^ 31) ∨ ∃ s, v = .atom (.str s) ∧ 0 ∉ s

/-- the row stands for this entry: it names it and its data are the value -/
def RowOf (key : List Byte) (v : Val) (r : Info) : Prop :=
  r.var = 64 :: key ∧ r.col = key ∧ r.data.hasValue = true ∧ ∃ c, jsonCell v = some c ∧ Means r r.data c

theorem entryRow_simple {k : List Byte} {v : Val} (h : Simple v) (hv : v ≠ .atom .null) :
    ∃ r, entryRow k v = .ok (some r) ∧ RowOf k v r := by
  rcases h with h | ⟨n, rfl, h1, h2⟩ | ⟨s, rfl, h1⟩
  · exact absurd h hv
  · refine ⟨_, by simp only [entryRow, toIntx_small h1 h2]; rfl, ?_⟩
    simp [RowOf, jsonCell, Means]
  · refine ⟨_, rfl, ?_⟩
    simp only [RowOf, jsonCell, Means, Option.some.injEq, exists_eq_left', true_and, Bool.false_eq_true, false_and,
      if_false]
    exact .inl ⟨s, [], by simp [h1]⟩

theorem fillRows_full {k : List Byte} {v : Val} (n : Nat) (r : Info) :
    fillRows k v (List.replicate n (some r)) = .ok (List.replicate n (some r)) := by
  induction n with
  | zero => rfl
  | succ n ih => simp [List.replicate_succ, fillRows, ih, Res.map]

theorem fillAll_full (kvs : List (List Byte × Val)) (n : Nat) (r : Info) :
    fillAll kvs (List.replicate n (some r)) = .ok (List.replicate n (some r)) := by
  induction kvs with
  | nil => rfl
  | cons kv kvs ih =>
    obtain ⟨k, v⟩ := kv
    simp only [fillAll, fillRows_full, Res.bind, ih]

theorem fillRows_empty {k : List Byte} {v : Val} {r : Info} (h : entryRow k v = .ok (some r)) (n : Nat) :
    fillRows k v (List.replicate n none) = .ok (List.replicate n (some r)) := by
  induction n with
  | zero => rfl
  | succ n ih => simp [List.replicate_succ, fillRows, h, ih, Res.map, Res.bind]

theorem fillRows_null {k : List Byte} (n : Nat) :
    fillRows k (.atom .null) (List.replicate n none) = .ok (List.replicate n none) := by
  cases n <;> simp [List.replicate_succ, fillRows, entryRow, Res.bind]

theorem tableOf_full (n : Nat) (r : Info) : tableOf (List.replicate n (some r)) = List.replicate n r := by
  induction n with
  | zero => rfl
  | succ n ih => simp [List.replicate_succ, tableOf, ih]

theorem fillAll_first (pre : List (List Byte × Val)) (hp : ∀ kv ∈ pre, kv.2 = .atom .null) (n : Nat)
    (rest : List (List Byte × Val)) :
    fillAll (pre ++ rest) (List.replicate n none) = fillAll rest (List.replicate n none) := by
  induction pre with
  | nil => rfl
  | cons kv pre ih =>
    obtain ⟨k, v⟩ := kv
    obtain rfl : v = .atom .null := hp (k, v) (by simp)
    simp only [List.cons_append, fillAll, fillRows_null, Res.bind]
    exact ih fun kv hkv => hp kv (by simp [hkv])

/-- C76: what the table is: as many copies of the row of the first entry that is not null as the object has keys -/
theorem C76_partial {pre post : List (List Byte × Val)} {k : List Byte} {v : Val}
    (hp : ∀ kv ∈ pre, kv.2 = .atom .null) (hs : Simple v) (hv : v ≠ .atom .null) :
    ∃ r, jsonToBindInfo (pre ++ (k, v) :: post) = .ok (List.replicate (pre ++ (k, v) :: post).length r) ∧
      RowOf k v r := by
  obtain ⟨r, hr, ho⟩ := entryRow_simple (k := k) hs hv
  refine ⟨r, ?_, ho⟩
  unfold jsonToBindInfo
  rw [fillAll_first pre hp]
  simp only [fillAll, fillRows_empty hr, Res.bind]
  rw [fillAll_full, Res.map_ok', tableOf_full]

/-- C76: an object of one entry gives its row, an object of nulls gives none -/
theorem C76_single {k : List Byte} {v : Val} (hs : Simple v) (hv : v ≠ .atom .null) :
    ∃ r, jsonToBindInfo [(k, v)] = .ok [r] ∧ RowOf k v r :=
  C76_partial (pre := []) (post := []) (by simp) hs hv

theorem C76_nulls {kvs : List (List Byte × Val)} (h : ∀ kv ∈ kvs, kv.2 = .atom .null) :
    jsonToBindInfo kvs = .ok [] := by
  have := fillAll_first kvs h kvs.length []
  rw [List.append_nil] at this
  unfold jsonToBindInfo
  rw [this]
  cases kvs <;> rfl

/-- C76 (a row for every key that is not null) is false for two keys: both rows are those of the first, and nothing is
bound to `@b` -/
theorem C76_false : ∃ infos : List Info,
    jsonToBindInfo [([97], .atom (.str [49])), ([98], .atom (.str [50]))] = .ok infos ∧
    infos.map Info.var = [[64, 97], [64, 97]] ∧
    ∃ es, bindRun kwSelect (some [some [64, 97], some [64, 98]]) (some infos) none false = .ok (es, .sqliteError) ∧
      .unbound 2 ∈ es := ⟨_, rfl, rfl, _, rfl, by decide⟩

example : Simple (.atom (.i64 (-3))) ∧ Simple (.atom (.str [97])) :=
  ⟨.inr (.inl ⟨-3, rfl, by decide, by decide⟩), .inr (.inr ⟨[97], rfl, by decide⟩)⟩

/-! ## dynamic statements -/

/-- parts with a comma between two of them -/
def commas : List (List Byte) → List Byte
  | [] => []
  | [x] => x
  | x :: y :: xs => x ++ 44 :: commas (y :: xs)

theorem commas_append (xs : List (List Byte)) (y : List Byte) (h : xs ≠ []) :
    commas (xs ++ [y]) = commas xs ++ 44 :: y := by
  induction xs with
  | nil => exact absurd rfl h
  | cons x xs ih =>
    cases xs with
    | nil => rfl
    | cons z zs =>
      have := ih (by simp)
      simp only [List.cons_append] at this ⊢
      simp only [commas, this, List.append_assoc, List.cons_append]

theorem commas_length {xs : List (List Byte)} (h : ∀ x ∈ xs, x ≠ []) : (commas xs).length = 0 ↔ xs = [] := by
  cases xs with
  | nil => simp [commas]
  | cons x xs =>
    have := h x (by simp)
    have : x.length ≠ 0 := by simpa using this
    cases xs <;> simp [commas] <;> omega

/-- a row has data for the statement -/
def HasData (data : Option (List Data)) (i : Nat) (info : Info) : Prop :=
  (∃ d, ext data i = some d ∧ d.hasValue = true) ∨ info.data.hasValue = true

instance (data : Option (List Data)) (i : Nat) (info : Info) : Decidable (HasData data i info) :=
  match h : ext data i with
  | none => if h2 : info.data.hasValue = true then .isTrue (.inr h2) else .isFalse (by simp [HasData, h, h2])
  | some d => if h2 : d.hasValue = true ∨ info.data.hasValue = true then
      .isTrue (by rcases h2 with h2 | h2; exacts [.inl ⟨d, h, h2⟩, .inr h2])
    else .isFalse (by simpa [HasData, h] using h2)

theorem hasData_ok {data : Option (List Data)} {i : Nat} {info : Info} (h : ∀ ds, data = some ds → i < ds.length) :
    hasData data i info = .ok (decide (HasData data i info)) := by
  unfold hasData
  cases data with
  | none => simp [HasData, ext]
  | some ds =>
    have hi := h ds rfl
    simp [HasData, ext, hi, Bool.decide_or]

/-- the rows, with their numbers, that stand in an UPDATE -/
def updateRows (input : List (List Byte × Val)) (data : Option (List Data)) (rows : List (Info × Nat)) :
    List (Info × Nat) :=
  rows.filter fun r => decide (r.1.col ∈ input.map Prod.fst ∧ r.1.noUpdate = false ∧ HasData data r.2 r.1)

/-- the rows that stand in an INSERT -/
def insertRows (data : Option (List Data)) (rows : List (Info × Nat)) : List (Info × Nat) :=
  rows.filter fun r => decide (HasData data r.2 r.1 ∨ r.1.notNull = true)

/-- `column=variable` -/
def assign (r : Info × Nat) : List Byte := r.1.col ++ [61] ++ r.1.var

theorem lookup_isSome {kvs : List (List Byte × Val)} {k : List Byte} :
    (kvs.lookup k).isSome = decide (k ∈ kvs.map Prod.fst) := by
  induction kvs with
  | nil => rfl
  | cons kv kvs ih =>
    rw [List.lookup_cons]
    by_cases h : k = kv.1
    · simp [h]
    · simp [beq_eq_false_iff_ne.mpr h, ih, h]

theorem compose_spec (input : List (List Byte × Val)) (data : Option (List Data)) (infos : List Info) (i : Nat)
    (hd : ∀ ds, data = some ds → i + infos.length ≤ ds.length) (hcol : ∀ info ∈ infos, info.col ≠ [])
    (us is : List (Info × Nat)) (his : ∀ r ∈ is, r.1.col ≠ []) (wu wi : Bool) :
    compose input data i infos (if wu then some (commas (us.map assign)) else none)
      (if wi then some (commas (is.map fun r => r.1.col), commas (is.map fun r => r.1.var)) else none) =
    .ok (if wu then some (commas ((us ++ updateRows input data (infos.zipIdx i)).map assign)) else none,
      if wi then some (commas ((is ++ insertRows data (infos.zipIdx i)).map fun r => r.1.col),
        commas ((is ++ insertRows data (infos.zipIdx i)).map fun r => r.1.var)) else none) := by
  induction infos generalizing i us is with
  | nil => simp [compose, updateRows, insertRows]
  | cons info infos ih =>
    have hd' : ∀ ds, data = some ds → (i + 1) + infos.length ≤ ds.length := by
      intro ds hds
      have := hd ds hds
      simp only [List.length_cons] at this
      omega
    have hlt : ∀ ds, data = some ds → i < ds.length := by
      intro ds hds
      have := hd ds hds
      simp only [List.length_cons] at this
      omega
    have hc0 : info.col ≠ [] := hcol info (by simp)
    have hU : ∀ b : Bool, (if b then addUpdate (commas (us.map assign)) info else commas (us.map assign)) =
        commas ((us ++ if b then [(info, i)] else []).map assign) := by
      intro b
      cases b
      · simp
      · simp only [if_true, List.map_append, List.map_cons, List.map_nil, addUpdate]
        have hz := commas_length (xs := us.map assign) (by
          intro x hx
          obtain ⟨r, _, rfl⟩ := List.mem_map.mp hx
          simp [assign])
        by_cases hu : us = []
        · simp [hu, commas, assign]
        · rw [if_neg (by rw [hz]; simpa using hu), commas_append _ _ (by simpa using hu)]
          rfl
    have hI : ∀ b : Bool, (if b then addInsert (commas (is.map fun r => r.1.col), commas (is.map fun r => r.1.var)) info
          else (commas (is.map fun r => r.1.col), commas (is.map fun r => r.1.var))) =
        (commas ((is ++ if b then [(info, i)] else []).map fun r => r.1.col),
          commas ((is ++ if b then [(info, i)] else []).map fun r => r.1.var)) := by
      intro b
      cases b
      · simp
      · simp only [if_true, List.map_append, List.map_cons, List.map_nil, addInsert]
        have hz := commas_length (xs := is.map fun r => r.1.col) (by
          intro x hx
          obtain ⟨r, hr, rfl⟩ := List.mem_map.mp hx
          exact his r hr)
        by_cases hu : is = []
        · simp [hu, commas]
        · rw [if_neg (by rw [hz]; simpa using hu), commas_append _ _ (by simpa using hu),
            commas_append _ _ (by simpa using hu)]
    simp only [compose, hasData_ok hlt, Res.bind]
    have key := ih (i + 1) hd' (fun x hx => hcol x (by simp [hx]))
      (us ++ if ((input.lookup info.col).isSome && !info.noUpdate && decide (HasData data i info)) then [(info, i)] else [])
      (is ++ if (decide (HasData data i info) || info.notNull) then [(info, i)] else [])
      (by
        intro r hr
        simp only [List.mem_append] at hr
        rcases hr with hr | hr
        · exact his r hr
        · split at hr
          · simp only [List.mem_singleton] at hr; rw [hr]; exact hc0
          · cases hr)
    rw [← hU, ← hI] at key
    have e1 : ∀ (b : Bool) (x y : List Byte) (c : Bool),
        (if b then some x else none).map (fun u => if c then addUpdate u info else u) =
          if b then some (if c then addUpdate x info else x) else none := by
      intro b x y c; cases b <;> rfl
    have e2 : ∀ (b : Bool) (x : List Byte × List Byte) (c : Bool),
        (if b then some x else none).map (fun u => if c then addInsert u info else u) =
          if b then some (if c then addInsert x info else x) else none := by
      intro b x c; cases b <;> rfl
    rw [e1 _ _ [], e2, key]
    have f1 : updateRows input data ((info :: infos).zipIdx i) =
        (if ((input.lookup info.col).isSome && !info.noUpdate && decide (HasData data i info)) then [(info, i)] else []) ++
          updateRows input data (infos.zipIdx (i + 1)) := by
      simp only [updateRows, List.zipIdx_cons, List.filter_cons, lookup_isSome]
      cases info.noUpdate <;> by_cases h1 : info.col ∈ input.map Prod.fst <;> by_cases h2 : HasData data i info <;>
        simp [h1, h2]
    have f2 : insertRows data ((info :: infos).zipIdx i) =
        (if (decide (HasData data i info) || info.notNull) then [(info, i)] else []) ++
          insertRows data (infos.zipIdx (i + 1)) := by
      simp only [insertRows, List.zipIdx_cons, List.filter_cons]
      cases info.notNull <;> by_cases h2 : HasData data i info <;> simp [h2]
    rw [f1, f2, ← List.append_assoc, ← List.append_assoc]

/-- C77: the text of an UPDATE has, with commas between, `column=variable` for exactly the rows whose column is a key of
the object, that may be updated and that have a value; an INSERT has the columns and the variables of exactly the rows
that have a value or must not be null -/
theorem C77_compose (input : List (List Byte × Val)) (data : Option (List Data)) (infos : List Info)
    (hd : ∀ ds, data = some ds → infos.length ≤ ds.length) (hcol : ∀ info ∈ infos, info.col ≠ []) (wu wi : Bool) :
    compose input data 0 infos (if wu then some [] else none) (if wi then some ([], []) else none) =
    .ok (if wu then some (commas ((updateRows input data infos.zipIdx).map assign)) else none,
      if wi then some (commas ((insertRows data infos.zipIdx).map fun r => r.1.col),
        commas ((insertRows data infos.zipIdx).map fun r => r.1.var)) else none) := by
  simpa [commas] using compose_spec input data infos 0 (by simpa using hd) hcol [] [] (by simp) wu wi

/-- C77: every variable that stands in the INSERT has a value when the statement is run, if the data are well formed -/
theorem C77_bound {data : Option (List Data)} {infos : List Info} {r : Info × Nat} (hr : r ∈ insertRows data infos.zipIdx)
    (h1 : ∀ d, ext data r.2 = some d → d.hasValue = true → ∃ c, Means r.1 d c)
    (h2 : r.1.data.hasValue = true → ∃ c, Means r.1 r.1.data c) (h3 : r.1.type ≠ .undef) {insert : Prop} (hi : insert) :
    infos[r.2]? = some r.1 ∧ ∃ c, Wants insert (ext data r.2) r.1 (some c) := by
  simp only [insertRows, List.mem_filter, decide_eq_true_eq] at hr
  refine ⟨by simpa [List.mem_zipIdx_iff_getElem?] using hr.1, ?_⟩
  by_cases hx : ∃ d, ext data r.2 = some d ∧ d.hasValue = true
  · obtain ⟨d, hd, hv⟩ := hx
    obtain ⟨c, hc⟩ := h1 d hd hv
    exact ⟨c, .caller hd hv hc⟩
  · have hx' : ∀ d, ext data r.2 = some d → d.hasValue = false := by
      intro d hd
      by_cases hv : d.hasValue = true
      · exact absurd ⟨d, hd, hv⟩ hx
      · simpa using hv
    by_cases ho : r.1.data.hasValue = true
    · obtain ⟨c, hc⟩ := h2 ho
      exact ⟨c, .own hx' ho hc⟩
    · have hn : r.1.notNull = true := by
        rcases hr.2 with h | h
        · rcases h with h | h
          · exact absurd h hx
          · exact absurd h ho
        · exact h
      obtain ⟨c, hc⟩ : ∃ c, zeroCell r.1.type = some c := by
        cases ht : r.1.type <;> simp_all [zeroCell]
      exact ⟨c, .zero hx' (by simpa using ho) hi hn hc⟩

/-- `a=@a` and `(a,b) values (@a,@b)` where `b` must not be null and is no key -/
example : compose [([97], .atom (.i64 5))] (some [{ i := 5, hasValue := true }, {}]) 0
    [rowA .int, { var := [64, 98], col := [98], type := .text, notNull := true }] (some []) (some ([], [])) =
    .ok (some [97, 61, 64, 97], some ([97, 44, 98], [64, 97, 44, 64, 98])) := rfl

example : ((rowA .int, 0) : Info × Nat) ∈ insertRows (some [{ i := 5, hasValue := true }]) [rowA .int].zipIdx := by
  simp [insertRows, HasData, ext]

/-! ## insertion of objects -/

/-- the values that `insert_one_json_object` can store -/
def Storable (v : Val) : Prop :=
  v = .atom .null ∨ (∃ n, v = .atom (.i64 n)) ∨ ∃ s, v = .atom (.str s) ∧ 0 ∉ s

/-- the entries that are not null -/
def nonNull (kvs : List (List Byte × Val)) : List (List Byte × Val) := kvs.filter fun kv => ¬ kv.2 = .atom .null

/-- what stands for an entry among the values -/
def place (kv : List Byte × Val) : List Byte := if kv.2 = .atom .null then [110, 117, 108, 108] else 64 :: kv.1

/-- rows that stand one by one for entries -/
inductive RowsOf : List (List Byte × Val) → List Info → Prop
  | nil : RowsOf [] []
  | cons {kv kvs r rs} : RowOf kv.1 kv.2 r → RowsOf kvs rs → RowsOf (kv :: kvs) (r :: rs)

theorem RowsOf.append {a b ra rb} (h1 : RowsOf a ra) (h2 : RowsOf b rb) : RowsOf (a ++ b) (ra ++ rb) := by
  induction h1 with
  | nil => exact h2
  | cons h _ ih => exact .cons h ih

theorem RowsOf.length {a ra} (h : RowsOf a ra) : ra.length = a.length := by
  induction h with
  | nil => rfl
  | cons _ _ ih => simp [ih]

theorem RowsOf.get {a ra} (h : RowsOf a ra) {i : Nat} {kv : List Byte × Val} (hi : a[i]? = some kv) :
    ∃ r, ra[i]? = some r ∧ RowOf kv.1 kv.2 r := by
  induction h generalizing i with
  | nil => simp at hi
  | cons h _ ih =>
    cases i with
    | zero => simp only [List.getElem?_cons_zero, Option.some.injEq] at hi; subst hi; exact ⟨_, rfl, h⟩
    | succ i => exact ih (by simpa using hi)

/-- the text so far: a blank in front, commas between -/
def blank (xs : List (List Byte)) : List Byte := if xs = [] then [] else 32 :: commas xs

theorem blank_append (xs : List (List Byte)) (y : List Byte) :
    blank (xs ++ [y]) = blank xs ++ (if (blank xs).length = 0 then 32 else 44) :: y := by
  unfold blank
  by_cases h : xs = []
  · simp [h, commas]
  · simp [h, commas_append xs y h]

theorem blank_zero (xs : List (List Byte)) : (blank xs).length = 0 ↔ xs = [] := by
  unfold blank
  split <;> simp_all

/-- what is collected for the entries so far -/
def Collected (kvs : List (List Byte × Val)) (p : Cols) : Prop :=
  p.cols = blank (kvs.map Prod.fst) ∧ p.vals = blank (kvs.map place) ∧ RowsOf (nonNull kvs) p.rows

theorem nonNull_append (a b : List (List Byte × Val)) : nonNull (a ++ b) = nonNull a ++ nonNull b := by
  simp [nonNull]

theorem collect_step {done : List (List Byte × Val)} {p : Cols} (h : Collected done p) {k : List Byte} {v : Val}
    (hs : Storable v) :
    (v = .atom .null ∨ p.rows.length < maxRows → ∃ p', collect p k v = .ok p' ∧ Collected (done ++ [(k, v)]) p') ∧
    (v ≠ .atom .null → ¬ p.rows.length < maxRows → collect p k v = .ub) := by
  obtain ⟨h1, h2, h3⟩ := h
  have hb : ∀ y, p.cols ++ (if p.cols.length = 0 then 32 else 44) :: k = blank ((done ++ [(k, y)]).map Prod.fst) := by
    intro y
    rw [h1, List.map_append, List.map_cons, List.map_nil, blank_append]
  have hz : (blank (done.map Prod.fst)).length = 0 ↔ (blank (done.map place)).length = 0 := by
    rw [blank_zero, blank_zero]; simp
  have hv : ∀ y, p.vals ++ (if p.cols.length = 0 then 32 else 44) :: place (k, y) = blank ((done ++ [(k, y)]).map place) := by
    intro y
    rw [h1, h2, List.map_append, List.map_cons, List.map_nil, blank_append]
    by_cases hd : (blank (done.map Prod.fst)).length = 0
    · rw [if_pos hd, if_pos (hz.mp hd)]
    · rw [if_neg hd, if_neg (fun h => hd (hz.mpr h))]
  rcases hs with rfl | ⟨n, rfl⟩ | ⟨s, rfl, hs⟩
  · refine ⟨fun _ => ⟨_, rfl, hb (.atom .null), ?_, ?_⟩, fun h => absurd rfl h⟩
    · have := hv (.atom .null)
      simpa [place] using this
    · rw [nonNull_append]
      simpa [nonNull] using h3
  · refine ⟨?_, ?_⟩
    · rintro (h | h)
      · cases h
      · refine ⟨_, by simp only [collect, h, if_true]; rfl, hb (.atom (.i64 n)), ?_, ?_⟩
        · have := hv (.atom (.i64 n))
          simpa [place] using this
        · rw [nonNull_append]
          refine h3.append ?_
          simp only [nonNull, List.filter_cons, List.filter_nil]
          refine .cons ?_ .nil
          simp [RowOf, jsonCell, Means]
    · intro _ h
      simp [collect, h]
  · refine ⟨?_, ?_⟩
    · rintro (h | h)
      · cases h
      · refine ⟨_, by simp only [collect, h, if_true]; rfl, hb (.atom (.str s)), ?_, ?_⟩
        · have := hv (.atom (.str s))
          simpa [place] using this
        · rw [nonNull_append]
          refine h3.append ?_
          simp only [nonNull, List.filter_cons, List.filter_nil]
          refine .cons ?_ .nil
          simp only [RowOf, jsonCell, Means, Option.some.injEq, exists_eq_left', true_and, Bool.false_eq_true, false_and,
            if_false]
          exact .inl ⟨s, [], by simp [hs]⟩
    · intro _ h
      simp [collect, h]

theorem collectAll_spec (kvs done : List (List Byte × Val)) (p : Cols) (h : Collected done p)
    (hs : ∀ kv ∈ kvs, Storable kv.2) (hl : p.rows.length ≤ maxRows) :
    ((nonNull (done ++ kvs)).length ≤ maxRows → ∃ p', collectAll p kvs = .ok p' ∧ Collected (done ++ kvs) p') ∧
    (maxRows < (nonNull (done ++ kvs)).length → collectAll p kvs = .ub) := by
  induction kvs generalizing done p with
  | nil =>
    have := h.2.2.length
    refine ⟨fun _ => ⟨p, rfl, by simpa using h⟩, fun hm => ?_⟩
    rw [List.append_nil] at hm
    omega
  | cons kv kvs ih =>
    obtain ⟨k, v⟩ := kv
    have hrow := h.2.2.length
    obtain ⟨c1, c2⟩ := collect_step h (k := k) (hs (k, v) (by simp))
    have happ : done ++ (k, v) :: kvs = (done ++ [(k, v)]) ++ kvs := by simp
    rw [happ]
    by_cases hv : v = .atom .null ∨ p.rows.length < maxRows
    · obtain ⟨p', hp, hc⟩ := c1 hv
      have hrow' := hc.2.2.length
      have hl' : p'.rows.length ≤ maxRows := by
        rw [hrow', nonNull_append, List.length_append, ← hrow]
        rcases hv with rfl | hv
        · simpa [nonNull] using hl
        · have : (nonNull [(k, v)]).length ≤ 1 := List.length_filter_le _ _
          show p.rows.length + (nonNull [(k, v)]).length ≤ maxRows
          omega
      have := ih (done ++ [(k, v)]) p' hc (fun kv hkv => hs kv (by simp [hkv])) hl'
      simpa only [collectAll, hp, Res.bind] using this
    · rw [not_or] at hv
      have hub := c2 hv.1 hv.2
      refine ⟨fun hm => ?_, fun _ => by simp only [collectAll, hub, Res.bind]⟩
      rw [nonNull_append, nonNull_append, List.length_append, List.length_append, ← hrow] at hm
      have : (nonNull [(k, v)]).length = 1 := by simp [nonNull, hv.1]
      omega

/-- C78: an object with at most 49 values that are not null gives the statement
`insert into table ( k1,k2,…) values ( p1,p2,…);` where `p` is `null` or `@k`, and a table with the values -/
theorem C78_partial (table : List Byte) {kvs : List (List Byte × Val)} (hs : ∀ kv ∈ kvs, Storable kv.2)
    (hl : (nonNull kvs).length < 50) :
    ∃ rows, insertOne table kvs =
        .ok (insertText table (blank (kvs.map Prod.fst)) (blank (kvs.map place)), rows) ∧ RowsOf (nonNull kvs) rows := by
  obtain ⟨p, hp, h1, h2, h3⟩ :=
    (collectAll_spec kvs [] {} ⟨rfl, rfl, .nil⟩ hs (by simp)).1 (by simp only [List.nil_append, maxRows]; omega)
  refine ⟨p.rows, ?_, h3⟩
  have := h3.length
  simp only [List.nil_append] at this h1 h2
  simp only [insertOne, hp, Res.bind, h1, h2]
  rw [if_pos (by simp only [maxRows]; omega)]

/-- C78 is false for objects with more values: the array of rows is left, for every such object -/
theorem C78_false (table : List Byte) {kvs : List (List Byte × Val)} (hs : ∀ kv ∈ kvs, Storable kv.2)
    (hl : 50 ≤ (nonNull kvs).length) : insertOne table kvs = .ub := by
  have hc := collectAll_spec kvs [] {} ⟨rfl, rfl, .nil⟩ hs (by simp)
  rw [List.nil_append] at hc
  by_cases h : (nonNull kvs).length ≤ maxRows
  · obtain ⟨p, hp, h1, h2, h3⟩ := hc.1 h
    have := h3.length
    simp only [insertOne, hp, Res.bind]
    rw [if_neg (by simp only [maxRows]; omega)]
  · simp only [insertOne, hc.2 (by omega), Res.bind]

theorem startsWith_insertText (table cols vals : List Byte) : StartsWith kwInsert (insertText table cols vals) :=
  ⟨[], kwInsert, _, by simp [insertText, kwInsert]; rfl, by simp, by unfold AnyCase; decide⟩

/-- C78: the values of the object reach the statement, and it is run, if its parameters are the names in the values -/
theorem C78_bound (table : List Byte) (pp : Bool) {kvs : List (List Byte × Val)} (hn : (kvs.map Prod.fst).Nodup)
    (hs : ∀ kv ∈ kvs, Storable kv.2) (hl : (nonNull kvs).length < 50) :
    ∃ sql rows es, insertOne table kvs = .ok (sql, rows) ∧
      bindRun sql (some ((nonNull kvs).map fun kv => some (64 :: kv.1))) (some rows) none pp = .ok (es, .ofStep) ∧
      .step ∈ es ∧
      ∀ (i : Nat) kv, (nonNull kvs)[i]? = some kv → (calls (i + 1) es).map cellOf = [jsonCell kv.2] := by
  obtain ⟨rows, h1, h2⟩ := C78_partial table hs hl
  have hnd : ((nonNull kvs).map Prod.fst).Nodup := hn.sublist (List.filter_sublist.map _)
  have hinj : ∀ (i j : Nat) a b, (nonNull kvs)[i]? = some a → (nonNull kvs)[j]? = some b → a.1 = b.1 → i = j := by
    intro i j a b ha hb he
    have hi := (List.getElem?_eq_some_iff.mp ha)
    have hj := (List.getElem?_eq_some_iff.mp hb)
    obtain ⟨hi1, hi2⟩ := hi
    obtain ⟨hj1, hj2⟩ := hj
    rw [List.nodup_iff_pairwise_ne, List.pairwise_iff_getElem] at hnd
    rcases Nat.lt_trichotomy i j with h | h | h
    · exact (hnd i j (by simpa using hi1) (by simpa using hj1) h (by simp only [List.getElem_map, hi2, hj2, he])).elim
    · exact h
    · exact (hnd j i (by simpa using hj1) (by simpa using hi1) h (by simp only [List.getElem_map, hi2, hj2, he])).elim
  have hone : OneIndex ((nonNull kvs).map fun kv => some (64 :: kv.1)) := by
    intro i j name hi hj
    simp only [List.getElem?_map, Option.map_eq_some_iff, Option.some.injEq] at hi hj
    obtain ⟨a, ha, ha'⟩ := hi
    obtain ⟨b, hb, hb'⟩ := hj
    exact hinj i j a b ha hb (by rw [← hb'] at ha'; simpa using ha')
  have hrow : ∀ (i : Nat) r, rows[i]? = some r → ∃ kv, (nonNull kvs)[i]? = some kv ∧ RowOf kv.1 kv.2 r := by
    intro i r hr
    have hi := (List.getElem?_eq_some_iff.mp hr).1
    rw [h2.length] at hi
    obtain ⟨r', hr', ho⟩ := h2.get (List.getElem?_eq_getElem hi)
    rw [hr] at hr'
    cases hr'
    exact ⟨_, List.getElem?_eq_getElem hi, ho⟩
  have hwant : ∀ (i : Nat) r kv, (nonNull kvs)[i]? = some kv → RowOf kv.1 kv.2 r → ∀ ins : Prop, ∃ c,
      jsonCell kv.2 = some c ∧ Wants ins (ext none i) r (some c) := by
    rintro i r kv _ ⟨_, _, g3, c, g4, g5⟩ ins
    exact ⟨c, g4, .own (by simp [ext]) g3 g5⟩
  obtain ⟨es, rc, hrun⟩ := C47_total (sql := insertText table (blank (kvs.map Prod.fst)) (blank (kvs.map place)))
    (data := none) hone (infos := rows) pp (by simp) (by
      intro j r hr _
      obtain ⟨kv, hkv, ho⟩ := hrow j r hr
      obtain ⟨c, _, hw⟩ := hwant j r kv hkv ho _
      exact ⟨_, hw⟩)
  obtain ⟨s1, s2, _⟩ := C72_partial hone (by simp) hrun
  have hrc : rc = .ofStep := by
    rw [s2, s1]
    intro p hp
    obtain ⟨kv, hkv, rfl⟩ := List.mem_map.mp hp
    obtain ⟨i, hi⟩ := List.getElem?_of_mem hkv
    obtain ⟨r, hr, ho⟩ := h2.get hi
    exact ⟨r, List.mem_of_getElem? hr, by rw [ho.1]⟩
  subst hrc
  refine ⟨_, rows, es, h1, hrun, s2.mp rfl, ?_⟩
  intro i kv hi
  obtain ⟨r, hr, ho⟩ := h2.get hi
  obtain ⟨c, hc, hw⟩ := hwant i r kv hi ho (StartsWith kwInsert (insertText table (blank (kvs.map Prod.fst)) (blank (kvs.map place))))
  have := C47_partial hone (by simp) hrun (k := i) (by simp [hi, ho.1]) hr (by
    intro m x hx he
    obtain ⟨kv', hkv', ho'⟩ := hrow m x hx
    rw [ho'.1, ho.1] at he
    exact hinj m i kv' kv hkv' hi (by simpa using he)) hw
  rw [this, hc]
  rfl

/-- an object with a text, a null and a number; and one with fifty values -/
example : ∃ rows, insertOne [116] [([97], .atom (.str [120])), ([98], .atom .null), ([99], .atom (.i64 5))] =
    .ok ([105, 110, 115, 101, 114, 116, 32, 105, 110, 116, 111, 32, 116, 32, 40, 32, 97, 44, 98, 44, 99, 41, 32, 118, 97,
      108, 117, 101, 115, 32, 40, 32, 64, 97, 44, 110, 117, 108, 108, 44, 64, 99, 41, 59], rows) ∧
    rows.map Info.var = [[64, 97], [64, 99]] := ⟨_, rfl, rfl⟩

example : 50 ≤ (nonNull ((List.range 50).map fun i => (dec i, .atom (.i64 i)))).length := by
  rw [nonNull, List.filter_eq_self.mpr (by simp)]
  simp

end Verif.Sqlite.Props
