import Verif.Sqlite.InsertAll
import Verif.Sqlite.GenericProps
import Verif.Sqlite.Join

/-!
# Values never become SQL

C110: which statements are given to SQLite.
-/

namespace Verif.Sqlite.Props

open Verif Verif.Sqlite
open Verif.Json (Val insertKey toIntx)
open Verif.Dbm (str)

variable {S : Type}

/-- two databases that treat the statements of a list in the same way -/
structure Agree (T : List (List Byte)) (e e' : Engine S) : Prop where
  prep : ∀ sql ∈ T, ∀ s, e.prep s sql = e'.prep s sql
  names : ∀ sql ∈ T, ∀ s, e.names s sql = e'.names s sql
  step : ∀ sql ∈ T, ∀ s binds k, e.step s sql binds k = e'.step s sql binds k
  rowid : ∀ s, e.rowid s = e'.rowid s
  changes : ∀ s, e.changes s = e'.changes s
  totalChanges : ∀ s, e.totalChanges s = e'.totalChanges s
  errmsg : ∀ s, e.errmsg s = e'.errmsg s

/-- the entries of an object without the values: the keys, and the types of the values.  With a table only the keys that
are names of columns count. -/
def outline (infos : Option (List Info)) (kvs : List (List Byte × Val)) : List (List Byte × Nat) :=
  (kvs.filter fun kv => match infos with
    | some infos => infos.any fun info => info.col == kv.1
    | none => true).map fun kv => (kv.1, typeNum kv.2)

/-! ## the statements -/

/-- a row without its value -/
def noVal (info : Info) : Info := { info with data := { hasValue := info.data.hasValue } }

/-- which data are present -/
def given (u : Use) : List Bool := u.data.map Data.hasValue

theorem popRow_type (hasErr : Bool) (info : Info) (d d' : Data) {v v' : Val} (h : typeNum v = typeNum v') :
    (popRow hasErr info d v).map (fun | .set d => some (some d.hasValue) | .keep => some none | .error => none) =
    (popRow hasErr info d' v').map (fun | .set d => some (some d.hasValue) | .keep => some none | .error => none) := by
  rcases v with a | _ | _ <;> rcases v' with a' | _ | _ <;> (try cases a) <;> (try cases a') <;>
    first
    | (exfalso; simp [typeNum] at h; done)
    | (cases ht : info.type <;> cases hn : info.notNull <;> cases hasErr <;>
        simp [popRow, Res.map, toIntx, toI64x, ht, hn])

theorem getElem?_given {a b : List Data} (h : a.map Data.hasValue = b.map Data.hasValue) (i : Nat) :
    (a[i]?).map Data.hasValue = (b[i]?).map Data.hasValue := by
  rw [← List.getElem?_map, h, List.getElem?_map]

theorem populate_type (hasErr : Bool) (infos : List Info) {u u' : Use} (hu : given u = given u') (k : List Byte)
    {v v' : Val} (h : typeNum v = typeNum v') :
    (populate hasErr infos u k v).map (fun r => (given r.1, r.2)) =
    (populate hasErr infos u' k v').map (fun r => (given r.1, r.2)) := by
  unfold populate
  cases hi : infos.findIdx? (fun info => info.col == k) with
  | none => simp [Res.map, given] at hu ⊢; exact hu
  | some i =>
    simp only
    have hg := getElem?_given hu i
    cases hinfo : infos[i]? with
    | none => rfl
    | some info =>
      cases hd : u.data[i]? with
      | none =>
        rw [hd] at hg
        cases hd' : u'.data[i]? with
        | none => rfl
        | some d' => rw [hd'] at hg; cases hg
      | some d =>
        rw [hd] at hg
        cases hd' : u'.data[i]? with
        | none => rw [hd'] at hg; cases hg
        | some d' =>
          simp only
          have hp := popRow_type hasErr info d d' h
          have hs : ∀ x y : Data, x.hasValue = y.hasValue →
              (u.data.set i x).map Data.hasValue = (u'.data.set i y).map Data.hasValue := by
            intro x y hxy
            rw [List.map_set, List.map_set, hxy]
            exact congrArg (fun l => l.set i y.hasValue) hu
          cases hr : popRow hasErr info d v with
          | ub => rw [hr] at hp; cases hr' : popRow hasErr info d' v' <;> rw [hr'] at hp <;> first | rfl | cases hp
          | segv => rw [hr] at hp; cases hr' : popRow hasErr info d' v' <;> rw [hr'] at hp <;> first | rfl | cases hp
          | ok p =>
            rw [hr] at hp
            cases hr' : popRow hasErr info d' v' with
            | ub => rw [hr'] at hp; cases hp
            | segv => rw [hr'] at hp; cases hp
            | ok p' =>
              rw [hr'] at hp
              simp only [Res.map, Res.ok.injEq] at hp ⊢
              cases p <;> cases p' <;> simp [given, -List.map_set] at hp hu ⊢
              · exact hs _ _ hp
              · exact hu
              · exact hu

theorem populateAll_type (hasErr : Bool) (infos : List Info) (kvs kvs' : List (List Byte × Val)) {u u' : Use}
    (hu : given u = given u')
    (h : kvs.map (fun kv => (kv.1, typeNum kv.2)) = kvs'.map fun kv => (kv.1, typeNum kv.2)) :
    (populateAll hasErr infos u kvs).map given = (populateAll hasErr infos u' kvs').map given := by
  induction kvs generalizing kvs' u u' with
  | nil =>
    cases kvs' with
    | nil => simpa [populateAll, Res.map] using hu
    | cons _ _ => cases h
  | cons kv kvs ih =>
    cases kvs' with
    | nil => cases h
    | cons kv' kvs' =>
      obtain ⟨k, v⟩ := kv
      obtain ⟨k', v'⟩ := kv'
      simp only [List.map_cons, List.cons.injEq, Prod.mk.injEq] at h
      obtain ⟨⟨rfl, ht⟩, h⟩ := h
      have hp := populate_type hasErr infos hu k ht
      simp only [populateAll]
      cases hr : populate hasErr infos u k v with
      | ub => rw [hr] at hp; cases hr' : populate hasErr infos u' k v' <;> rw [hr'] at hp <;> first | rfl | cases hp
      | segv => rw [hr] at hp; cases hr' : populate hasErr infos u' k v' <;> rw [hr'] at hp <;> first | rfl | cases hp
      | ok p =>
        rw [hr] at hp
        cases hr' : populate hasErr infos u' k v' with
        | ub => rw [hr'] at hp; cases hp
        | segv => rw [hr'] at hp; cases hp
        | ok p' =>
          rw [hr'] at hp
          simp only [Res.map, Res.ok.injEq, Prod.mk.injEq] at hp
          simp only [Res.bind, hp.2]
          split
          · simpa [Res.map] using hp.1
          · exact ih kvs' hp.1 h

theorem populateAll_known (hasErr : Bool) (infos : List Info) (kvs : List (List Byte × Val)) {u u' : Use}
    (hu : given u = given u') :
    (populateAll hasErr infos u kvs).map given =
    (populateAll hasErr infos u' (kvs.filter fun kv => infos.any fun info => info.col == kv.1)).map given := by
  induction kvs generalizing u u' with
  | nil => simpa [populateAll, Res.map] using hu
  | cons kv kvs ih =>
    obtain ⟨k, v⟩ := kv
    rw [List.filter_cons]
    split
    · have hp := populate_type hasErr infos hu k (rfl : typeNum v = typeNum v)
      simp only [populateAll]
      cases hr : populate hasErr infos u k v with
      | ub => rw [hr] at hp; cases hr' : populate hasErr infos u' k v <;> rw [hr'] at hp <;> first | rfl | cases hp
      | segv => rw [hr] at hp; cases hr' : populate hasErr infos u' k v <;> rw [hr'] at hp <;> first | rfl | cases hp
      | ok p =>
        rw [hr] at hp
        cases hr' : populate hasErr infos u' k v with
        | ub => rw [hr'] at hp; cases hp
        | segv => rw [hr'] at hp; cases hp
        | ok p' =>
          rw [hr'] at hp
          simp only [Res.map, Res.ok.injEq, Prod.mk.injEq] at hp
          simp only [Res.bind, hp.2]
          split
          · simpa [Res.map] using hp.1
          · exact ih hp.1
    · rename_i hk
      have hn : infos.findIdx? (fun info => info.col == k) = none := by
        rw [List.findIdx?_eq_none_iff]
        intro x hx
        simp only [List.any_eq_true, not_exists, not_and, Bool.not_eq_true] at hk
        exact hk x hx
      simp only [populateAll, populate, hn, Res.bind, Bool.false_eq_true, if_false]
      exact ih (by simpa [given] using hu)

theorem entryRow_type (k : List Byte) {v v' : Val} (h : typeNum v = typeNum v') :
    (entryRow k v).map (Option.map noVal) = (entryRow k v').map (Option.map noVal) := by
  rcases v with a | _ | _ <;> rcases v' with a' | _ | _ <;> (try cases a) <;> (try cases a') <;>
    first
    | (exfalso; simp [typeNum] at h; done)
    | simp [entryRow, Res.map, toIntx, noVal]

theorem fillRows_type (k : List Byte) {v v' : Val} (h : typeNum v = typeNum v') (rs rs' : List (Option Info))
    (hr : rs.map (Option.map noVal) = rs'.map (Option.map noVal)) :
    (fillRows k v rs).map (List.map (Option.map noVal)) = (fillRows k v' rs').map (List.map (Option.map noVal)) := by
  induction rs generalizing rs' with
  | nil =>
    cases rs' with
    | nil => rfl
    | cons _ _ => cases hr
  | cons r rs ih =>
    cases rs' with
    | nil => cases hr
    | cons r' rs' =>
      simp only [List.map_cons, List.cons.injEq] at hr
      obtain ⟨h1, h2⟩ := hr
      have h3 := ih rs' h2
      have key : ∀ x x' : Info, noVal x = noVal x' →
          ((fillRows k v rs).map fun rs => some x :: rs).map (List.map (Option.map noVal)) =
          ((fillRows k v' rs').map fun rs => some x' :: rs).map (List.map (Option.map noVal)) := by
        intro x x' hx
        cases ha : fillRows k v rs <;> cases hb : fillRows k v' rs' <;> rw [ha, hb] at h3 <;>
          simp_all [Res.map]
      cases r with
      | some x =>
        cases r' with
        | none => cases h1
        | some x' => exact key x x' (by simpa using h1)
      | none =>
        cases r' with
        | some _ => cases h1
        | none =>
          simp only [fillRows]
          have he := entryRow_type k h
          cases ha : entryRow k v <;> cases hb : entryRow k v' <;> rw [ha, hb] at he <;>
            simp only [Res.map, Res.ok.injEq, reduceCtorEq] at he
          · rename_i o o'
            cases o <;> cases o' <;> simp only [Option.map_none, Option.map_some, reduceCtorEq, Option.some.injEq] at he
            · simpa [Res.bind, Res.map] using h2
            · exact key _ _ he
          · rfl
          · rfl

theorem fillAll_type (kvs kvs' : List (List Byte × Val))
    (h : kvs.map (fun kv => (kv.1, typeNum kv.2)) = kvs'.map fun kv => (kv.1, typeNum kv.2))
    (rs rs' : List (Option Info)) (hr : rs.map (Option.map noVal) = rs'.map (Option.map noVal)) :
    (fillAll kvs rs).map (List.map (Option.map noVal)) = (fillAll kvs' rs').map (List.map (Option.map noVal)) := by
  induction kvs generalizing kvs' rs rs' with
  | nil =>
    cases kvs' with
    | nil => simpa [fillAll, Res.map] using hr
    | cons _ _ => cases h
  | cons kv kvs ih =>
    cases kvs' with
    | nil => cases h
    | cons kv' kvs' =>
      obtain ⟨k, v⟩ := kv
      obtain ⟨k', v'⟩ := kv'
      simp only [List.map_cons, List.cons.injEq, Prod.mk.injEq] at h
      obtain ⟨⟨rfl, ht⟩, h⟩ := h
      have hp := fillRows_type k ht rs rs' hr
      simp only [fillAll]
      cases ha : fillRows k v rs <;> cases hb : fillRows k v' rs' <;> rw [ha, hb] at hp <;>
        simp only [Res.map, Res.ok.injEq, reduceCtorEq] at hp
      · exact ih kvs' h _ _ hp
      · rfl
      · rfl

theorem tableOf_noVal (rs : List (Option Info)) : (tableOf rs).map noVal = tableOf (rs.map (Option.map noVal)) := by
  induction rs with
  | nil => rfl
  | cons r rs ih =>
    cases r with
    | none => rfl
    | some x => simpa [tableOf] using ih

theorem jsonToBindInfo_type (kvs kvs' : List (List Byte × Val))
    (h : kvs.map (fun kv => (kv.1, typeNum kv.2)) = kvs'.map fun kv => (kv.1, typeNum kv.2)) :
    (jsonToBindInfo kvs).map (List.map noVal) = (jsonToBindInfo kvs').map (List.map noVal) := by
  have hl : kvs.length = kvs'.length := by simpa using congrArg List.length h
  have := fillAll_type kvs kvs' h (List.replicate kvs.length none) (List.replicate kvs'.length none) (by rw [hl])
  unfold jsonToBindInfo
  cases ha : fillAll kvs (List.replicate kvs.length none) <;> cases hb : fillAll kvs' (List.replicate kvs'.length none) <;>
    rw [ha, hb] at this <;> simp only [Res.map, Res.ok.injEq, reduceCtorEq] at this ⊢
  rw [tableOf_noVal, tableOf_noVal, this]

theorem hasData_type {data data' : Option (List Data)}
    (hd : data.map (List.map Data.hasValue) = data'.map (List.map Data.hasValue)) (i : Nat) {info info' : Info}
    (h : noVal info = noVal info') : hasData data i info = hasData data' i info' := by
  have hv : info.data.hasValue = info'.data.hasValue := congrArg (fun x => x.data.hasValue) h
  cases data with
  | none =>
    cases data' with
    | none => simp [hasData, hv]
    | some _ => cases hd
  | some ds =>
    cases data' with
    | none => cases hd
    | some ds' =>
      have := getElem?_given (by simpa using hd : ds.map Data.hasValue = ds'.map Data.hasValue) i
      simp only [hasData, hv]
      cases h1 : ds[i]? <;> cases h2 : ds'[i]? <;> rw [h1, h2] at this <;> simp at this ⊢
      rw [this]

theorem compose_type {input input' : List (List Byte × Val)} {data data' : Option (List Data)}
    (hd : data.map (List.map Data.hasValue) = data'.map (List.map Data.hasValue)) (i : Nat) (infos infos' : List Info)
    (h : infos.map noVal = infos'.map noVal)
    (hi : ∀ info ∈ infos, (input.lookup info.col).isSome = (input'.lookup info.col).isSome)
    (u : Option (List Byte)) (c : Option (List Byte × List Byte)) :
    compose input data i infos u c = compose input' data' i infos' u c := by
  induction infos generalizing i infos' u c with
  | nil =>
    cases infos' with
    | nil => rfl
    | cons _ _ => cases h
  | cons a infos ih =>
    cases infos' with
    | nil => cases h
    | cons a' infos' =>
      simp only [List.map_cons, List.cons.injEq] at h
      obtain ⟨h1, h2⟩ := h
      have e1 : a.col = a'.col := congrArg (fun x => x.col) h1
      have e2 : a.var = a'.var := congrArg (fun x => x.var) h1
      have e3 : a.noUpdate = a'.noUpdate := congrArg (fun x => x.noUpdate) h1
      have e4 : a.notNull = a'.notNull := congrArg (fun x => x.notNull) h1
      have hl := hi a (by simp)
      simp only [compose, hasData_type hd i h1]
      congr 1
      funext has
      rw [hl, e1, e3, e4]
      have hu : ∀ u, addUpdate u a = addUpdate u a' := by intro u; simp [addUpdate, e1, e2]
      have hc : ∀ c, addInsert c a = addInsert c a' := by intro c; simp [addInsert, e1, e2]
      simp only [hu, hc]
      exact ih _ infos' h2 (fun x hx => hi x (by simp [hx])) _ _

/-- the statements of an operation with an object -/
def stmtsOf (c : Ctx S) (json : List (List Byte × Val)) (stmts : Stmts) : Res Stmts :=
  (genericData c json).bind fun r =>
  (compose json r.1.data 0 (r.1.infos.getD []) (stmts.template.map fun _ => [])
    (if stmts.insertDynamic then some ([], []) else none)).map fun q => genericStmts stmts q

theorem lookup_outline {infos : Option (List Info)} {kvs kvs' : List (List Byte × Val)}
    (h : outline infos kvs = outline infos kvs') {k : List Byte}
    (hk : ∀ l, infos = some l → l.any (fun info => info.col == k) = true) :
    (kvs.lookup k).isSome = (kvs'.lookup k).isSome := by
  have key : ∀ l : List (List Byte × Val), (l.lookup k).isSome = true ↔ k ∈ (outline infos l).map Prod.fst := by
    intro l
    rw [lookup_isSome, outline, List.map_map, decide_eq_true_iff]
    simp only [List.mem_map, List.mem_filter, Function.comp]
    constructor
    · rintro ⟨x, hx, rfl⟩
      refine ⟨x, ⟨hx, ?_⟩, rfl⟩
      cases infos with
      | none => rfl
      | some l => exact hk l rfl
    · rintro ⟨x, ⟨hx, -⟩, rfl⟩
      exact ⟨x, hx, rfl⟩
  have := (key kvs).trans ((by rw [h] : _ ↔ _).trans (key kvs').symm)
  cases h1 : (kvs.lookup k).isSome <;> cases h2 : (kvs'.lookup k).isSome <;> simp_all

theorem stmtsOf_outline (c : Ctx S) {kvs kvs' : List (List Byte × Val)} (stmts : Stmts)
    (h : outline c.infos kvs = outline c.infos kvs') : stmtsOf c kvs stmts = stmtsOf c kvs' stmts := by
  unfold stmtsOf genericData
  cases hi : c.infos with
  | none =>
    cases hd : c.data with
    | some _ => rfl
    | none =>
      have ht : kvs.map (fun kv => (kv.1, typeNum kv.2)) = kvs'.map fun kv => (kv.1, typeNum kv.2) := by
        have h := h
        simp only [outline, hi] at h
        rw [List.filter_eq_self.mpr (by simp), List.filter_eq_self.mpr (by simp)] at h
        exact h
      have hj := jsonToBindInfo_type kvs kvs' ht
      have hlk : ∀ k, (kvs.lookup k).isSome = (kvs'.lookup k).isSome := fun k => lookup_outline h (by simp [hi])
      simp only
      cases ha : jsonToBindInfo kvs <;> cases hb : jsonToBindInfo kvs' <;> rw [ha, hb] at hj <;>
        simp only [Res.map, Res.ok.injEq, reduceCtorEq] at hj
      · simp only [Res.map, Res.bind, Option.getD_some]
        rw [compose_type (input' := kvs') (data' := none) rfl 0 _ _ hj (fun info _ => hlk info.col)]
      · rfl
      · rfl
  | some infos =>
    simp only
    have ht : (kvs.filter fun kv => infos.any fun info => info.col == kv.1).map (fun kv => (kv.1, typeNum kv.2)) =
        (kvs'.filter fun kv => infos.any fun info => info.col == kv.1).map fun kv => (kv.1, typeNum kv.2) := by
      simpa only [outline, hi] using h
    have hp : (populateAll true infos { data := c.data.getD [] } kvs).map given =
        (populateAll true infos { data := c.data.getD [] } kvs').map given := by
      rw [populateAll_known true infos kvs (u' := { data := c.data.getD [] }) rfl,
        populateAll_known true infos kvs' (u' := { data := c.data.getD [] }) rfl]
      exact populateAll_type true infos _ _ rfl ht
    have hlk : ∀ info ∈ infos, (kvs.lookup info.col).isSome = (kvs'.lookup info.col).isSome := by
      intro info hm
      refine lookup_outline h fun l hl => ?_
      rw [hi] at hl
      cases hl
      exact List.any_eq_true.mpr ⟨info, hm, by simp⟩
    cases ha : populateAll true infos { data := c.data.getD [] } kvs <;>
      cases hb : populateAll true infos { data := c.data.getD [] } kvs' <;> rw [ha, hb] at hp <;>
        simp only [Res.map, Res.ok.injEq, reduceCtorEq] at hp
    · rename_i u u'
      simp only [Res.map, Res.bind, hi, Option.getD_some]
      rw [compose_type (input' := kvs') (data' := c.data.map fun _ => u'.data) ?_ 0 _ _ rfl hlk]
      cases c.data with
      | none => rfl
      | some _ => simpa [given] using hp
    · rfl
    · rfl

/-! ## what SQLite is asked -/

theorem start_agree {T : List (List Byte)} {e e' : Engine S} (h : Agree T e e') (c : Ctx S) (s : S)
    {sql : Option (List Byte)} (hs : ∀ t, sql = some t → t ∈ T) :
    start { c with eng := e } s sql = start { c with eng := e' } s sql := by
  cases sql with
  | none => rfl
  | some t =>
    have ht := hs t rfl
    simp only [start, h.prep t ht, h.errmsg, h.step t ht]

theorem runSql_agree {T : List (List Byte)} {e e' : Engine S} (h : Agree T e e') (c : Ctx S) (s : S)
    {sql : Option (List Byte)} (hs : ∀ t, sql = some t → t ∈ T) (status : Status) :
    runSql { c with eng := e } s sql status = runSql { c with eng := e' } s sql status := by
  simp only [runSql, start_agree h c s hs]

theorem runDone_agree {T : List (List Byte)} {e e' : Engine S} (h : Agree T e e') (c : Ctx S) (s : S)
    {sql : Option (List Byte)} (hs : ∀ t, sql = some t → t ∈ T) (status : Status) :
    runDone { c with eng := e } s sql status = runDone { c with eng := e' } s sql status := by
  simp only [runDone, runSql_agree h c s hs, h.errmsg]

theorem runInsert_agree {T : List (List Byte)} {e e' : Engine S} (h : Agree T e e') (c : Ctx S) (s : S)
    {sql : Option (List Byte)} (hs : ∀ t, sql = some t → t ∈ T) (status : Status) (key : List Byte) :
    runInsert { c with eng := e } s sql status key = runInsert { c with eng := e' } s sql status key := by
  simp only [runInsert, runDone_agree h c s hs, h.rowid]

theorem insert_agree {T : List (List Byte)} {e e' : Engine S} (h : Agree T e e') (c : Ctx S) (s : S)
    {sql : Option (List Byte)} (hs : ∀ t, sql = some t → t ∈ T) (status : Status) (key : Option (List Byte)) :
    insert { c with eng := e } s sql status key = insert { c with eng := e' } s sql status key := by
  rw [insert, insert, runInsert_agree h c s hs]

theorem runUpdate_agree {T : List (List Byte)} {e e' : Engine S} (h : Agree T e e') (c : Ctx S) (s : S) (stmts : Stmts)
    (hs : ∀ t, stmts.updateStmt = some t → t ∈ T) (status : Status) (more : S → Status → Res Status) :
    runUpdate { c with eng := e } s stmts status more = runUpdate { c with eng := e' } s stmts status more := by
  unfold runUpdate
  cases hu : stmts.updateStmt with
  | none => rfl
  | some u => simp only [runDone_agree h c s (sql := some u) (fun t ht => hs t (by rw [hu]; exact ht))]

/-- the statements that are used -/
def texts (st : Stmts) : List (List Byte) := st.select.toList ++ st.insertStmt.toList ++ st.updateStmt.toList

theorem mem_texts (st : Stmts) : (∀ t, st.select = some t → t ∈ texts st) ∧ (∀ t, st.insertStmt = some t → t ∈ texts st) ∧
    ∀ t, st.updateStmt = some t → t ∈ texts st := by
  refine ⟨?_, ?_, ?_⟩ <;> intro t ht <;> simp [texts, ht]

theorem texts_length (st : Stmts) : (texts st).length ≤ 3 := by
  unfold texts
  cases st.select <;> cases st.insertStmt <;> cases st.updateStmt <;> simp

theorem updateIfExists_agree {e e' : Engine S} (c : Ctx S) (s : S) (st : Stmts) (h : Agree (texts st) e e')
    (status : Status) : updateIfExists { c with eng := e } s st status = updateIfExists { c with eng := e' } s st status := by
  simp only [updateIfExists, runSql_agree h c s (mem_texts st).1, h.totalChanges, runUpdate_agree h c _ st (mem_texts st).2.2]

theorem update_agree {e e' : Engine S} (c : Ctx S) (s : S) (st : Stmts) (h : Agree (texts st) e e')
    (status : Status) : update { c with eng := e } s st status = update { c with eng := e' } s st status := by
  simp only [update, updateIfExists_agree c s st h, h.errmsg]

theorem updateOrInsert_agree {e e' : Engine S} (c : Ctx S) (s : S) (st : Stmts) (h : Agree (texts st) e e')
    (status : Status) : updateOrInsert { c with eng := e } s st status = updateOrInsert { c with eng := e' } s st status := by
  simp only [updateOrInsert, runSql_agree h c s (mem_texts st).1, runUpdate_agree h c _ st (mem_texts st).2.2,
    runInsert_agree h c _ (mem_texts st).2.1]

theorem genericData_eng (c : Ctx S) (e : Engine S) (json : List (List Byte × Val)) :
    genericData { c with eng := e } json = (genericData c json).map fun r => ({ r.1 with eng := e }, r.2) := by
  unfold genericData
  cases c.infos with
  | none =>
    cases c.data with
    | some _ => rfl
    | none => cases h : jsonToBindInfo json <;> simp [Res.map]
  | some infos => cases h : populateAll true infos { data := c.data.getD [] } json <;> simp [Res.map, h]

theorem generic_agree {e e' : Engine S} (c : Ctx S) (s : S) (json : List (List Byte × Val)) (stmts : Stmts)
    (status : Status) {f : Ctx S → S → Stmts → Status → Res (Option (S × Nat × Status))}
    (hf : ∀ st, stmtsOf c json stmts = .ok st → ∀ (c' : Ctx S) status,
      f { c' with eng := e } s st status = f { c' with eng := e' } s st status) :
    generic { c with eng := e } s json stmts status f = generic { c with eng := e' } s json stmts status f := by
  unfold generic
  rw [genericData_eng c e, genericData_eng c e']
  unfold stmtsOf at hf
  cases hg : genericData c json with
  | ub => rfl
  | segv => rfl
  | ok r =>
    rw [hg] at hf
    simp only [Res.map, Res.bind] at hf ⊢
    cases hc : compose json r.1.data 0 (r.1.infos.getD []) (stmts.template.map fun _ => [])
        (if stmts.insertDynamic then some ([], []) else none) with
    | ub => rfl
    | segv => rfl
    | ok q =>
      rw [hc] at hf
      simp only
      rw [hf _ rfl]

theorem exists_texts (c : Ctx S) (stmts : Stmts) (o : List (List Byte × Nat)) : ∃ T : List (List Byte), T.length ≤ 3 ∧
    ∀ kvs, outline c.infos kvs = o → ∀ st, stmtsOf c kvs stmts = .ok st → texts st = T := by
  by_cases h : ∃ kvs st, outline c.infos kvs = o ∧ stmtsOf c kvs stmts = .ok st
  · obtain ⟨kvs, st, h1, h2⟩ := h
    refine ⟨texts st, texts_length st, ?_⟩
    intro kvs' h1' st' h2'
    rw [stmtsOf_outline c stmts (h1'.trans h1.symm), h2] at h2'
    cases h2'
    rfl
  · exact ⟨[], by simp, fun kvs h1 st h2 => (h ⟨kvs, st, h1, h2⟩).elim⟩

/-- C110: operations with an object ask SQLite about at most three statements, and these depend on the object only by its
keys and the types of its values; with a table only the keys that are columns count.  Whatever SQLite would do with any
other text, no value and no other key of the object leads to it. -/
theorem C110_ops (c : Ctx S) (stmts : Stmts) (o : List (List Byte × Nat)) : ∃ T : List (List Byte), T.length ≤ 3 ∧
    ∀ kvs, outline c.infos kvs = o → ∀ e e' : Engine S, Agree T e e' → ∀ s status,
      insertOp { c with eng := e } s kvs stmts status = insertOp { c with eng := e' } s kvs stmts status ∧
      updateOp { c with eng := e } s kvs stmts status = updateOp { c with eng := e' } s kvs stmts status ∧
      updateIfExistsOp { c with eng := e } s kvs stmts status = updateIfExistsOp { c with eng := e' } s kvs stmts status ∧
      updateOrInsertOp { c with eng := e } s kvs stmts status = updateOrInsertOp { c with eng := e' } s kvs stmts status := by
  obtain ⟨T, hT, h⟩ := exists_texts c stmts o
  refine ⟨T, hT, ?_⟩
  intro kvs ho e e' ha s status
  have h := fun st hst => h kvs ho st hst
  refine ⟨?_, ?_, ?_, ?_⟩
  · unfold insertOp
    rw [generic_agree]
    intro st hst c' status
    rw [insert, insert, runInsert_agree (h st hst ▸ ha) c' s (mem_texts st).2.1]
  · refine generic_agree c s kvs stmts status ?_
    intro st hst c' status
    rw [update_agree c' s st (h st hst ▸ ha)]
  · refine generic_agree c s kvs stmts status ?_
    intro st hst c' status
    rw [updateIfExists_agree c' s st (h st hst ▸ ha)]
  · refine generic_agree c s kvs stmts status ?_
    intro st hst c' status
    rw [updateOrInsert_agree c' s st (h st hst ▸ ha)]

/-! ## arrays of objects -/

theorem collect_type {p p' : Cols} (hp : p.cols = p'.cols ∧ p.vals = p'.vals ∧ p.rows.length = p'.rows.length)
    (k : List Byte) {v v' : Val} (h : typeNum v = typeNum v') :
    (collect p k v).map (fun p => (p.cols, p.vals, p.rows.length)) =
    (collect p' k v').map (fun p => (p.cols, p.vals, p.rows.length)) := by
  obtain ⟨h1, h2, h3⟩ := hp
  rcases v with a | _ | _ <;> rcases v' with a' | _ | _ <;> (try cases a) <;> (try cases a') <;>
    first
    | (exfalso; simp [typeNum] at h; done)
    | (simp only [collect, h1, h2, h3]; split <;> simp [Res.map, h3])
    | simp [collect, Res.map, h1, h2, h3]

theorem collectAll_type (kvs kvs' : List (List Byte × Val))
    (h : kvs.map (fun kv => (kv.1, typeNum kv.2)) = kvs'.map fun kv => (kv.1, typeNum kv.2)) {p p' : Cols}
    (hp : p.cols = p'.cols ∧ p.vals = p'.vals ∧ p.rows.length = p'.rows.length) :
    (collectAll p kvs).map (fun p => (p.cols, p.vals, p.rows.length)) =
    (collectAll p' kvs').map (fun p => (p.cols, p.vals, p.rows.length)) := by
  induction kvs generalizing kvs' p p' with
  | nil =>
    cases kvs' with
    | nil => simp [collectAll, Res.map, hp]
    | cons _ _ => cases h
  | cons kv kvs ih =>
    cases kvs' with
    | nil => cases h
    | cons kv' kvs' =>
      obtain ⟨k, v⟩ := kv
      obtain ⟨k', v'⟩ := kv'
      simp only [List.map_cons, List.cons.injEq, Prod.mk.injEq] at h
      obtain ⟨⟨rfl, ht⟩, h⟩ := h
      have hc := collect_type hp k ht
      simp only [collectAll]
      cases ha : collect p k v <;> cases hb : collect p' k v' <;> rw [ha, hb] at hc <;>
        simp only [Res.map, Res.ok.injEq, Prod.mk.injEq, reduceCtorEq] at hc
      · exact ih kvs' h hc
      · rfl
      · rfl

theorem insertOne_type (table : List Byte) {kvs kvs' : List (List Byte × Val)}
    (h : outline none kvs = outline none kvs') :
    (insertOne table kvs).map (·.1) = (insertOne table kvs').map (·.1) := by
  have h := h
  simp only [outline] at h
  rw [List.filter_eq_self.mpr (by simp), List.filter_eq_self.mpr (by simp)] at h
  have := collectAll_type kvs kvs' h (p := {}) (p' := {}) ⟨rfl, rfl, rfl⟩
  unfold insertOne
  cases ha : collectAll {} kvs <;> cases hb : collectAll {} kvs' <;> rw [ha, hb] at this <;>
    simp only [Res.map, Res.ok.injEq, Prod.mk.injEq, reduceCtorEq] at this
  simp only [Res.bind, this]
  split <;> rfl

/-- the statement for an object -/
def textsOne (table : List Byte) (kvs : List (List Byte × Val)) : List (List Byte) :=
  match insertOne table kvs with
  | .ok (sql, _) => [sql]
  | _ => []

theorem textsOne_type (table : List Byte) {kvs kvs' : List (List Byte × Val)}
    (h : outline none kvs = outline none kvs') : textsOne table kvs = textsOne table kvs' := by
  have := insertOne_type table h
  unfold textsOne
  cases ha : insertOne table kvs <;> cases hb : insertOne table kvs' <;> rw [ha, hb] at this <;>
    simp only [Res.map, Res.ok.injEq, reduceCtorEq] at this
  simp [this]

theorem Agree.sub {T T' : List (List Byte)} {e e' : Engine S} (h : Agree T e e') (hs : ∀ t ∈ T', t ∈ T) :
    Agree T' e e' :=
  ⟨fun t ht => h.prep t (hs t ht), fun t ht => h.names t (hs t ht), fun t ht => h.step t (hs t ht), h.rowid, h.changes,
    h.totalChanges, h.errmsg⟩

theorem insertObj_agree {e e' : Engine S} (name table : List Byte) (s : S) (kvs : List (List Byte × Val))
    (h : Agree (textsOne table kvs) e e') : insertObj e name table s (.obj kvs) = insertObj e' name table s (.obj kvs) := by
  simp only [insertObj]
  cases ha : insertOne table kvs with
  | ub => simp only [Res.bind]
  | segv => simp only [Res.bind]
  | ok p =>
    have hT : ∀ t, some p.1 = some t → t ∈ textsOne table kvs := by
      intro t ht
      cases ht
      simp [textsOne, ha]
    simp only [Res.bind]
    rw [insert_agree h ⟨e, name, some p.2, none⟩ s hT]

theorem insertAll_agree {e e' : Engine S} (name table : List Byte) (objs : List (List (List Byte × Val)))
    (h : Agree (objs.flatMap (textsOne table)) e e') (s : S) (ret : Option Int) :
    insertAll e name table s ret (objs.map .obj) = insertAll e' name table s ret (objs.map .obj) := by
  induction objs generalizing s ret with
  | nil => rfl
  | cons kvs objs ih =>
    simp only [List.map_cons, insertAll]
    rw [insertObj_agree name table s kvs (h.sub (by intro t ht; simp [ht]))]
    congr 1
    funext s
    exact ih (h.sub (by intro t ht; simp only [List.flatMap_cons, List.mem_append]; exact .inr ht)) s _

/-- C110: the insertion of an array of objects asks SQLite about at most one statement for every object, and these depend
on the objects only by their keys and the types of their values -/
theorem C110_arrays (name table : List Byte) (os : List (List (List Byte × Nat))) :
    ∃ T : List (List Byte), T.length ≤ os.length ∧
      ∀ objs : List (List (List Byte × Val)), objs.map (outline none) = os → ∀ e e' : Engine S, Agree T e e' →
        ∀ s, insertJsonArray e name table s (.arr (objs.map .obj)) =
          insertJsonArray e' name table s (.arr (objs.map .obj)) := by
  have hex : ∃ T : List (List Byte), T.length ≤ os.length ∧
      ∀ objs : List (List (List Byte × Val)), objs.map (outline none) = os → objs.flatMap (textsOne table) = T := by
    by_cases h : ∃ objs : List (List (List Byte × Val)), objs.map (outline none) = os
    · obtain ⟨objs, rfl⟩ := h
      refine ⟨objs.flatMap (textsOne table), ?_, ?_⟩
      · rw [List.length_map, List.length_flatMap]
        have : ∀ l : List (List (List Byte × Val)), (l.map fun a => (textsOne table a).length).sum ≤ l.length := by
          intro l
          induction l with
          | nil => simp
          | cons a l ih =>
            have : (textsOne table a).length ≤ 1 := by
              unfold textsOne
              split <;> simp
            simp only [List.map_cons, List.sum_cons, List.length_cons]
            omega
        exact this objs
      · intro objs'
        induction objs generalizing objs' with
        | nil =>
          intro h
          cases objs' with
          | nil => rfl
          | cons _ _ => cases h
        | cons a objs ih =>
          intro h
          cases objs' with
          | nil => cases h
          | cons b objs' =>
            simp only [List.map_cons, List.cons.injEq] at h
            rw [List.flatMap_cons, List.flatMap_cons, textsOne_type table h.1, ih objs' h.2]
    · exact ⟨[], by simp, fun objs ho => (h ⟨objs, ho⟩).elim⟩
  obtain ⟨T, hT, h⟩ := hex
  refine ⟨T, hT, ?_⟩
  intro objs ho e e' ha s
  exact insertAll_agree name table objs (h objs ho ▸ ha) s none

/-! ## joins -/

theorem iterLoop_agree {A : Type} {T : List (List Byte)} {e e' : Engine S} (h : Agree T e e') (c : Ctx S)
    {sql : List Byte} (hs : sql ∈ T) (names : List (List Byte)) (binds : List (Nat × Bound))
    (f : A → List (List Byte × Col) → Res (A × Bool)) (n k : Nat) (s : S) (r : Step) (a : A) :
    iterLoop { c with eng := e } sql names binds f n k s r a = iterLoop { c with eng := e' } sql names binds f n k s r a := by
  induction n generalizing k s r a with
  | zero => rfl
  | succ n ih => simp only [iterLoop, h.step sql hs, ih]

theorem select_agree {T : List (List Byte)} {e e' : Engine S} (h : Agree T e e') (c : Ctx S) (fuel : Nat) (s : S)
    {sql : List Byte} (hs : sql ∈ T) (status : Status) :
    select { c with eng := e } fuel s sql status = select { c with eng := e' } fuel s sql status := by
  have hst := start_agree h c s (sql := some sql) (by intro t ht; cases ht; exact hs)
  simp only [select, selectIter, hst, h.errmsg, h.names sql hs, iterLoop_agree h c hs]

theorem select1_agree {T : List (List Byte)} {e e' : Engine S} (h : Agree T e e') (c : Ctx S) (fuel : Nat) (s : S)
    {sql : List Byte} (hs : sql ∈ T) (status : Status) :
    select1 { c with eng := e } fuel s sql status = select1 { c with eng := e' } fuel s sql status := by
  simp only [select1, select_agree h c fuel s hs]

theorem joinOne_agree {T : List (List Byte)} {e e' : Engine S} (h : Agree T e e') (c : Ctx S) (fuel : Nat) (s : S)
    {sql : List Byte} (hs : sql ∈ T) (key : Option (List Byte)) (infos : List Info) (data : Option (List Data)) (v : Val) :
    joinOne { c with eng := e } fuel s sql key infos data v = joinOne { c with eng := e' } fuel s sql key infos data v := by
  have hj : ∀ infos data kvs, joinSelect ⟨e, c.name, some infos, data⟩ fuel s sql key kvs =
      joinSelect ⟨e', c.name, some infos, data⟩ fuel s sql key kvs := by
    intro infos data kvs
    have h1 := fun st => select1_agree h ⟨e, c.name, some infos, data⟩ fuel s hs st
    have h2 := fun st => select_agree h ⟨e, c.name, some infos, data⟩ fuel s hs st
    simp only at h1 h2
    cases key <;> simp only [joinSelect, h1, h2]
  cases v with
  | atom _ => rfl
  | arr _ => rfl
  | obj kvs => simp only [joinOne, hj]

/-- C110: a join asks SQLite about nothing but the statement of the caller, whatever the elements are -/
theorem C110_join {e e' : Engine S} {sql : List Byte} (h : Agree [sql] e e') (c : Ctx S) (fuel : Nat)
    (key : Option (List Byte)) (s : S) (infos : List Info) (data : Option (List Data)) (v : Val) :
    joinArray { c with eng := e } fuel sql key s infos data v = joinArray { c with eng := e' } fuel sql key s infos data v := by
  have key : ∀ (vs : List Val) s infos data, joinAll { c with eng := e } fuel sql key s infos data vs =
      joinAll { c with eng := e' } fuel sql key s infos data vs := by
    intro vs
    induction vs with
    | nil => intros; rfl
    | cons v vs ih =>
      intro s infos data
      simp only [joinAll, joinOne_agree h c fuel s (List.mem_singleton.mpr rfl), ih]
  cases v with
  | atom _ => rfl
  | obj _ => rfl
  | arr vs => simp only [joinArray, key]

/-! ## what is stored -/

/-- `insert into T ( a,b) values ( @a,null);` -/
def objSql (table : List Byte) (kvs : List (List Byte × Val)) : List Byte :=
  str "insert into " ++ table ++ str " (" ++ blank (kvs.map Prod.fst) ++ str ") values (" ++ blank (kvs.map place) ++
    str ");"

theorem insertText_eq (table : List Byte) (kvs : List (List Byte × Val)) :
    insertText table (blank (kvs.map Prod.fst)) (blank (kvs.map place)) = objSql table kvs := by
  have h1 : str "insert into " = [105, 110, 115, 101, 114, 116, 32, 105, 110, 116, 111, 32] := by decide
  have h2 : str " (" = [32, 40] := by decide
  have h3 : str ") values (" = [41, 32, 118, 97, 108, 117, 101, 115, 32, 40] := by decide
  have h4 : str ");" = [41, 59] := by decide
  rw [objSql, h1, h2, h3, h4, insertText]

/-- the objects are given to the database one after the other: SQLite does not accept the statement of an object, or it
is run once with the values of the object -/
inductive Stored (e : Engine S) (table : List Byte) : S → List (List (List Byte × Val)) → S → Prop
  | nil (s) : Stored e table s [] s
  | refused {s kvs objs s' n} : e.prep s (objSql table kvs) = .error n → Stored e table s objs s' →
      Stored e table s (kvs :: objs) s'
  | run {s kvs objs s' ps} (binds : List (Nat × Bound)) : e.prep s (objSql table kvs) = .ok ps →
      (∀ i kv, (nonNull kvs)[i]? = some kv →
        (binds.filter fun p => p.1 = i + 1).map (fun p => cellOf p.2) = [jsonCell kv.2]) →
      Stored e table (e.step s (objSql table kvs) binds 0).1 objs s' → Stored e table s (kvs :: objs) s'

/-- the objects that can be stored -/
structure Plain (kvs : List (List Byte × Val)) : Prop where
  keys : (kvs.map Prod.fst).Nodup
  values : ∀ kv ∈ kvs, Storable kv.2
  few : (nonNull kvs).length < 50

theorem insertObj_stored (e : Engine S) (name table : List Byte) (s : S) {kvs : List (List Byte × Val)} (hp : Plain kvs)
    (hnames : ∀ ps, e.prep s (objSql table kvs) = .ok ps → ps = (nonNull kvs).map fun kv => some (64 :: kv.1)) :
    ∃ s', insertObj e name table s (.obj kvs) = .ok s' ∧
      ∀ objs s'', Stored e table s' objs s'' → Stored e table s (kvs :: objs) s'' := by
  obtain ⟨sql, rows, es, h1, h2, h3, h4⟩ := C78_bound table true hp.keys hp.values hp.few
  obtain ⟨rows', h5, -⟩ := C78_partial table hp.values hp.few
  rw [h5, insertText_eq] at h1
  simp only [Res.ok.injEq, Prod.mk.injEq] at h1
  obtain ⟨rfl, rfl⟩ := h1
  simp only [insertObj, h5, insertText_eq, Res.bind, insert, runInsert, runDone, runSql, start]
  cases hprep : e.prep s (objSql table kvs) with
  | error n =>
    simp only [acceptResult, setError, List.lookup, Option.isSome_none, Bool.false_eq_true, if_false, Res.map, Res.bind]
    by_cases hn : n = sqliteDone
    · simp only [hn, ne_eq, not_true, if_false, if_true, setKey, Res.map]
      exact ⟨s, rfl, fun objs s'' h => .refused hprep h⟩
    · have hk : ∀ m : Val, (insertKey kError m []).lookup kError = some m := by
        intro m; simp [insertKey, List.lookup]
      simp only [ne_eq, hn, not_false_iff, if_true, setError, hk, Option.isSome_some, Res.map, Bool.false_eq_true, if_false]
      exact ⟨s, rfl, fun objs s'' h => .refused hprep h⟩
  | ok ps =>
    rw [hnames ps hprep]
    simp only [h2]
    simp only [Res.map, unboundOf_run h2 h3, acceptResult, Res.bind]
    have hb : ∀ i kv, (nonNull kvs)[i]? = some kv →
        ((bindsOf es).filter fun p => p.1 = i + 1).map (fun p => cellOf p.2) = [jsonCell kv.2] := by
      intro i kv hi
      have := h4 i kv hi
      rwa [calls_binds, List.map_map] at this
    by_cases hn : (e.step s (objSql table kvs) (bindsOf es) 0).2.code = sqliteDone
    · simp only [hn, ne_eq, not_true, if_false, if_true, setKey, Res.map]
      exact ⟨_, rfl, fun objs s'' h => .run (bindsOf es) hprep hb h⟩
    · simp only [ne_eq, hn, not_false_iff, if_true, setError, List.lookup, Option.isSome_none, Res.map, Bool.false_eq_true,
        if_false]
      exact ⟨_, rfl, fun objs s'' h => .run (bindsOf es) hprep hb h⟩

theorem insertAll_stored (e : Engine S) (name table : List Byte) {objs : List (List (List Byte × Val))}
    (hp : ∀ kvs ∈ objs, Plain kvs)
    (hnames : ∀ kvs ∈ objs, ∀ s ps, e.prep s (objSql table kvs) = .ok ps →
      ps = (nonNull kvs).map fun kv => some (64 :: kv.1)) (s : S) (ret : Option Int) :
    ∃ s', insertAll e name table s ret (objs.map .obj) = .ok (s', if objs = [] then ret else some 0) ∧
      Stored e table s objs s' := by
  induction objs generalizing s ret with
  | nil => exact ⟨s, rfl, .nil s⟩
  | cons kvs objs ih =>
    obtain ⟨s1, h1, h2⟩ := insertObj_stored e name table s (hp kvs (by simp)) (hnames kvs (by simp) s)
    obtain ⟨s2, h3, h4⟩ := ih (fun k hk => hp k (by simp [hk])) (fun k hk => hnames k (by simp [hk])) s1 (some 0)
    refine ⟨s2, ?_, h2 _ _ h4⟩
    simp only [List.map_cons, insertAll, h1, Res.bind, h3]
    simp

/-- C110: what the insertion of an array of objects does, whatever SQLite answers: every object is given to it once, in
order, its values bound to its statement; the number returned is 0 -/
theorem C110_partial (e : Engine S) (name table : List Byte) {objs : List (List (List Byte × Val))} (hne : objs ≠ [])
    (hp : ∀ kvs ∈ objs, Plain kvs)
    (hnames : ∀ kvs ∈ objs, ∀ s ps, e.prep s (objSql table kvs) = .ok ps →
      ps = (nonNull kvs).map fun kv => some (64 :: kv.1)) (s : S) :
    ∃ s', insertJsonArray e name table s (.arr (objs.map .obj)) = .ok (s', some 0) ∧ Stored e table s objs s' := by
  obtain ⟨s', h1, h2⟩ := insertAll_stored e name table hp hnames s none
  rw [if_neg hne] at h1
  exact ⟨s', h1, h2⟩

/-! ## what is false -/

/-- C110 is false for failures: if SQLite refuses every statement nothing is stored and 0 is returned nevertheless -/
theorem C110_refused_false (e : Engine S) (he : ∀ s sql, ∃ n, e.prep s sql = .error n) (name table : List Byte)
    {objs : List (List (List Byte × Val))} (hne : objs ≠ []) (hp : ∀ kvs ∈ objs, Plain kvs) (s : S) :
    insertJsonArray e name table s (.arr (objs.map .obj)) = .ok (s, some 0) := by
  obtain ⟨s', h1, h2⟩ := C110_partial e name table hne hp (by
    intro kvs _ s ps h
    obtain ⟨n, hn⟩ := he s (objSql table kvs)
    rw [hn] at h
    cases h) s
  have key : ∀ s objs s', Stored e table s objs s' → s' = s := by
    intro s objs s' h
    induction h with
    | nil => rfl
    | refused _ _ ih => exact ih
    | @run s kvs objs s' ps binds hps _ _ _ =>
      obtain ⟨n, hn⟩ := he s (objSql table kvs)
      rw [hn] at hps
      cases hps
  rw [h1, key s objs s' h2]

/-- C110 is false for an empty array: the value of a variable that was never set is returned -/
theorem C110_empty_false (e : Engine S) (name table : List Byte) (s : S) :
    insertJsonArray e name table s (.arr []) = .ok (s, none) := rfl

/-- C110 is false for other values: an object with a number that is no `int64_t`, a truth value, an array, an object, …
ends the program after the objects in front of it are stored -/
theorem C110_type_false (e : Engine S) (name table : List Byte) {objs : List (List (List Byte × Val))}
    (hp : ∀ kvs ∈ objs, Plain kvs)
    (hnames : ∀ kvs ∈ objs, ∀ s ps, e.prep s (objSql table kvs) = .ok ps →
      ps = (nonNull kvs).map fun kv => some (64 :: kv.1))
    (s : S) (k : List Byte) {v : Val} (hv : typeNum v ∉ [1, 4, 6]) (rest : List Val) :
    insertJsonArray e name table s (.arr (objs.map .obj ++ .obj [(k, v)] :: rest)) = .segv := by
  have hone : ∀ s, insertObj e name table s (.obj [(k, v)]) = .segv := by
    intro s
    have : insertOne table [(k, v)] = .segv := by
      simp only [insertOne, collectAll]
      rcases v with a | _ | _
      · cases a <;> simp [typeNum] at hv <;> rfl
      · rfl
      · rfl
    simp only [insertObj, this, Res.bind]
  have key : ∀ (objs : List (List (List Byte × Val))) (s : S) ret, (∀ kvs ∈ objs, Plain kvs) →
      (∀ kvs ∈ objs, ∀ s ps, e.prep s (objSql table kvs) = .ok ps →
        ps = (nonNull kvs).map fun kv => some (64 :: kv.1)) →
      insertAll e name table s ret (objs.map .obj ++ .obj [(k, v)] :: rest) = .segv := by
    intro objs
    induction objs with
    | nil =>
      intro s ret _ _
      simp only [List.map_nil, List.nil_append, insertAll, hone, Res.bind]
    | cons kvs objs ih =>
      intro s ret hp hn
      obtain ⟨s1, h1, -⟩ := insertObj_stored e name table s (hp kvs (by simp)) (hn kvs (by simp) s)
      simp only [List.map_cons, List.cons_append, insertAll, h1, Res.bind]
      exact ih s1 _ (fun k hk => hp k (by simp [hk])) (fun k hk => hn k (by simp [hk]))
  exact key objs s none hp hnames

/-- C110 is false for keys: they are part of the statement as they are.  For any text there is an object without any
value whose statement goes on with it behind `insert into T ( `: the key can be chosen so that the first statement of the
text is another one. -/
theorem C110_keys_false (table q : List Byte) : ∃ (kvs : List (List Byte × Val)) (rest : List Byte),
    kvs.map Prod.snd = [.atom .null] ∧
    insertOne table kvs = .ok (str "insert into " ++ table ++ str " ( " ++ q ++ rest, []) := by
  refine ⟨[(q, .atom .null)], str ") values ( null);", rfl, ?_⟩
  have h1 : str "insert into " = [105, 110, 115, 101, 114, 116, 32, 105, 110, 116, 111, 32] := by decide
  have h2 : str " ( " = [32, 40, 32] := by decide
  have h3 : str ") values ( null);" = [41, 32, 118, 97, 108, 117, 101, 115, 32, 40, 32, 110, 117, 108, 108, 41, 59] := by
    decide
  rw [h1, h2, h3]
  simp [insertOne, collectAll, collect, Res.bind, insertText, maxRows]

/-! ## examples -/

/-- the values and the keys that are no columns do not count, the types do -/
example : outline (some [rowA .text]) [([97], .atom (.str (str "x'); drop table t; --"))), (str "b) values (1); --", .atom .null)] =
      outline (some [rowA .text]) [([97], .atom (.str []))] ∧
    outline (some [rowA .int]) [([97], .atom (.i64 5))] ≠ outline (some [rowA .int]) [([97], .atom .null)] := by
  decide

/-- the statement in which such an object is stored -/
example : stmtsOf (ctxA .done) [([97], .atom (.i64 5)), ([122], .atom .null)] { table := [116], insertDynamic := true } =
    .ok { table := [116], insertDynamic := true, insertX := some (str "insert into t (a) values (@a)") } := rfl

/-- a database that accepts everything, and one that fails for a statement -/
example : Agree [str "insert into t (a) values (@a)"] (oneParam .done)
    { oneParam .done with prep := fun s sql => if sql = str "drop table t" then .error 1 else (oneParam .done).prep s sql } := by
  constructor <;> intros <;> simp_all [oneParam]
  decide

/-- a database for objects with the one value `a`: it counts and adds the numbers -/
def adder : Engine (Nat × Int) where
  prep _ _ := .ok [some [64, 97]]
  names _ _ := []
  step s _ binds _ := ((s.1 + 1, s.2 + match binds with | [(_, .int64 n)] => n | _ => 0), .done)
  rowid s := s.1
  changes _ := 1
  totalChanges s := s.1
  errmsg _ := []

example : insertJsonArray adder [] [116] (0, 0)
    (.arr [.obj [([97], .atom (.i64 5))], .obj [([98], .atom .null), ([97], .atom (.i64 7))]]) = .ok ((2, 12), some 0) := rfl

theorem plain_five : Plain [([97], .atom (.i64 5))] :=
  ⟨by decide, by simp [Storable], by decide⟩

example : ∃ s', insertJsonArray adder [] [116] (0, 0) (.arr ([[([97], .atom (.i64 5))]].map .obj)) = .ok (s', some 0) ∧
    Stored adder [116] (0, 0) [[([97], .atom (.i64 5))]] s' :=
  C110_partial adder [] [116] (by simp) (by simpa using plain_five) (by
    intro kvs hk s ps h
    simp only [List.mem_singleton] at hk
    subst hk
    simp only [adder, Except.ok.injEq] at h
    exact h.symm) (0, 0)

example : insertJsonArray { adder with prep := fun _ _ => .error 1 } [] [116] (0, 0)
    (.arr ([[([97], .atom (.i64 5))]].map .obj)) = .ok ((0, 0), some 0) :=
  C110_refused_false _ (fun _ _ => ⟨1, rfl⟩) [] [116] (by simp) (by simpa using plain_five) (0, 0)

example : insertJsonArray adder [] [116] (0, 0) (.arr ([[([97], .atom (.i64 5))]].map .obj ++
    .obj [([98], .atom (.bool true))] :: [])) = .segv :=
  C110_type_false adder [] [116] (by simpa using plain_five) (by
    intro kvs hk s ps h
    simp only [List.mem_singleton] at hk
    subst hk
    simp only [adder, Except.ok.injEq] at h
    exact h.symm) (0, 0) [98] (by decide) []

/-- the statement of `{"a) values (7); --":null}` up to its first semicolon -/
example : (insertOne [116] [(str "a) values (7); --", .atom .null)]).map (fun p => p.1.takeWhile (· != 59)) =
    .ok (str "insert into t ( a) values (7)") := rfl

end Verif.Sqlite.Props
