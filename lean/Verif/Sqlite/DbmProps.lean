import Verif.Sqlite.Dbm
import Verif.Json.EscapeProps
import Verif.Sqlite.Bind

/-!
# Properties of the database management

C50: start-up.  C79: `$HOME` in paths.  C80: descriptions of the settings.  C81: backup.
-/

namespace Verif.Dbm.Props

open Verif Verif.Dbm
open Verif.Json (Byte snprintfAt intText wrBs)

variable {D : Type}

/-- the full name of a script -/
def fullName (dir stem : List Byte) (word : String) (v : Int) : List Byte :=
  dir ++ str "/" ++ stem ++ str "_" ++ str word ++ str "." ++ intText v ++ str ".sql"

theorem scriptName_full {dir stem : List Byte} {word : String} {v : Int}
    (h : (fullName dir stem word v).length < 128) : scriptName dir stem word v = fullName dir stem word v := by
  unfold scriptName cut
  exact List.take_of_length_le (by simpa [fullName, str] using Nat.lt_succ_iff.mp h)

/-- doing things one after the other; `none` is a file that does not exist yet -/
def perform (w : World D) : List Act → Option D → Res (Option D)
  | [], d => .ok d
  | .drop :: as, d => perform w as (d.map w.drop)
  | .apply name :: as, d =>
    match w.script name with
    | none => perform w as (some (d.getD w.empty))
    | some f => (f (d.getD w.empty)).bind fun d => perform w as (some d)

theorem perform_append (w : World D) (as bs : List Act) (d : Option D) :
    perform w (as ++ bs) d = (perform w as d).bind fun d => perform w bs d := by
  induction as generalizing d with
  | nil => rfl
  | cons a as ih =>
    cases a with
    | drop => exact ih _
    | apply name =>
      simp only [List.cons_append, perform]
      cases w.script name with
      | none => exact ih _
      | some f => cases hf : f (d.getD w.empty) <;> simp only [hf, Res.bind, ih]

theorem perform_apply (w : World D) (name : List Byte) (d : Option D) :
    perform w [.apply name] d = (applyScript w name (d.getD w.empty)).map some := by
  simp only [perform, applyScript]
  cases w.script name with
  | none => rfl
  | some f => cases f (d.getD w.empty) <;> rfl

theorem optScript_spec {w : World D} {name : List Byte} {d d' : D} {as : List Act}
    (h : optScript w name d = .ok (d', as)) :
    (as = if (w.script name).isSome = true then [.apply name] else []) ∧ perform w as (some d) = .ok (some d') := by
  unfold optScript at h
  split at h
  · rename_i hx
    rw [Res.map_eq_ok] at h
    obtain ⟨a, ha, h⟩ := h
    cases h
    refine ⟨by simp [hx], ?_⟩
    rw [perform_apply, Option.getD_some, ha]
    rfl
  · rename_i hx
    cases h
    exact ⟨by simp [hx], rfl⟩

/-- the first steps: creation -/
def createActs (missing : Bool) (s : Settings) (p : Paths) : List Act :=
  (if missing = false ∧ s.recreate = true then [.drop] else []) ++
  (if missing = true ∨ s.recreate = true then [.apply (fullName p.schema s.kind "create" s.createVersion)] else [])

/-- the steps that depend on the version after the creation -/
def laterActs (w : World D) (missing : Bool) (s : Settings) (p : Paths) (pre : Option (List Byte)) (v : Int) : List Act :=
  let insert := fullName p.data (pre.getD s.kind) "insert" v
  let customize := fullName p.data s.kind "customize" v
  let migrate := fullName p.schema s.kind "migrate" v
  (if (missing = true ∨ s.recreate = true) ∧ s.restore = true ∧ (w.script insert).isSome = true then [.apply insert]
    else []) ++
  (if (missing = true ∨ s.recreate = true) ∧ s.restore = true ∧ s.customize = true ∧
    (w.script customize).isSome = true then [.apply customize] else []) ++
  (if (w.script migrate).isSome = true then [.apply migrate] else [])

/-- the names are short enough -/
structure Short (p : Paths) (s : Settings) (file pre : Option (List Byte)) : Prop where
  file : (p.db ++ str "/" ++ file.getD s.file).length < 128
  create : (fullName p.schema s.kind "create" s.createVersion).length < 128
  insert : ∀ v : Int, -2 ^ 31 ≤ v → v < 2 ^ 31 → (fullName p.data (pre.getD s.kind) "insert" v).length < 128
  customize : ∀ v : Int, -2 ^ 31 ≤ v → v < 2 ^ 31 → (fullName p.data s.kind "customize" v).length < 128
  migrate : ∀ v : Int, -2 ^ 31 ≤ v → v < 2 ^ 31 → (fullName p.schema s.kind "migrate" v).length < 128

/-- C50: with names of fewer than 128 bytes: the creation script is run exactly if the file is missing or shall be made
anew (then everything is dropped first), data are restored only into a new database and if there is a script for its
version, and the migration script of its version is run if there is one; nothing else is done; the result says whether
the database is new and which version it has in the end -/
theorem C50_partial (w : World D) (p : Paths) (s : Settings) (file pre : Option (List Byte))
    (hs : Short p s file pre) (hv : ∀ d, -2 ^ 31 ≤ w.version d ∧ w.version d < 2 ^ 31) {r : Done D}
    (h : dbInit w p s file pre = .ok r) :
    let db := w.db (p.db ++ str "/" ++ file.getD s.file)
    (r.isNew = true ↔ db = none ∨ s.recreate = true) ∧
    ∃ d1, perform w (createActs db.isNone s p) db = .ok (some d1) ∧
      r.acts = createActs db.isNone s p ++ laterActs w db.isNone s p pre (w.version d1) ∧
      perform w r.acts db = .ok (some r.content) ∧ r.version = w.version r.content := by
  intro db
  have hfile : cut (p.db ++ [47] ++ file.getD s.file) = p.db ++ str "/" ++ file.getD s.file :=
    List.take_of_length_le (by simpa [str] using Nat.lt_succ_iff.mp hs.file)
  have hcreate := scriptName_full hs.create
  unfold dbInit at h
  obtain ⟨⟨d1, new, as1⟩, h1, h⟩ := (Res.bind_eq_ok (x := createDb w p s file)).mp h
  obtain ⟨⟨d2, as2⟩, h2, h⟩ := (Res.bind_eq_ok (x := if (new && s.restore) = true then
    restoreData w p s pre (w.version d1) d1 else .ok (d1, []))).mp h
  rw [Res.map_eq_ok] at h
  obtain ⟨⟨d3, as3⟩, h3, rfl⟩ := h
  obtain ⟨hv1, hv2⟩ := hv d1
  have hc : as1 = createActs db.isNone s p ∧ (new = true ↔ db = none ∨ s.recreate = true) ∧
      perform w as1 db = .ok (some d1) := by
    unfold createDb at h1
    simp only [hfile, hcreate] at h1
    change (match db with
      | some d =>
        if s.recreate = true then (applyScript w _ (w.drop d)).map fun d => (d, true, [Act.drop, Act.apply _])
        else .ok (d, false, [])
      | none => (applyScript w _ w.empty).map fun d => (d, true, [Act.apply _])) = _ at h1
    cases hdb : db with
    | none =>
      rw [hdb] at h1
      simp only [Res.map_eq_ok, Prod.mk.injEq] at h1
      obtain ⟨a, ha, rfl, rfl, rfl⟩ := h1
      refine ⟨by simp [createActs], by simp, ?_⟩
      rw [perform_apply, Option.getD_none, ha]
      rfl
    | some d =>
      rw [hdb] at h1
      simp only at h1
      split at h1
      · rename_i hr
        simp only [Res.map_eq_ok, Prod.mk.injEq] at h1
        obtain ⟨a, ha, rfl, rfl, rfl⟩ := h1
        refine ⟨by simp [createActs, hr], by simp [hr], ?_⟩
        rw [perform, perform_apply, Option.map_some, Option.getD_some, ha]
        rfl
      · rename_i hr
        simp only [Res.ok.injEq, Prod.mk.injEq] at h1
        obtain ⟨rfl, rfl, rfl⟩ := h1
        exact ⟨by simp [createActs, hr], by simp [hr], rfl⟩
  obtain ⟨rfl, hnew, hp1⟩ := hc
  obtain ⟨rfl, hp3⟩ := optScript_spec h3
  rw [scriptName_full (hs.migrate _ hv1 hv2)] at hp3
  have hr : as2 = (if new = true ∧ s.restore = true ∧
        (w.script (fullName p.data (pre.getD s.kind) "insert" (w.version d1))).isSome = true then
        [.apply (fullName p.data (pre.getD s.kind) "insert" (w.version d1))] else []) ++
      (if new = true ∧ s.restore = true ∧ s.customize = true ∧
        (w.script (fullName p.data s.kind "customize" (w.version d1))).isSome = true then
        [.apply (fullName p.data s.kind "customize" (w.version d1))] else []) ∧
      perform w as2 (some d1) = .ok (some d2) := by
    split at h2
    · rename_i hn
      simp only [Bool.and_eq_true] at hn
      unfold restoreData at h2
      rw [scriptName_full (hs.insert _ hv1 hv2), scriptName_full (hs.customize _ hv1 hv2)] at h2
      obtain ⟨⟨e1, b1⟩, g1, h2⟩ := (Res.bind_eq_ok (x := optScript w _ d1)).mp h2
      obtain ⟨rfl, q1⟩ := optScript_spec g1
      split at h2
      · rename_i hcu
        rw [Res.map_eq_ok] at h2
        obtain ⟨⟨e2, b2⟩, g2, h2⟩ := h2
        obtain ⟨rfl, q2⟩ := optScript_spec g2
        cases h2
        refine ⟨by simp [hn.1, hn.2, hcu], ?_⟩
        rw [perform_append, q1, Res.bind, q2]
      · rename_i hcu
        cases h2
        exact ⟨by simp [hn.1, hn.2, hcu], q1⟩
    · rename_i hn
      cases h2
      refine ⟨?_, rfl⟩
      cases new <;> cases hrs : s.restore <;> simp_all
  obtain ⟨rfl, hp2⟩ := hr
  refine ⟨hnew, d1, hp1, ?_, ?_, rfl⟩
  · simp only [laterActs, scriptName_full (hs.migrate _ hv1 hv2)]
    have hnew' : (db.isNone = true ∨ s.recreate = true) ↔ new = true := by rw [hnew, Option.isNone_iff_eq_none]
    simp only [hnew', List.append_assoc]
  · rw [perform_append, hp1]
    simp only [Res.bind]
    rw [perform_append, hp2]
    simp only [Res.bind]
    rw [scriptName_full (hs.migrate _ hv1 hv2)]
    exact hp3

theorem optScript_total {w : World D} (hw : ∀ n f d, w.script n = some f → ∃ d', f d = .ok d') (name : List Byte) (d : D) :
    ∃ r, optScript w name d = .ok r := by
  unfold optScript applyScript
  cases hn : w.script name with
  | none => exact ⟨_, rfl⟩
  | some f =>
    obtain ⟨d', h⟩ := hw _ _ d hn
    exact ⟨(d', [.apply name]), by simp [h, Res.map]⟩

/-- C50: if no script fails, start-up ends, whatever the names are -/
theorem C50_total (w : World D) (p : Paths) (s : Settings) (file pre : Option (List Byte))
    (hw : ∀ n f d, w.script n = some f → ∃ d', f d = .ok d') : ∃ r, dbInit w p s file pre = .ok r := by
  have ha : ∀ n d, ∃ d', applyScript w n d = .ok d' := by
    intro n d
    unfold applyScript
    cases hn : w.script n with
    | none => exact ⟨_, rfl⟩
    | some f => exact hw _ _ d hn
  have hc : ∃ r, createDb w p s file = .ok r := by
    unfold createDb
    simp only
    split
    · split
      · obtain ⟨d', h⟩ := ha (scriptName p.schema s.kind "create" s.createVersion) (w.drop ‹_›)
        exact ⟨_, by rw [h]; rfl⟩
      · exact ⟨_, rfl⟩
    · obtain ⟨d', h⟩ := ha (scriptName p.schema s.kind "create" s.createVersion) w.empty
      exact ⟨_, by rw [h]; rfl⟩
  have hr : ∀ v d, ∃ r, restoreData w p s pre v d = .ok r := by
    intro v d
    unfold restoreData
    obtain ⟨r, h⟩ := optScript_total hw (scriptName p.data (pre.getD s.kind) "insert" v) d
    rw [h]
    simp only [Res.bind]
    split
    · obtain ⟨q, h⟩ := optScript_total hw (scriptName p.data s.kind "customize" v) r.1
      exact ⟨_, by rw [h]; rfl⟩
    · exact ⟨_, rfl⟩
  obtain ⟨r, h1⟩ := hc
  unfold dbInit
  rw [h1]
  simp only [Res.bind]
  have hq : ∃ q, (if (r.2.1 && s.restore) = true then restoreData w p s pre (w.version r.1) r.1
      else .ok (r.1, [])) = .ok q := by
    split
    · exact hr _ _
    · exact ⟨_, rfl⟩
  obtain ⟨q, h2⟩ := hq
  rw [h2]
  obtain ⟨m, h3⟩ := optScript_total hw (scriptName p.schema s.kind "migrate" (w.version r.1)) q.1
  exact ⟨_, by simp only [h3]; rfl⟩

/-- databases that are nothing but a version; every script is one that sets it -/
def versions (script : List Byte → Option Int) : World Int where
  db _ := some 1
  script n := (script n).map fun v _ => .ok v
  empty := 0
  drop _ := 0
  version d := d

theorem intText_one : intText 1 = [49] := by simp [intText, Json.dec]

theorem intText_two : intText 2 = [50] := by simp [intText, Json.dec]

def exSettings : Settings :=
  { kind := [107], file := [102], recreate := false, restore := false, customize := false, createVersion := 1 }

/-- C50 is false for long names: a migration script for the version of the database exists but is not run -/
theorem C50_long_false : ∃ (w : World Int) (p : Paths) (r : Done Int), dbInit w p exSettings none none = .ok r ∧
    (w.script (fullName p.schema exSettings.kind "migrate" 1)).isSome = true ∧ r.version = 1 ∧ r.acts = [] := by
  let p : Paths := { schema := List.replicate 127 120, data := [], db := [] }
  let w := versions fun n => if n = fullName p.schema exSettings.kind "migrate" 1 then some 2 else none
  have hne : scriptName p.schema exSettings.kind "migrate" 1 ≠ fullName p.schema exSettings.kind "migrate" 1 := by
    intro h
    have h1 := congrArg List.length h
    simp [scriptName, fullName, cut, p, str, intText_one, exSettings] at h1
  refine ⟨w, p, ⟨1, 1, false, []⟩, ?_, by simp [w, versions], rfl, rfl⟩
  simp [dbInit, createDb, w, versions, exSettings, Res.bind, optScript, Res.map] at hne ⊢
  simp [hne]

/-- C50 is false if the restored data set another version: the migration script of the version before is run, and the
one of the version of the database is not -/
theorem C50_restored_false : ∃ (w : World Int) (p : Paths) (r : Done Int),
    dbInit w p { exSettings with recreate := true, restore := true } none none = .ok r ∧
    r.acts = [.drop, .apply (fullName p.schema [107] "create" 1), .apply (fullName p.data [107] "insert" 1),
      .apply (fullName p.schema [107] "migrate" 1)] ∧
    perform w (r.acts.take 3) (some 1) = .ok (some 2) ∧ (w.script (fullName p.schema [107] "migrate" 2)).isSome = true := by
  let p : Paths := { schema := [115], data := [100], db := [98] }
  let w := versions fun n =>
    if n = fullName p.schema [107] "create" 1 then some 1
    else if n = fullName p.data [107] "insert" 1 then some 2
    else if n = fullName p.schema [107] "migrate" 1 then some 3
    else if n = fullName p.schema [107] "migrate" 2 then some 4 else none
  have e : ∀ a b c, (fullName a b c 1).length < 128 → scriptName a b c 1 = fullName a b c 1 := fun _ _ _ => scriptName_full
  refine ⟨w, p, ⟨3, 3, true, _⟩, ?_, rfl, ?_, ?_⟩
  · simp [dbInit, createDb, restoreData, w, versions, exSettings, Res.bind, optScript, Res.map, applyScript, p, scriptName,
      cut, fullName, str, intText_one]
  · simp [perform, w, versions, p, fullName, str, intText_one, Res.bind]
  · simp [w, versions, p, fullName, str, intText_one, intText_two]

/-- C50: a database that shall be made anew, without a creation script, is emptied, and counts as new -/
theorem C50_emptied : ∃ (w : World Int) (p : Paths) (r : Done Int),
    dbInit w p { exSettings with recreate := true } none none = .ok r ∧ r.isNew = true ∧
    r.content = w.drop 1 ∧ ∀ n, w.script n = none := by
  refine ⟨versions fun _ => none, ⟨[115], [100], [98]⟩, ⟨0, 0, true, [.drop, .apply (scriptName [115] [107] "create" 1)]⟩, ?_, rfl, rfl, fun _ => rfl⟩
  simp [dbInit, createDb, versions, exSettings, Res.bind, optScript, Res.map, applyScript]

theorem dec_length (n : Nat) (k : Nat) (h : n < 10 ^ (k + 1)) : (Json.dec n).length ≤ k + 1 := by
  induction k generalizing n with
  | zero => rw [Json.dec, if_pos (by simpa using h)]; simp
  | succ k ih =>
    rw [Json.dec]
    split
    · simp
    · rw [List.length_append, List.length_singleton]
      have := ih (n / 10) (by rw [Nat.pow_succ] at h; omega)
      omega

theorem intText_length {v : Int} (h1 : -2 ^ 31 ≤ v) (h2 : v < 2 ^ 31) : (intText v).length ≤ 11 := by
  unfold intText
  split
  · have := dec_length (-v).toNat 9 (by omega)
    simp only [List.length_cons]
    omega
  · have := dec_length v.toNat 9 (by omega)
    omega

/-- paths of at most 80 bytes and names of the sizes in the structures are short -/
theorem short_of_small {p : Paths} {s : Settings} {file pre : Option (List Byte)} (h1 : p.schema.length ≤ 80)
    (h2 : p.data.length ≤ 80) (h3 : p.db.length ≤ 80) (hk : s.kind.length ≤ 15) (hf : (file.getD s.file).length ≤ 31)
    (hp : (pre.getD s.kind).length ≤ 15) (hv : -2 ^ 31 ≤ s.createVersion ∧ s.createVersion < 2 ^ 31) :
    Short p s file pre := by
  have hc := intText_length hv.1 hv.2
  constructor
  · simp [str]; omega
  · simp [fullName, str]; omega
  all_goals
    intro v g1 g2
    have := intText_length g1 g2
    simp [fullName, str]; omega

example : Short ⟨[115], [100], [98]⟩ exSettings none none :=
  short_of_small (by simp) (by simp) (by simp) (by simp [exSettings]) (by simp [exSettings]) (by simp [exSettings])
    (by simp [exSettings])

/-- such a start-up: with recreation, restoration and migration -/
example : ∃ r, dbInit (versions fun _ => some 7) ⟨[115], [100], [98]⟩ { exSettings with recreate := true, restore := true }
    none none = .ok r ∧ r.isNew = true ∧ r.acts.length = 4 := by
  refine ⟨⟨7, 7, true, [.drop, .apply (scriptName [115] [107] "create" 1), .apply (scriptName [100] [107] "insert" 7),
    .apply (scriptName [115] [107] "migrate" 7)]⟩, ?_, rfl, rfl⟩
  simp [dbInit, createDb, restoreData, versions, exSettings, Res.bind, optScript, Res.map, applyScript]

/-! ## `$HOME` -/

theorem takeWhile_nul (s r : List Byte) (h : 0 ∉ s) : (s ++ 0 :: r).takeWhile (· != 0) = s := by
  induction s with
  | nil => simp
  | cons a s ih =>
    have ha : (a != 0) = true := by
      simp only [bne_iff_ne, ne_eq]; rintro rfl; exact h (by simp)
    rw [List.cons_append, List.takeWhile_cons, if_pos ha, ih (fun hm => h (by simp [hm]))]

theorem hasHome_iff (t : List Byte) : hasHome t = true ↔ ∃ a b, t = a ++ str "$HOME" ++ b := by
  induction t with
  | nil => simp [hasHome, str]
  | cons c cs ih =>
    rw [hasHome, Bool.or_eq_true, ih, List.isPrefixOf_iff_prefix]
    constructor
    · rintro (⟨b, hb⟩ | ⟨a, b, rfl⟩)
      · exact ⟨[], b, by simpa using hb.symm⟩
      · exact ⟨c :: a, b, rfl⟩
    · rintro ⟨a, b, h⟩
      cases a with
      | nil => exact .inl ⟨b, by simpa using h.symm⟩
      | cons x a =>
        simp only [List.cons_append, List.cons.injEq] at h
        exact .inr ⟨a, b, by simpa using h.2⟩

/-- C79: `$HOME` at the beginning of a path is replaced if the result fits; other bytes are left as they are -/
theorem C79_partial (home rest tail : List Byte) (h0 : 0 ∉ rest) (hl : home.length + rest.length < 128) :
    replaceHome (str "$HOME" ++ rest ++ 0 :: tail) home =
      .ok (home ++ rest ++ 0 :: (str "$HOME" ++ rest ++ 0 :: tail).drop (home.length + rest.length + 1)) := by
  have h1 : (0 : Byte) ∉ str "$HOME" ++ rest := by
    rw [List.mem_append, not_or]
    exact ⟨by decide, h0⟩
  unfold replaceHome
  rw [takeWhile_nul _ _ h1]
  have h3 : hasHome (str "$HOME" ++ rest) = true := (hasHome_iff _).mpr ⟨[], rest, rfl⟩
  have h2 : (str "$HOME" ++ rest).drop 5 = rest := by simp [str]
  simp only [h2, h3, if_true]
  rw [if_pos (by simpa using hl), List.length_append]

/-- C79: a path without `$HOME` is left as it is -/
theorem C79_none (path home tail : List Byte) (h0 : 0 ∉ path) (h : ¬ ∃ a b, path = a ++ str "$HOME" ++ b) :
    replaceHome (path ++ 0 :: tail) home = .ok (path ++ 0 :: tail) := by
  unfold replaceHome
  rw [takeWhile_nul _ _ h0, if_neg (by rw [hasHome_iff]; exact h)]

/-- C79 is false for results of 128 bytes and more: memory outside of the array is overwritten -/
theorem C79_long_false (home rest tail : List Byte) (h0 : 0 ∉ rest) (hl : 128 ≤ home.length + rest.length) :
    replaceHome (str "$HOME" ++ rest ++ 0 :: tail) home = .ub := by
  have h1 : (0 : Byte) ∉ str "$HOME" ++ rest := by
    rw [List.mem_append, not_or]
    exact ⟨by decide, h0⟩
  unfold replaceHome
  rw [takeWhile_nul _ _ h1]
  have h3 : hasHome (str "$HOME" ++ rest) = true := (hasHome_iff _).mpr ⟨[], rest, rfl⟩
  have h2 : (str "$HOME" ++ rest).drop 5 = rest := by simp [str]
  simp only [h2, h3, if_true]
  rw [if_neg (by simp; omega)]

/-- C79 is false for `$HOME` in the middle: the first five bytes are cut off instead (`/a/b/$HOME` becomes
`/r/$HOME`) -/
theorem C79_middle_false : replaceHome (str "/a/b/$HOME" ++ List.replicate 118 0) (str "/r/") =
    .ok (str "/r/$HOME" ++ List.replicate 1 0 ++ 69 :: List.replicate 118 0) := by decide +kernel

example : replaceHome (str "$HOME/x" ++ 0 :: List.replicate 120 7) (str "/r") =
    .ok (str "/r/x" ++ 0 :: (str "/x" ++ 0 :: List.replicate 120 7)) := by decide +kernel

/-- the array `a` holds the text `t` -/
def Holds (a t : List Byte) : Prop := 0 ∉ t ∧ ∃ tail, a = t ++ 0 :: tail

/-- `u` is the path `t` with the home directory put for a leading `$HOME`; there is no `$HOME` elsewhere in a path that does
not begin with it -/
def Expands (home t u : List Byte) : Prop :=
  (∃ rest, t = str "$HOME" ++ rest ∧ u = home ++ rest) ∨ ((¬ ∃ a b, t = a ++ str "$HOME" ++ b) ∧ u = t)

theorem replaceHome_holds {a t u home : List Byte} (hh : 0 ∉ home) (ha : Holds a t) (hx : Expands home t u)
    (hl : u.length < 128) : ∃ b, replaceHome a home = .ok b ∧ Holds b u := by
  obtain ⟨h0, tail, rfl⟩ := ha
  rcases hx with ⟨rest, rfl, rfl⟩ | ⟨hn, rfl⟩
  · have hr : (0 : Byte) ∉ rest := fun h => h0 (List.mem_append_right _ h)
    refine ⟨_, C79_partial home rest tail hr (by simpa using hl), ?_, _, rfl⟩
    rw [List.mem_append, not_or]
    exact ⟨hh, hr⟩
  · exact ⟨_, C79_none _ home tail h0 hn, h0, tail, rfl⟩

/-- C79 for the three paths together: each array holds its own path with the home directory in it -/
theorem C79_normalize (p : Paths) (home : List Byte) {t1 t2 t3 u1 u2 u3 : List Byte} (hh : 0 ∉ home)
    (h1 : Holds p.schema t1) (h2 : Holds p.data t2) (h3 : Holds p.db t3)
    (x1 : Expands home t1 u1) (x2 : Expands home t2 u2) (x3 : Expands home t3 u3)
    (l1 : u1.length < 128) (l2 : u2.length < 128) (l3 : u3.length < 128) :
    ∃ q, normalize p home = .ok q ∧ Holds q.schema u1 ∧ Holds q.data u2 ∧ Holds q.db u3 := by
  obtain ⟨b1, e1, g1⟩ := replaceHome_holds hh h1 x1 l1
  obtain ⟨b2, e2, g2⟩ := replaceHome_holds hh h2 x2 l2
  obtain ⟨b3, e3, g3⟩ := replaceHome_holds hh h3 x3 l3
  exact ⟨⟨b1, b2, b3⟩, by simp [normalize, e1, e2, e3, Res.bind_ok], g1, g2, g3⟩

/-- two paths with `$HOME` and one without -/
example : ∃ q, normalize ⟨str "$HOME/s" ++ 0 :: [], str "$HOME" ++ 0 :: [7], str "/db" ++ 0 :: []⟩ (str "/r") = .ok q ∧
    Holds q.schema (str "/r/s") ∧ Holds q.data (str "/r") ∧ Holds q.db (str "/db") :=
  C79_normalize _ _ (t1 := str "$HOME/s") (t2 := str "$HOME") (t3 := str "/db") (by decide)
    ⟨by decide, [], rfl⟩ ⟨by decide, [7], rfl⟩ ⟨by decide, [], rfl⟩
    (.inl ⟨str "/s", by decide, by decide⟩) (.inl ⟨[], by decide, by decide⟩)
    (.inr ⟨by rw [← hasHome_iff]; decide, rfl⟩) (by decide) (by decide) (by decide)

/-! ## descriptions -/

theorem chain_ok (ts : List (List Byte)) (pre old : List Byte) (size : Nat) (hs : size ≤ old.length)
    (h : ts.flatten.length < size) :
    chain (pre ++ old) pre.length size ts = .ok (pre ++ ts.flatten ++
      (if ts = [] then old else 0 :: old.drop (ts.flatten.length + 1)), pre.length + ts.flatten.length) := by
  induction ts generalizing pre old size with
  | nil => simp [chain]
  | cons t ts ih =>
    simp only [List.flatten_cons, List.length_append] at h
    have h1 : snprintfAt (pre ++ old) pre.length size t = .ok (pre ++ t ++ 0 :: old.drop (t.length + 1)) := by
      unfold snprintfAt
      rw [if_neg (by omega), List.take_of_length_le (by omega), Json.wrBs_ok _ _ _ (by simp; omega)]
      simp
    rw [chain, h1, Res.bind_ok, sub64_le (by omega)]
    have hlen : pre.length + t.length = (pre ++ t).length := by simp
    rw [hlen, ih (pre ++ t) (0 :: old.drop (t.length + 1)) (size - t.length) (by simp; omega) (by omega)]
    simp only [List.flatten_cons, List.length_append, List.append_assoc, Res.ok.injEq, Prod.mk.injEq]
    refine ⟨?_, by omega⟩
    by_cases hts : ts = []
    · subst hts; simp
    · simp only [hts, if_false, List.cons_ne_nil, List.drop_succ_cons, List.drop_drop]
      rw [show t.length + 1 + ts.flatten.length = t.length + ts.flatten.length + 1 by omega]

/-- C80: if the whole text fits, the buffer holds it, with a NUL behind it, and the rest is left as it was -/
theorem C80_partial (t : List Byte) (ts : List (List Byte)) (buf : List Byte) (size : Nat) (hs : size ≤ buf.length)
    (h : (t :: ts).flatten.length < size) :
    chain buf 0 size (t :: ts) = .ok ((t :: ts).flatten ++ 0 :: buf.drop ((t :: ts).flatten.length + 1),
      (t :: ts).flatten.length) := by
  simpa using chain_ok (t :: ts) [] buf size hs h

theorem wrBs_far (bs : List Byte) (hb : bs ≠ []) (dest : List Byte) (j : Nat) (h : dest.length ≤ j) :
    wrBs dest j bs = .ub := by
  cases bs with
  | nil => exact absurd rfl hb
  | cons b bs => simp [wrBs, Json.wrB, Nat.not_lt.mpr h, Res.bind]

/-- once the end is passed, the next text is written outside of the buffer -/
theorem chain_past (ts : List (List Byte)) (ht : ts ≠ []) (buf : List Byte) (off size : Nat) (h : buf.length ≤ off)
    (hz : size ≠ 0) : chain buf off size ts = .ub := by
  cases ts with
  | nil => exact absurd rfl ht
  | cons t ts => rw [chain, snprintfAt, if_neg hz, wrBs_far _ (by simp) _ _ h]; rfl

theorem sub64_past {x y : Nat} (h : x < y) (hy : y < 2 ^ 64) : sub64 x y ≠ 0 := by
  unfold sub64
  simp only [Nat.not_le.mpr h, if_false]
  omega

/-- C80 is false: if a text that is not the last one goes beyond the buffer, the next one is written outside of it -/
theorem C80_false (a : List (List Byte)) (t : List Byte) (b : List (List Byte)) (buf : List Byte)
    (h : buf.length < a.flatten.length) (hl : a.flatten.length < 2 ^ 64) : chain buf 0 buf.length (a ++ t :: b) = .ub := by
  have key : ∀ (a : List (List Byte)) (pre old : List Byte), old.length < a.flatten.length → a.flatten.length < 2 ^ 64 →
      chain (pre ++ old) pre.length old.length (a ++ t :: b) = .ub := by
    intro a
    induction a with
    | nil => intro pre old h; simp at h
    | cons x xs ih =>
      intro pre old h hl
      simp only [List.flatten_cons, List.length_append] at h hl
      rw [List.cons_append, chain]
      by_cases h0 : old.length = 0
      · have : old = [] := by simpa using h0
        subst this
        simp only [snprintfAt, List.length_nil, if_true, Res.bind_ok]
        by_cases hx : x.length = 0
        · have hx' : x = [] := by simpa using hx
          subst hx'
          simpa [sub64_le] using ih pre [] (by simpa using h) (by omega)
        · exact chain_past _ (by simp) _ _ _ (by simp) (sub64_past (by omega) (by omega))
      · simp only [snprintfAt, h0, if_false]
        rw [Json.wrBs_ok _ _ _ (by simp; omega), Res.bind_ok]
        by_cases hx : x.length < old.length
        · rw [List.take_of_length_le (by omega), sub64_le (by omega)]
          have := ih (pre ++ x) (0 :: old.drop (x.length + 1))
            (by simp only [List.length_cons, List.length_drop]; omega) (by omega)
          simp only [List.length_append, List.length_cons, List.length_drop] at this
          rw [show old.length - (x.length + 1) + 1 = old.length - x.length by omega] at this
          simpa using this
        · by_cases he : x.length = old.length
          · rw [he, sub64_le (Nat.le_refl _), Nat.sub_self]
            have hlen : (pre ++ (List.take (old.length - 1) x ++ [(0 : Byte)]) ++
                List.drop (List.take (old.length - 1) x ++ [(0 : Byte)]).length old).length = pre.length + old.length := by
              simp; omega
            have := ih (pre ++ (List.take (old.length - 1) x ++ [0]) ++
                List.drop (List.take (old.length - 1) x ++ [0]).length old) []
                (by rw [List.length_nil]; omega) (by omega)
            rw [hlen] at this
            simpa using this
          · refine chain_past _ (by simp) _ _ _ ?_ (sub64_past (by omega) (by omega))
            simp; omega
  simpa using key a [] buf h hl

/-- C80 for the four functions themselves: what the buffer holds if it is large enough, each text spelled out -/
theorem C80_texts (buf : List Byte) (size : Nat) (hs : size ≤ buf.length) (p : Paths) (s : Settings) (final : Int)
    (text : List Byte) (hl : text.length < size) :
    (text = str "schema_script_path:" ++ p.schema ++ str ", data_script_path:" ++ p.data ++ str ", db_file_path:" ++ p.db →
      pathInfo2str buf size p = .ok (text ++ 0 :: buf.drop (text.length + 1), text.length)) ∧
    (text = str "schema_script_path:" ++ p.schema ++ str ", data_script_path:" ++ p.data ++ str ", db_file_path:" ++ p.db ++
        str ", " →
      pathInfoSnprint buf size p = .ok (text ++ 0 :: buf.drop (text.length + 1), text.length)) ∧
    (text = str "kind:" ++ s.kind ++ str ", file:" ++ s.file ++
        (if s.recreate then str ", recreate_db:true" else str ", recreate_db:false") ++
        (if s.restore then str ", restore_db:true" else str ", restore_db:false") ++
        str ", create_version:" ++ intText s.createVersion ++ str ", final_version:" ++ intText final →
      dbInfo2str buf size s final = .ok (text ++ 0 :: buf.drop (text.length + 1), text.length)) ∧
    (text = str "db_kind:" ++ s.kind ++ str ", create_version:" ++ intText s.createVersion ++
        (if s.recreate then str ", recreate_db:true, " else str ", recreate_db:false, ") ++
        (if s.restore then str "restore_db:true, " else str "restore_db:false, ") →
      settingsSnprint buf size s = .ok (text ++ 0 :: buf.drop (text.length + 1), text.length)) := by
  have key : ∀ t ts, text = (t :: ts).flatten →
      chain buf 0 size (t :: ts) = .ok (text ++ 0 :: buf.drop (text.length + 1), text.length) := by
    intro t ts h
    subst h
    exact C80_partial t ts buf size hs hl
  refine ⟨fun h => key _ _ ?_, fun h => key _ _ ?_, fun h => key _ _ ?_, fun h => key _ _ ?_⟩ <;> rw [h]
  · simp [str]
  · simp [str]
  · cases s.recreate <;> cases s.restore <;> simp [str, tf]
  · cases s.recreate <;> cases s.restore <;> simp [str, tf]

/-- settings that differ in both flags, in 120 bytes -/
example : (settingsSnprint (List.replicate 120 7) 120 ⟨str "k", str "k.db", true, false, false, 3⟩).bind (fun r => .ok r.2) =
    .ok (str "db_kind:k, create_version:3, recreate_db:true, restore_db:false, ").length := by
  rw [(C80_texts (List.replicate 120 7) 120 (by simp) ⟨[], [], []⟩ ⟨str "k", str "k.db", true, false, false, 3⟩ 0
    (str "db_kind:k, create_version:3, recreate_db:true, restore_db:false, ") (by decide)).2.2.2 (by decide +kernel)]
  rfl

/-- the description of the paths, in 80 bytes and in 8 -/
example : ((str "schema_script_path:" ++ str "s" ++ str ", ") ::
    [str "data_script_path:" ++ str "d" ++ str ", ", str "db_file_path:" ++ str "b"]).flatten.length < 80 := by decide

example : pathInfo2str (List.replicate 8 0) 8 ⟨str "s", str "d", str "b"⟩ = .ub :=
  C80_false [str "schema_script_path:" ++ str "s" ++ str ", "] _ _ (List.replicate 8 0) (by decide) (by decide)

/-! ## backup -/

/-- C81: the command of a backup, if it is short enough -/
theorem C81_partial (w : World D) (p : Paths) (s : Settings) (file pre : Option (List Byte)) (ok : Bool) {d : D}
    (hf : (p.db ++ str "/" ++ file.getD s.file).length < 128)
    (hd : w.db (p.db ++ str "/" ++ file.getD s.file) = some d)
    (hl : (str "/cxd/s/dump_insert.sh " ++ (p.db ++ str "/" ++ file.getD s.file) ++ str " > " ++
      fullName p.data (pre.getD s.kind) "insert" (w.version d)).length < 128) :
    backup w p s file pre ok = (some (str "/cxd/s/dump_insert.sh " ++ (p.db ++ str "/" ++ file.getD s.file) ++ str " > " ++
      fullName p.data (pre.getD s.kind) "insert" (w.version d)), true) := by
  have hfile : cut (p.db ++ [47] ++ file.getD s.file) = p.db ++ str "/" ++ file.getD s.file :=
    List.take_of_length_le (by simpa [str] using Nat.lt_succ_iff.mp hf)
  have hname : ∀ x : List Byte, x ++ p.data ++ [47] ++ pre.getD s.kind ++ str "_insert." ++ intText (w.version d) ++ str ".sql"
      = x ++ fullName p.data (pre.getD s.kind) "insert" (w.version d) := by
    intro x
    simp [fullName, str]
  unfold backup
  simp only [hfile, hd, hname]
  rw [show cut _ = _ from List.take_of_length_le (Nat.lt_succ_iff.mp hl)]

/-- C81: without the database nothing is done, and false is returned -/
theorem C81_missing (w : World D) (p : Paths) (s : Settings) (file pre : Option (List Byte)) (ok : Bool)
    (hf : (p.db ++ str "/" ++ file.getD s.file).length < 128)
    (hd : w.db (p.db ++ str "/" ++ file.getD s.file) = none) : backup w p s file pre ok = (none, false) := by
  have hfile : cut (p.db ++ [47] ++ file.getD s.file) = p.db ++ str "/" ++ file.getD s.file :=
    List.take_of_length_le (by simpa [str] using Nat.lt_succ_iff.mp hf)
  unfold backup
  simp only [hfile, hd]

/-- C81 is false: true is returned although the command failed -/
theorem C81_failed_false : (backup (versions fun _ => none) ⟨[115], [100], [98]⟩ exSettings none none false).2 = true := rfl

/-- C81 is false for long paths: the command is cut in the name of the file that the data go to -/
theorem C81_long_false : ∃ (p : Paths) (cmd : List Byte), p.data = List.replicate 100 100 ∧
    (backup (versions fun _ => none) p exSettings none none true) = (some cmd, true) ∧
    ¬ fullName p.data exSettings.kind "insert" 1 <:+ cmd := by
  refine ⟨⟨[115], List.replicate 100 100, [98]⟩, _, rfl, rfl, ?_⟩
  intro h
  obtain ⟨x, hx⟩ := h
  have h1 := congrArg List.getLast? hx
  have h2 : fullName (List.replicate 100 100) exSettings.kind "insert" 1 ≠ [] := by simp [fullName, str]
  rw [List.getLast?_append] at h1
  simp [fullName, str, cut, intText_one, versions, exSettings] at h1

end Verif.Dbm.Props
