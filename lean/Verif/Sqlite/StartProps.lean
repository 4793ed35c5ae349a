import Verif.Sqlite.Start
import Verif.Sqlite.MkdirProps
import Verif.Sqlite.OpenProps
import Verif.Sqlite.DbmProps

/-!
# C104: start-up with its directories and its log
-/

namespace Verif.Dbm.Props

open Verif Verif.Dbm
open Verif.Json (Byte intText)

variable {D : Type}

/-! ## statements -/

/-- what scripts do, and whether the database `f` exists, as in C50 -/
def worldOf (e : Env D) (f : List Byte) (od : Option D) : World D where
  db := fun n => if n = f then od else none
  script := fun n => (e.script n).map fun sql d =>
    match effect sql d with
    | some d' => .ok d'
    | none => .segv
  empty := e.empty
  drop := e.drop
  version := e.version

/-- how the log is read: `none` if there is no table `log`; rows can be added to such a table -/
def LogOk (e : Env D) (rows : D → Option (List Row)) : Prop :=
  ∀ d rs r, rows d = some rs → ∃ d', e.logInsert r d = some d' ∧ rows d' = some (rs ++ [r])

/-- the scripts that the log says were applied -/
def applied (rows : List Row) : List (List Byte) :=
  rows.filterMap fun r => if r.action = str "apply" then some r.info else none

/-- what the log should say for what was done to the database `f` -/
def appliedText (f : List Byte) (acts : List Act) : List (List Byte) :=
  acts.filterMap fun
    | .apply n => some ((n ++ str " to " ++ f).take 63)
    | .drop => none

/-- the row of a script that is applied -/
def applyRow (kind f n : List Byte) : Row := ⟨kind, str "apply", cutTo 64 (n ++ str " to " ++ f)⟩

/-- the rows of the creation of the database `f` with the script `c` -/
def createRows (missing recreate : Bool) (kind f c : List Byte) : List Row :=
  if missing then
    [⟨kind, str "create", cutTo 256 (str "create a new " ++ f ++ str " with " ++ c)⟩, applyRow kind f c]
  else if recreate then
    [⟨kind, str "recreate", cutTo 256 (str "drop all tables of " ++ f ++ str " to RECREATE a fresh db")⟩, applyRow kind f c]
  else []

/-- the rows of a script that need not exist -/
def optRows (exists_ : Bool) (kind f n : List Byte) (word missing : String) : List Row :=
  if exists_ then [⟨kind, str "restore", cutTo 256 (str "run " ++ n ++ str word ++ f)⟩, applyRow kind f n]
  else [⟨kind, str "restore", cutTo 256 (str missing ++ n)⟩]

/-- the rows of the restoration of a database of version `v` -/
def restoreRows (w : World D) (p : Paths) (s : Settings) (f : List Byte) (pre : Option (List Byte)) (v : Int) : List Row :=
  optRows (w.script (scriptName p.data (pre.getD s.kind) "insert" v)).isSome s.kind f
    (scriptName p.data (pre.getD s.kind) "insert" v) " to restore data " "cannot find restoration script " ++
  if s.customize then
    optRows (w.script (scriptName p.data s.kind "customize" v)).isSome s.kind f
      (scriptName p.data s.kind "customize" v) " to customize data " "cannot find customization script "
  else []

/-- the rows of the migration from the version `v` to `v'` -/
def migrateRows (exists_ : Bool) (kind f n : List Byte) (v v' : Int) : List Row :=
  if exists_ then
    applyRow kind f n ::
      if v' ≠ v then [⟨kind, str "migrate",
        cutTo 256 (str "ran " ++ n ++ str " to migrate " ++ f ++ str " to version " ++ intText v')⟩] else []
  else [⟨kind, str "migrate", cutTo 256 (str "cannot find " ++ n ++ str ", no migration")⟩]

/-- all rows of a start-up: `v` is the version after the creation, `v'` the one at the end -/
def startRows (w : World D) (missing : Bool) (p : Paths) (s : Settings) (f : List Byte) (pre : Option (List Byte))
    (v v' : Int) : List Row :=
  [⟨s.kind, str "open", f⟩] ++
  createRows missing s.recreate s.kind f (scriptName p.schema s.kind "create" s.createVersion) ++
  [⟨s.kind, str "open", cutTo 256 (str "user_version " ++ intText v)⟩] ++
  (if (missing || s.recreate) && s.restore then restoreRows w p s f pre v else []) ++
  migrateRows (w.script (scriptName p.schema s.kind "migrate" v)).isSome s.kind f
    (scriptName p.schema s.kind "migrate" v) v v'

/-- the file system of `s` before a start-up of the database `write a l ++ "/" ++ b`, whose log is at `lp` and has the rows
`rs`: the directory of the log is there, and every directory of the database is there or can be made -/
structure Ready (e : Env D) (rows : D → Option (List Row)) (p : Paths) (t : Settings) (file : Option (List Byte))
    (a : Nat) (l : List (List Byte × Nat)) (b : List Byte) (lp : Pos) (rs : List Row) (s : Sys D) : Prop where
  tree : Tree s.fs
  cwd : s.fs e.cwd = some .dir
  names : Written l ∧ Name b ∧ write a l ≠ []
  path : p.db ++ str "/" ++ file.getD t.file = write a l ++ slash :: b
  short : (p.db ++ str "/" ++ file.getD t.file).length < 128
  shortLog : (p.db ++ str "/cee_dbm_log.db").length < 128
  way : ∀ q, OnWay (base e.cwd a) (place (base e.cwd a) l) q → s.fs q ≠ some .file ∧ (s.fs q = none → e.allow q = true)
  db : s.fs (b :: place (base e.cwd a) l) ≠ some .dir
  dbNew : s.fs (b :: place (base e.cwd a) l) = none → e.allow (b :: place (base e.cwd a) l) = true
  logDir : ∃ d, resolve s.fs e.cwd p.db = some d ∧ s.fs d = some .dir ∧ lp = str "cee_dbm_log.db" :: d
  log : ∃ x y, (s.fs lp = none ∧ e.allow lp = true ∧ x = e.empty ∨ s.fs lp = some .file ∧ x = s.content lp) ∧
    e.logTable x = some y ∧ rows y = some rs
  logAway : ¬ OnWay (base e.cwd a) (place (base e.cwd a) l) lp
  notLog : lp ≠ b :: place (base e.cwd a) l

/-- the database before the start-up -/
def dbBefore (s : Sys D) (q : Pos) : Option D := if s.fs q = none then none else some (s.content q)

/-- how a program that works on the database `f` at `q` ends in a crash: a script failed, whose statements before the
failing one are on disk, and the last row of the log, which had the rows `rs`, names this script -/
def Died {α : Type} (e : Env D) (rows : D → Option (List Row)) (kind f : List Byte) (q lp : Pos) (rs : List Row)
    (out : Sys D × Res α) : Prop :=
  out.2 = .segv ∧ ∃ more n sql x, e.script n = some sql ∧ effect sql x = none ∧ out.1.content q = reached sql x ∧
    rows (out.1.content lp) = some (rs ++ more ++ [applyRow kind f n])

/-! ## proofs: the programs -/

theorem bind_ok {α β : Type} {m : M D α} {f : α → M D β} {s s' : Sys D} {a : α} (h : m s = (s', .ok a)) :
    (m.bind f) s = f a s' := by
  simp only [M.bind, h]

theorem bind_died {α β : Type} {e : Env D} {rows : D → Option (List Row)} {kind f : List Byte} {q lp : Pos}
    {rs more : List Row} {m : M D α} {g : α → M D β} {s : Sys D} (h : Died e rows kind f q lp (rs ++ more) (m s)) :
    Died e rows kind f q lp rs ((m.bind g) s) := by
  obtain ⟨h1, m', n, sql, x, h2, h3, h4, h5⟩ := h
  rcases hm : m s with ⟨s', r⟩
  rw [hm] at h1 h4 h5
  simp only at h1
  subst h1
  simp only [M.bind, hm]
  exact ⟨rfl, more ++ m', n, sql, x, h2, h3, h4, by rw [h5]; simp⟩

theorem died_more {α : Type} {e : Env D} {rows : D → Option (List Row)} {kind f : List Byte} {q lp : Pos}
    {rs more : List Row} {out : Sys D × Res α} (h : Died e rows kind f q lp (rs ++ more) out) :
    Died e rows kind f q lp rs out := by
  obtain ⟨h1, m', n, sql, x, h2, h3, h4, h5⟩ := h
  exact ⟨h1, more ++ m', n, sql, x, h2, h3, h4, by rw [h5]; simp⟩

theorem died_same {α β : Type} {e : Env D} {rows : D → Option (List Row)} {kind f : List Byte} {q lp : Pos}
    {rs : List Row} {m : M D α} {g : α → M D β} {s : Sys D} (h : Died e rows kind f q lp rs (m s)) :
    Died e rows kind f q lp rs ((m.bind g) s) := bind_died (more := []) (by simpa using h)

theorem bind_assoc {α β γ : Type} (m : M D α) (f : α → M D β) (g : β → M D γ) :
    (m.bind f).bind g = m.bind fun a => (f a).bind g := by
  funext s
  simp only [M.bind]
  rcases hm : m s with ⟨s', r⟩
  cases r <;> rfl

/-! ## proofs: opening -/

/-- a file in a directory that is there -/
theorem resolve_in {fs : Fs} {cwd : Pos} {dir b : List Byte} {d : Pos} (hb : Name b) (hr : resolve fs cwd dir = some d)
    (hd : fs d = some .dir) :
    resolve fs cwd (dir ++ slash :: b) = (if (fs (b :: d)).isSome then some (b :: d) else none) ∧
    (split (dir ++ slash :: b)).dropLast.foldlM (walkStep fs) (startOf cwd (dir ++ slash :: b)) = some d ∧
    (split (dir ++ slash :: b)).getLast? = some b := by
  have hne : dir ≠ [] := by rintro rfl; simp [resolve] at hr
  have hst : startOf cwd (dir ++ slash :: b) = startOf cwd dir := by
    cases dir with
    | nil => exact absurd rfl hne
    | cons x dir => rfl
  rw [resolve, if_neg hne] at hr
  have hsp : split (dir ++ slash :: b) = split dir ++ [b] := by rw [split_append, split_name hb.2.2.2]
  refine ⟨?_, ?_, ?_⟩
  · rw [resolve, if_neg (by simp), hsp, hst, List.foldlM_append, hr]
    show ([b].foldlM (walkStep fs) d) = _
    rw [List.foldlM_cons, step_name fs d hb hd]
    split <;> rfl
  · rw [hsp, List.dropLast_concat, hst, hr]
  · rw [hsp, List.getLast?_concat]

/-- the system while the database `dir/b` is worked on: the log has the rows `rs`, the database the content `od` (`none`: it
is missing), everything else is as given by `fs1` and `c0` -/
structure St (e : Env D) (rows : D → Option (List Row)) (dir b : List Byte) (lp d : Pos) (fs1 : Fs) (c0 : Pos → D)
    (rs : List Row) (od : Option D) (s : Sys D) : Prop where
  dirAt : resolve s.fs e.cwd dir = some d
  isDir : s.fs d = some .dir
  file : match od with
    | none => s.fs (b :: d) = none
    | some x => s.fs (b :: d) = some .file ∧ s.content (b :: d) = x
  log : rows (s.content lp) = some rs
  fsFrame : ∀ z, z ≠ b :: d → s.fs z = fs1 z
  frame : ∀ z, z ≠ b :: d → z ≠ lp → s.content z = c0 z

section

variable {e : Env D} {rows : D → Option (List Row)} {dir b : List Byte} {lp d : Pos} {fs1 : Fs} {c0 : Pos → D}

theorem addLog_St (hl : LogOk e rows) (hlp : lp ≠ b :: d) {rs : List Row} {od : Option D} {s : Sys D}
    (S : St e rows dir b lp d fs1 c0 rs od s) (r : Row) :
    ∃ s', addLog e (some lp) r s = (s', .ok ()) ∧ St e rows dir b lp d fs1 c0 (rs ++ [r]) od s' := by
  obtain ⟨x, hx, hr⟩ := hl _ rs r S.log
  refine ⟨{ s with content := setAt s.content lp x }, by simp only [addLog, hx], S.dirAt, S.isDir, ?_, ?_, S.fsFrame, ?_⟩
  · have := S.file
    cases od with
    | none => exact this
    | some y => exact ⟨this.1, by simp only [setAt, if_neg (Ne.symm hlp)]; exact this.2⟩
  · simpa [setAt] using hr
  · intro z h1 h2
    simp only [setAt, if_neg h2]; exact S.frame z h1 h2

theorem open_St (hb : Name b) (hlp : lp ≠ b :: d) {rs : List Row} {od : Option D} {s : Sys D}
    (S : St e rows dir b lp d fs1 c0 rs od s) (ha : od = none → e.allow (b :: d) = true) :
    ∃ s', openFile e s (dir ++ slash :: b) = some (s', b :: d) ∧
      St e rows dir b lp d fs1 c0 rs (some (od.getD e.empty)) s' ∧ s'.content (b :: d) = od.getD e.empty := by
  obtain ⟨h1, h2, h3⟩ := resolve_in hb S.dirAt S.isDir
  have hf := S.file
  cases od with
  | some x =>
    refine ⟨s, ?_, ⟨S.dirAt, S.isDir, hf, S.log, S.fsFrame, S.frame⟩, hf.2⟩
    rw [openFile, h1, hf.1]
    simp [hf.1]
  | none =>
    have hf : s.fs (b :: d) = none := hf
    have hdq : d ≠ b :: d := fun h => by have := congrArg List.length h; simp at this
    refine ⟨⟨setAt s.fs (b :: d) (some .file), setAt s.content (b :: d) e.empty⟩, ?_, ⟨?_, ?_, ?_, ?_, ?_, ?_⟩, ?_⟩
    · rw [openFile, h1, hf]
      simp only [Option.isSome_none, Bool.false_eq_true, if_false, h2, h3]
      rw [if_pos ⟨S.isDir, hb.1, hb.2.1, hb.2.2.1, hf, ha rfl⟩]
    · have hd := S.dirAt
      rw [resolve] at hd ⊢
      split at hd
      · cases hd
      · rename_i hne
        rw [if_neg hne]
        refine foldlM_mono (fun z hz => ?_) _ _ _ hd
        simp only [setAt]
        rw [if_neg]
        rintro rfl; exact hz hf
    · simp only [setAt, if_neg hdq]; exact S.isDir
    · simp [setAt]
    · simp only [setAt, if_neg hlp]; exact S.log
    · intro z hz; simp only [setAt, if_neg hz]; exact S.fsFrame z hz
    · intro z h1 h2; simp only [setAt, if_neg h1]; exact S.frame z h1 h2
    · simp [setAt]

theorem put_St (hlp : lp ≠ b :: d) {rs : List Row} {x : D} {s : Sys D} (S : St e rows dir b lp d fs1 c0 rs (some x) s)
    (y : D) : St e rows dir b lp d fs1 c0 rs (some y) { s with content := setAt s.content (b :: d) y } := by
  refine ⟨S.dirAt, S.isDir, ⟨S.file.1, by simp [setAt]⟩, ?_, S.fsFrame, ?_⟩
  · simp only [setAt, if_neg hlp]; exact S.log
  · intro z h1 h2; simp only [setAt, if_neg h1]; exact S.frame z h1 h2

theorem initDb_plain (x : D) (sql : List (D → Option D)) :
    (initDb noFaults none x (some sql) false).disk x = reached sql x ∧
    (initDb noFaults none x (some sql) false).ret = (if (effect sql x).isSome then .ok () else .segv) := by
  rw [initDb_eq _ _ _ _ _ (fun _ => rfl)]
  have : initRun noFaults sql false (before none x) = (⟨reached sql x, none⟩, (effect sql x).isSome) := by
    simp only [initRun, Bool.false_eq_true, if_false, before]
    exact execAll_disk sql x
  rw [this]
  cases (effect sql x).isSome <;> exact ⟨rfl, rfl⟩

theorem runInit_St (hb : Name b) (hlp : lp ≠ b :: d) {rs : List Row} {od : Option D}
    {s : Sys D} (S : St e rows dir b lp d fs1 c0 rs od s) (ha : od = none → e.allow (b :: d) = true) (f : List Byte) (od' : Option D) (n : List Byte) :
    match applyScript (worldOf e f od') n (od.getD e.empty) with
    | .ok x => ∃ s', runInit e (dir ++ slash :: b) (e.script n) false s = (s', .ok ()) ∧
        St e rows dir b lp d fs1 c0 rs (some x) s'
    | .segv => ∃ s' sql, runInit e (dir ++ slash :: b) (e.script n) false s = (s', .segv) ∧ e.script n = some sql ∧
        effect sql (od.getD e.empty) = none ∧
        St e rows dir b lp d fs1 c0 rs (some (reached sql (od.getD e.empty))) s'
    | .ub => False := by
  obtain ⟨s1, h1, S1, hc⟩ := open_St hb hlp S ha
  simp only [runInit, h1, applyScript, worldOf, hc]
  cases hn : e.script n with
  | none =>
    simp only [Option.map_none]
    refine ⟨_, rfl, ?_⟩
    exact put_St hlp S1 _
  | some sql =>
    simp only [Option.map_some]
    obtain ⟨hd, hr⟩ := initDb_plain (od.getD e.empty) sql
    rw [hd, hr]
    cases he : effect sql (od.getD e.empty) with
    | none =>
      simp only [Option.isSome_none, Bool.false_eq_true, if_false]
      exact ⟨_, sql, rfl, rfl, he, put_St hlp S1 _⟩
    | some x =>
      simp only [Option.isSome_some, if_true]
      refine ⟨_, rfl, ?_⟩
      rw [reached_effect sql he]
      exact put_St hlp S1 _

theorem applyFile_St (hl : LogOk e rows) (hb : Name b) (hlp : lp ≠ b :: d) {rs : List Row}
    {od : Option D} {s : Sys D} (S : St e rows dir b lp d fs1 c0 rs od s) (ha : od = none → e.allow (b :: d) = true) (f : List Byte) (od' : Option D)
    (kind n : List Byte) :
    match applyScript (worldOf e f od') n (od.getD e.empty) with
    | .ok x => ∃ s', applyFile e (some lp) kind (dir ++ slash :: b) n s = (s', .ok ()) ∧
        St e rows dir b lp d fs1 c0
          (rs ++ [⟨kind, str "apply", cutTo 64 (n ++ str " to " ++ (dir ++ slash :: b))⟩]) (some x) s'
    | .segv => Died e rows kind (dir ++ slash :: b) (b :: d) lp rs (applyFile e (some lp) kind (dir ++ slash :: b) n s)
    | .ub => False := by
  obtain ⟨s1, h1, S1⟩ := addLog_St hl hlp S ⟨kind, str "apply", cutTo 64 (n ++ str " to " ++ (dir ++ slash :: b))⟩
  have := runInit_St hb hlp S1 ha f od' n
  rw [applyFile, bind_ok h1]
  generalize applyScript (worldOf e f od') n (od.getD e.empty) = r at this ⊢
  cases r with
  | ub => exact this
  | ok x => exact this
  | segv =>
    obtain ⟨s', sql, h2, h3, h4, S2⟩ := this
    show Died _ _ _ _ _ _ _ (runInit _ _ _ _ _)
    rw [h2]
    exact ⟨rfl, [], n, sql, _, h3, h4, S2.file.2, by simpa [applyRow] using S2.log⟩

theorem version_St (hb : Name b) (hlp : lp ≠ b :: d) {rs : List Row} {x : D}
    {s : Sys D} (S : St e rows dir b lp d fs1 c0 rs (some x) s) :
    ∃ s', fileVersion e (dir ++ slash :: b) s = (s', .ok (e.version x)) ∧
      St e rows dir b lp d fs1 c0 rs (some x) s' := by
  obtain ⟨s1, h1, S1, hc⟩ := open_St hb hlp S nofun
  exact ⟨s1, by simp only [fileVersion, h1, hc, Option.getD_some], S1⟩

theorem drop_St (hb : Name b) (hlp : lp ≠ b :: d) {rs : List Row} {x : D}
    {s : Sys D} (S : St e rows dir b lp d fs1 c0 rs (some x) s) :
    ∃ s', runInit e (dir ++ slash :: b) (some [fun d => some (e.drop d)]) true s = (s', .ok ()) ∧
      St e rows dir b lp d fs1 c0 rs (some (e.drop x)) s' := by
  obtain ⟨s1, h1, S1, hc⟩ := open_St hb hlp S nofun
  simp only [Option.getD_some] at hc
  refine ⟨{ s1 with content := setAt s1.content (b :: d) (e.drop x) }, ?_, put_St hlp S1 _⟩
  simp only [runInit, h1, hc]
  rfl

theorem there_St (hb : Name b) {rs : List Row} {od : Option D} {s : Sys D} (S : St e rows dir b lp d fs1 c0 rs od s) :
    there e (dir ++ slash :: b) s = (s, .ok od.isSome) := by
  obtain ⟨h1, -, -⟩ := resolve_in hb S.dirAt S.isDir
  have hf := S.file
  rw [there, statOk, h1]
  cases od with
  | none => have hf : s.fs (b :: d) = none := hf; simp [hf]
  | some x => simp [hf.1]

theorem createFile_St (hl : LogOk e rows) (hb : Name b) (hlp : lp ≠ b :: d)
    {rs : List Row} {od : Option D} {s : Sys D} (S : St e rows dir b lp d fs1 c0 rs od s)
    (ha : od = none → e.allow (b :: d) = true) (p : Paths) (t : Settings)
    (file : Option (List Byte)) (hF : cut (p.db ++ [47] ++ file.getD t.file) = dir ++ slash :: b) :
    match createDb (worldOf e (dir ++ slash :: b) od) p t file with
    | .ok r => r.2.1 = (od.isNone || t.recreate) ∧
        ∃ s', createFile e (some lp) t (dir ++ slash :: b) (scriptName p.schema t.kind "create" t.createVersion) s =
          (s', .ok r.2.1) ∧ St e rows dir b lp d fs1 c0 (rs ++ createRows od.isNone t.recreate t.kind
            (dir ++ slash :: b) (scriptName p.schema t.kind "create" t.createVersion)) (some r.1) s'
    | .segv => Died e rows t.kind (dir ++ slash :: b) (b :: d) lp rs (createFile e (some lp) t (dir ++ slash :: b)
        (scriptName p.schema t.kind "create" t.createVersion) s)
    | .ub => False := by
  generalize hC : scriptName p.schema t.kind "create" t.createVersion = C
  have hdb : (worldOf e (dir ++ slash :: b) od).db (dir ++ slash :: b) = od := by simp [worldOf]
  simp only [createDb, hF, hdb, hC]
  rw [createFile, bind_ok (there_St hb S)]
  cases od with
  | none =>
    simp only [Option.isSome_none, Bool.false_eq_true, if_false, Option.isNone_none, Bool.true_or]
    obtain ⟨s1, e1, S1⟩ := addLog_St hl hlp S
      ⟨t.kind, str "create", cutTo 256 (str "create a new " ++ (dir ++ slash :: b) ++ str " with " ++ C)⟩
    rw [bind_ok e1]
    have h := applyFile_St hl hb hlp S1 ha (dir ++ slash :: b) none t.kind C
    simp only [Option.getD_none] at h
    have hem : (worldOf e (dir ++ slash :: b) none).empty = e.empty := rfl
    rw [hem]
    generalize applyScript (worldOf e (dir ++ slash :: b) none) C e.empty = r at h ⊢
    cases r with
    | ub => exact h
    | segv => exact bind_died h
    | ok x =>
      obtain ⟨s2, e2, S2⟩ := h
      refine ⟨by trivial, s2, by rw [bind_ok e2]; rfl, ?_⟩
      simpa [createRows, applyRow, Res.map] using S2
  | some y =>
    simp only [Option.isSome_some, if_true, Option.isNone_some, Bool.false_or]
    cases hrec : t.recreate with
    | false =>
      simp only [Bool.false_eq_true, if_false]
      exact ⟨by trivial, s, rfl, by simpa [createRows] using S⟩
    | true =>
      simp only [if_true]
      obtain ⟨s1, e1, S1⟩ := addLog_St hl hlp S ⟨t.kind, str "recreate",
        cutTo 256 (str "drop all tables of " ++ (dir ++ slash :: b) ++ str " to RECREATE a fresh db")⟩
      rw [bind_ok e1]
      obtain ⟨s2, e2, S2⟩ := drop_St hb hlp S1
      rw [bind_ok e2]
      have h := applyFile_St hl hb hlp S2 nofun (dir ++ slash :: b) (some y) t.kind C
      simp only [Option.getD_some] at h
      have hem : (worldOf e (dir ++ slash :: b) (some y)).drop y = e.drop y := rfl
      rw [hem]
      generalize applyScript (worldOf e (dir ++ slash :: b) (some y)) C (e.drop y) = r at h ⊢
      cases r with
      | ub => exact h
      | segv => exact bind_died h
      | ok x =>
        obtain ⟨s3, e3, S3⟩ := h
        refine ⟨by trivial, s3, by rw [bind_ok e3]; rfl, ?_⟩
        simpa [createRows, applyRow, Res.map] using S3

theorem optFile_St (hl : LogOk e rows) (hb : Name b) (hlp : lp ≠ b :: d)
    {rs : List Row} {x : D} {s : Sys D} (S : St e rows dir b lp d fs1 c0 rs (some x) s) (f : List Byte) (od' : Option D)
    (kind n : List Byte) (word missing : String) :
    match optScript (worldOf e f od') n x with
    | .ok r => ∃ s', optFile e (some lp) kind (dir ++ slash :: b) n word missing s = (s', .ok ()) ∧
        St e rows dir b lp d fs1 c0 (rs ++ optRows ((worldOf e f od').script n).isSome kind (dir ++ slash :: b) n word missing)
          (some r.1) s'
    | .segv => Died e rows kind (dir ++ slash :: b) (b :: d) lp rs (optFile e (some lp) kind (dir ++ slash :: b) n word missing s)
    | .ub => False := by
  have hsc : ((worldOf e f od').script n).isSome = (e.script n).isSome := by
    simp only [worldOf, Option.isSome_map]
  rw [optScript, optFile, optRows, hsc]
  cases (e.script n).isSome with
  | false =>
    simp only [Bool.false_eq_true, if_false]
    exact addLog_St hl hlp S _
  | true =>
    simp only [if_true]
    obtain ⟨s1, e1, S1⟩ := addLog_St hl hlp S
      ⟨kind, str "restore", cutTo 256 (str "run " ++ n ++ str word ++ (dir ++ slash :: b))⟩
    rw [bind_ok e1]
    have h := applyFile_St hl hb hlp S1 nofun f od' kind n
    simp only [Option.getD_some] at h
    generalize applyScript (worldOf e f od') n x = r at h ⊢
    cases r with
    | ub => exact h
    | segv => exact died_more h
    | ok y =>
      obtain ⟨s2, e2, S2⟩ := h
      refine ⟨s2, e2, ?_⟩
      simpa [applyRow] using S2

theorem restoreFile_St (hl : LogOk e rows) (hb : Name b) (hlp : lp ≠ b :: d)
    {rs : List Row} {x : D} {s : Sys D} (S : St e rows dir b lp d fs1 c0 rs (some x) s) (f : List Byte) (od' : Option D)
    (p : Paths) (t : Settings) (pre : Option (List Byte)) (v : Int) :
    match restoreData (worldOf e f od') p t pre v x with
    | .ok r => ∃ s', restoreFile e (some lp) p t (dir ++ slash :: b) pre v s = (s', .ok ()) ∧
        St e rows dir b lp d fs1 c0 (rs ++ restoreRows (worldOf e f od') p t (dir ++ slash :: b) pre v) (some r.1) s'
    | .segv => Died e rows t.kind (dir ++ slash :: b) (b :: d) lp rs (restoreFile e (some lp) p t (dir ++ slash :: b) pre v s)
    | .ub => False := by
  rw [restoreData, restoreFile, restoreRows]
  have h := optFile_St hl hb hlp S f od' t.kind (scriptName p.data (pre.getD t.kind) "insert" v) " to restore data "
    "cannot find restoration script "
  generalize optScript (worldOf e f od') (scriptName p.data (pre.getD t.kind) "insert" v) x = r at h ⊢
  cases r with
  | ub => exact h
  | segv => exact died_same h
  | ok r =>
    obtain ⟨s1, e1, S1⟩ := h
    rw [bind_ok e1]
    simp only [Res.bind]
    cases hc : t.customize with
    | false =>
      simp only [Bool.false_eq_true, if_false, List.append_nil]
      exact ⟨s1, rfl, S1⟩
    | true =>
      simp only [if_true]
      have h := optFile_St hl hb hlp S1 f od' t.kind (scriptName p.data t.kind "customize" v) " to customize data "
        "cannot find customization script "
      generalize optScript (worldOf e f od') (scriptName p.data t.kind "customize" v) r.1 = q at h ⊢
      cases q with
      | ub => exact h
      | segv => exact died_more h
      | ok q =>
        obtain ⟨s2, e2, S2⟩ := h
        exact ⟨s2, e2, by simpa using S2⟩

theorem migrateFile_St (hl : LogOk e rows) (hb : Name b) (hlp : lp ≠ b :: d)
    {rs : List Row} {x : D} {s : Sys D} (S : St e rows dir b lp d fs1 c0 rs (some x) s) (f : List Byte) (od' : Option D)
    (kind n : List Byte) (v : Int) :
    match optScript (worldOf e f od') n x with
    | .ok r => ∃ s', migrateFile e (some lp) kind (dir ++ slash :: b) n v s = (s', .ok ()) ∧
        St e rows dir b lp d fs1 c0 (rs ++ migrateRows ((worldOf e f od').script n).isSome kind (dir ++ slash :: b) n v
          (e.version r.1)) (some r.1) s'
    | .segv => Died e rows kind (dir ++ slash :: b) (b :: d) lp rs (migrateFile e (some lp) kind (dir ++ slash :: b) n v s)
    | .ub => False := by
  have hsc : ((worldOf e f od').script n).isSome = (e.script n).isSome := by
    simp only [worldOf, Option.isSome_map]
  rw [optScript, migrateFile, hsc]
  unfold migrateRows
  cases (e.script n).isSome with
  | false =>
    simp only [Bool.false_eq_true, if_false]
    exact addLog_St hl hlp S _
  | true =>
    simp only [if_true]
    have h := applyFile_St hl hb hlp S nofun f od' kind n
    simp only [Option.getD_some] at h
    generalize applyScript (worldOf e f od') n x = r at h ⊢
    cases r with
    | ub => exact h
    | segv => exact died_same h
    | ok y =>
      obtain ⟨s1, e1, S1⟩ := h
      simp only [Res.map]
      rw [bind_ok e1]
      obtain ⟨s2, e2, S2⟩ := version_St hb hlp S1
      rw [bind_ok e2]
      by_cases hv : e.version y ≠ v
      · simp only [if_pos hv]
        obtain ⟨s3, e3, S3⟩ := addLog_St hl hlp S2 ⟨kind, str "migrate",
          cutTo 256 (str "ran " ++ n ++ str " to migrate " ++ (dir ++ slash :: b) ++ str " to version " ++
            intText (e.version y))⟩
        exact ⟨s3, e3, by simpa [applyRow] using S3⟩
      · simp only [if_neg hv]
        exact ⟨s2, rfl, by simpa [applyRow] using S2⟩

/-- the part after the directories have been made -/
def rest (e : Env D) (log : Option Pos) (p : Paths) (t : Settings) (f : List Byte) (pre : Option (List Byte)) :
    M D (Bool × Int) :=
  (createFile e log t f (scriptName p.schema t.kind "create" t.createVersion)).bind fun new =>
  (fileVersion e f).bind fun v =>
  (addLog e log ⟨t.kind, str "open", cutTo 256 (str "user_version " ++ intText v)⟩).bind fun _ =>
  (if new && t.restore then restoreFile e log p t f pre v else M.pure ()).bind fun _ =>
  (migrateFile e log t.kind f (scriptName p.schema t.kind "migrate" v) v).bind fun _ =>
  (fileVersion e f).bind fun v => M.pure (new, v)

theorem rest_St (hl : LogOk e rows) (hb : Name b) (hlp : lp ≠ b :: d)
    {rs : List Row} {od : Option D} {s : Sys D} (p : Paths) (t : Settings) (file pre : Option (List Byte))
    (S : St e rows dir b lp d fs1 c0 (rs ++ [⟨t.kind, str "open", dir ++ slash :: b⟩]) od s)
    (ha : od = none → e.allow (b :: d) = true)
    (hF : cut (p.db ++ [47] ++ file.getD t.file) = dir ++ slash :: b) :
    match dbInit (worldOf e (dir ++ slash :: b) od) p t file pre with
    | .ok r => ∃ s' x as, rest e (some lp) p t (dir ++ slash :: b) pre s = (s', .ok (r.isNew, r.version)) ∧
        createDb (worldOf e (dir ++ slash :: b) od) p t file = .ok (x, r.isNew, as) ∧
        St e rows dir b lp d fs1 c0 (rs ++ startRows (worldOf e (dir ++ slash :: b) od) od.isNone p t (dir ++ slash :: b)
          pre (e.version x) r.version) (some r.content) s'
    | .segv => Died e rows t.kind (dir ++ slash :: b) (b :: d) lp (rs ++ [⟨t.kind, str "open", dir ++ slash :: b⟩])
        (rest e (some lp) p t (dir ++ slash :: b) pre s)
    | .ub => False := by
  have h1 := createFile_St hl hb hlp S ha p t file hF
  unfold dbInit rest
  generalize hcr : createDb (worldOf e (dir ++ slash :: b) od) p t file = r1 at h1 ⊢
  cases r1 with
  | ub => exact h1
  | segv => exact died_same h1
  | ok r1 =>
    obtain ⟨x, new, as⟩ := r1
    dsimp only at h1
    obtain ⟨hnew, s1, e1, S1⟩ := h1
    rw [bind_ok e1]
    simp only [Res.bind]
    obtain ⟨s2, e2, S2⟩ := version_St hb hlp S1
    rw [bind_ok e2]
    obtain ⟨s3, e3, S3⟩ := addLog_St hl hlp S2
      ⟨t.kind, str "open", cutTo 256 (str "user_version " ++ intText (e.version x))⟩
    rw [bind_ok e3]
    have hver : (worldOf e (dir ++ slash :: b) od).version = e.version := rfl
    simp only [hver]
    have h2 : match (if (new && t.restore) = true then
          restoreData (worldOf e (dir ++ slash :: b) od) p t pre (e.version x) x else Res.ok (x, [])) with
        | .ok r => ∃ s', (if (new && t.restore) = true then
              restoreFile e (some lp) p t (dir ++ slash :: b) pre (e.version x) else M.pure ()) s3 = (s', .ok ()) ∧
            St e rows dir b lp d fs1 c0 (rs ++ [⟨t.kind, str "open", dir ++ slash :: b⟩] ++
              createRows od.isNone t.recreate t.kind (dir ++ slash :: b)
                (scriptName p.schema t.kind "create" t.createVersion) ++
              [⟨t.kind, str "open", cutTo 256 (str "user_version " ++ intText (e.version x))⟩] ++
              (if (new && t.restore) = true then
                restoreRows (worldOf e (dir ++ slash :: b) od) p t (dir ++ slash :: b) pre (e.version x) else []))
              (some r.1) s'
        | .segv => Died e rows t.kind (dir ++ slash :: b) (b :: d) lp (rs ++ [⟨t.kind, str "open", dir ++ slash :: b⟩] ++
              createRows od.isNone t.recreate t.kind (dir ++ slash :: b)
                (scriptName p.schema t.kind "create" t.createVersion) ++
              [⟨t.kind, str "open", cutTo 256 (str "user_version " ++ intText (e.version x))⟩])
            ((if (new && t.restore) = true then
              restoreFile e (some lp) p t (dir ++ slash :: b) pre (e.version x) else M.pure ()) s3)
        | .ub => False := by
      by_cases hc : (new && t.restore) = true
      · simp only [if_pos hc]
        exact restoreFile_St hl hb hlp S3 _ od p t pre (e.version x)
      · simp only [if_neg hc]
        exact ⟨s3, rfl, by simpa using S3⟩
    generalize (if (new && t.restore) = true then
          restoreData (worldOf e (dir ++ slash :: b) od) p t pre (e.version x) x else Res.ok (x, [])) = r2 at h2 ⊢
    cases r2 with
    | ub => exact h2
    | segv => exact bind_died (by simpa only [List.append_assoc] using h2)
    | ok r2 =>
      obtain ⟨s4, e4, S4⟩ := h2
      rw [bind_ok e4]
      simp only
      have h3 := migrateFile_St hl hb hlp S4 (dir ++ slash :: b) od t.kind
        (scriptName p.schema t.kind "migrate" (e.version x)) (e.version x)
      generalize optScript (worldOf e (dir ++ slash :: b) od) (scriptName p.schema t.kind "migrate" (e.version x)) r2.1 = r3
        at h3 ⊢
      cases r3 with
      | ub => exact h3
      | segv => exact bind_died (by simpa only [List.append_assoc] using h3)
      | ok r3 =>
        obtain ⟨s5, e5, S5⟩ := h3
        simp only [Res.map]
        rw [bind_ok e5]
        obtain ⟨s6, e6, S6⟩ := version_St hb hlp S5
        refine ⟨s6, x, as, by rw [bind_ok e6]; rfl, rfl, ?_⟩
        rw [startRows, ← hnew]
        simpa only [List.append_assoc] using S6

end

theorem setFile_tree {fs : Fs} (ht : Tree fs) {c : List Byte} {d : Pos} (hd : fs d = some .dir) (hn : fs (c :: d) = none) :
    Tree (setAt fs (c :: d) (some .file)) := by
  refine ⟨by simp [setAt, ht.1], fun x q h => ?_⟩
  simp only [setAt] at h ⊢
  split at h
  · rename_i e
    cases e
    rw [if_neg (fun h => by have := congrArg List.length h; simp at this)]
    exact hd
  · have h1 := ht.2 x q h
    split
    · rename_i e; subst e; rw [hn] at h1; cases h1
    · exact h1

/-- opening the log -/
theorem openLog_ready {e : Env D} {rows : D → Option (List Row)} {p : Paths} {t : Settings} {file : Option (List Byte)}
    {a : Nat} {l : List (List Byte × Nat)} {b : List Byte} {lp : Pos} {rs : List Row} {s : Sys D}
    (R : Ready e rows p t file a l b lp rs s) :
    ∃ s1, openLog e p s = (s1, .ok (some lp)) ∧ Tree s1.fs ∧ s1.fs lp = some .file ∧ (∀ z, z ≠ lp → s1.fs z = s.fs z) ∧
      rows (s1.content lp) = some rs ∧ ∀ z, z ≠ lp → s1.content z = s.content z := by
  obtain ⟨d, hd1, hd2, hlp⟩ := R.logDir
  obtain ⟨x, y, hx, hy, hr⟩ := R.log
  have hcut : cut (p.db ++ str "/cee_dbm_log.db") = p.db ++ slash :: str "cee_dbm_log.db" :=
    List.take_of_length_le (by have := R.shortLog; omega)
  have hN : Name (str "cee_dbm_log.db") := by unfold Name; decide
  obtain ⟨h1, h2, h3⟩ := resolve_in hN hd1 hd2
  have hin : (initDb noFaults (some none) x (some [e.logTable]) true).disk x = y ∧
      (initDb noFaults (some none) x (some [e.logTable]) true).ret = .ok () := by
    rw [initDb_eq _ _ _ _ _ (fun _ => rfl)]
    simp [initRun, before, execBegin, noFaults, execAll, Conn.view, Conn.put, hy, execCommit, initEnd, Inited.disk]
  rw [openLog, hcut, openFile, h1, ← hlp]
  rcases hx with ⟨g1, g2, rfl⟩ | ⟨g1, rfl⟩
  · simp only [g1, Option.isSome_none, Bool.false_eq_true, if_false, h2, h3, ← hlp]
    rw [if_pos ⟨hd2, hN.1, hN.2.1, hN.2.2.1, trivial, g2⟩]
    have hset : setAt s.content lp e.empty lp = e.empty := by simp [setAt]
    simp only [hset, hin.1, hin.2]
    refine ⟨_, rfl, ?_, by simp [setAt], fun z hz => by simp [setAt, hz], by simpa [setAt] using hr,
      fun z hz => by simp [setAt, hz]⟩
    rw [hlp] at g1 ⊢
    exact setFile_tree R.tree hd2 g1
  · simp only [g1, Option.isSome_some, if_true, hin.1, hin.2]
    exact ⟨_, rfl, R.tree, g1, fun _ _ => rfl, by simpa [setAt] using hr, fun z hz => by simp [setAt, hz]⟩

/-- C104, with everything in the log -/
theorem C104_rows {e : Env D} {rows : D → Option (List Row)} (hl : LogOk e rows) {p : Paths} {t : Settings}
    {file : Option (List Byte)} (pre : Option (List Byte))
    {a : Nat} {l : List (List Byte × Nat)} {b : List Byte} {lp : Pos} {rs : List Row} {s : Sys D}
    (R : Ready e rows p t file a l b lp rs s) :
    let q := b :: place (base e.cwd a) l
    let f := p.db ++ str "/" ++ file.getD t.file
    let w := worldOf e f (dbBefore s q)
    ∃ N, ∀ n, N ≤ n →
    match dbInit w p t file pre with
    | .ok r => ∃ s' x as, start e n p t file pre s = (s', .ok (r.isNew, r.version)) ∧
        createDb w p t file = .ok (x, r.isNew, as) ∧
        s'.fs q = some .file ∧ s'.content q = r.content ∧
        (∀ z, OnWay (base e.cwd a) (place (base e.cwd a) l) z → s'.fs z = some .dir) ∧ s'.fs lp = some .file ∧
        (∀ z, ¬ OnWay (base e.cwd a) (place (base e.cwd a) l) z → z ≠ q → z ≠ lp → s'.fs z = s.fs z) ∧
        (∀ z, z ≠ q → z ≠ lp → s'.content z = s.content z) ∧
        rows (s'.content lp) = some (rs ++ startRows w (dbBefore s q).isNone p t f pre (e.version x) r.version)
    | .segv => Died e rows t.kind f q lp (rs ++ [⟨t.kind, str "open", f⟩]) (start e n p t file pre s)
    | .ub => False := by
  intro q f w
  obtain ⟨s1, e1, ht1, hl1, hf1, hr1, hc1⟩ := openLog_ready R
  obtain ⟨hw, hb, hne⟩ := R.names
  have hcwd1 : s1.fs e.cwd = some .dir := by
    by_cases h : e.cwd = lp
    · have h1 := R.cwd
      obtain ⟨x, y, hx, -⟩ := R.log
      rw [h] at h1
      rcases hx with ⟨g, -⟩ | ⟨g, -⟩ <;> rw [h1] at g <;> cases g
    · rw [hf1 _ h]; exact R.cwd
  have hway1 : ∀ z, OnWay (base e.cwd a) (place (base e.cwd a) l) z → s1.fs z ≠ some .file ∧ (s1.fs z = none → e.allow z = true) := by
    intro z hz
    rw [hf1 z (fun h => R.logAway (h ▸ hz))]
    exact R.way z hz
  obtain ⟨N, hN⟩ := C97_partial ht1 hcwd1 a l hw hne hway1
  refine ⟨N, fun n hn => ?_⟩
  obtain ⟨fs2, e2, hfs2⟩ := hN n hn
  have hcut : cut (p.db ++ [47] ++ file.getD t.file) = write a l ++ slash :: b := by
    rw [← R.path]
    exact List.take_of_length_le (Nat.lt_succ_iff.mp R.short)
  obtain ⟨y, hy, hry⟩ := hl _ rs ⟨t.kind, str "open", write a l ++ slash :: b⟩ hr1
  have hqw : ¬ OnWay (base e.cwd a) (place (base e.cwd a) l) q := fun h => by
    have := onWay_len h; simp [q] at this; omega
  have hd2 : fs2 (place (base e.cwd a) l) = some .dir := (hfs2 _).1 ⟨suffix_place _ _, List.suffix_rfl⟩
  have S : St e rows (write a l) b lp (place (base e.cwd a) l) fs2 s.content
      (rs ++ [⟨t.kind, str "open", write a l ++ slash :: b⟩]) (dbBefore s q) ⟨fs2, setAt s1.content lp y⟩ := by
    refine ⟨?_, hd2, ?_, ?_, fun _ _ => rfl, ?_⟩
    · show resolve fs2 e.cwd (write a l) = _
      have ht2 : Tree fs2 := (C97_sound n e2).2.2.2.1 ht1
      rw [resolve_write ht2 l a e.cwd hw hne, hd2]
      · rfl
      · exact ((C97_sound n e2).2.1 _ (by rw [hcwd1]; simp)).trans hcwd1
      · intro z hz; rw [(hfs2 z).1 hz]; simp
    · have hq2 : fs2 q = s.fs q := by rw [(hfs2 q).2 hqw, hf1 q (Ne.symm R.notLog)]
      unfold dbBefore
      cases hsq : s.fs q with
      | none => simp only [if_true]; exact hq2.trans hsq
      | some k =>
        cases k with
        | dir => exact absurd hsq R.db
        | file =>
          simp only [reduceCtorEq, if_false]
          refine ⟨hq2.trans hsq, ?_⟩
          simp only [setAt, if_neg (Ne.symm R.notLog)]
          exact hc1 _ (Ne.symm R.notLog)
    · simpa [setAt] using hry
    · intro z h1 h2
      simp only [setAt, if_neg h2]; exact hc1 z h2
  have hst : start e n p t file pre s = rest e (some lp) p t (write a l ++ slash :: b) pre ⟨fs2, setAt s1.content lp y⟩ := by
    rw [start, bind_ok e1]
    simp only [hcut]
    rw [bind_ok (s' := { s1 with content := setAt s1.content lp y }) (a := ()) (by simp only [addLog, hy])]
    rw [bind_ok (s' := ⟨fs2, setAt s1.content lp y⟩) (a := ())]
    · rfl
    · have : beforeSlash (write a l ++ slash :: b) = some (write a l) := by
        have := before_slash (write a l) b hb.2.2.2
        simpa using this
      simp only [makeDir, this, e2]
      rfl
  have key := rest_St hl hb R.notLog p t file pre S (fun h => R.dbNew (by
    unfold dbBefore at h; split at h
    · assumption
    · cases h)) hcut
  have hfe : f = write a l ++ slash :: b := R.path
  rw [hst]
  simp only [w, hfe]
  generalize dbInit (worldOf e (write a l ++ slash :: b) (dbBefore s q)) p t file pre = r at key ⊢
  cases r with
  | ub => exact key
  | segv => exact key
  | ok r =>
    obtain ⟨s', x, as, k1, k2, k3⟩ := key
    refine ⟨s', x, as, k1, k2, k3.file.1, k3.file.2, ?_, ?_, ?_, k3.frame, k3.log⟩
    · intro z hz
      rw [k3.fsFrame z (by rintro rfl; exact hqw hz)]; exact (hfs2 z).1 hz
    · rw [k3.fsFrame lp R.notLog, (hfs2 lp).2 R.logAway, hl1]
    · intro z h1 h2 h3
      rw [k3.fsFrame z h2, (hfs2 z).2 h1, hf1 z h3]

/-! ## what the rows say -/

theorem applied_append (x y : List Row) : applied (x ++ y) = applied x ++ applied y := List.filterMap_append

theorem appliedText_append (f : List Byte) (x y : List Act) : appliedText f (x ++ y) = appliedText f x ++ appliedText f y :=
  List.filterMap_append

theorem applied_apply (kind f n : List Byte) (rs : List Row) :
    applied (applyRow kind f n :: rs) = (n ++ str " to " ++ f).take 63 :: applied rs := by
  rw [applied, List.filterMap_cons, applyRow]
  simp only [if_true]
  rfl

theorem applied_other {kind action info : List Byte} (h : action ≠ str "apply") (rs : List Row) :
    applied (⟨kind, action, info⟩ :: rs) = applied rs := by
  rw [applied, List.filterMap_cons, if_neg h]; rfl

theorem applied_nil : applied [] = [] := rfl

theorem opt_text {w : World D} {n : List Byte} {x : D} {r : D × List Act} (kind f : List Byte) (word missing : String)
    (h : optScript w n x = .ok r) : appliedText f r.2 = applied (optRows (w.script n).isSome kind f n word missing) := by
  rw [optScript] at h
  rw [optRows]
  split at h
  · rename_i hs
    rw [if_pos hs, applied_other (by decide), applied_apply, applied_nil]
    obtain ⟨y, -, rfl⟩ := Res.map_eq_ok.1 h
    rfl
  · rename_i hs
    rw [if_neg hs, applied_other (by decide), applied_nil]
    cases h; rfl

theorem migrate_text {w : World D} {n : List Byte} {x : D} {r : D × List Act} (kind f : List Byte) (v v' : Int)
    (h : optScript w n x = .ok r) : appliedText f r.2 = applied (migrateRows (w.script n).isSome kind f n v v') := by
  rw [optScript] at h
  rw [migrateRows]
  split at h
  · rename_i hs
    rw [if_pos hs, applied_apply]
    obtain ⟨y, -, rfl⟩ := Res.map_eq_ok.1 h
    split
    · rw [applied_other (by decide), applied_nil]; rfl
    · rfl
  · rename_i hs
    rw [if_neg hs, applied_other (by decide), applied_nil]
    cases h; rfl

theorem create_text {w : World D} {p : Paths} {t : Settings} {file : Option (List Byte)} {r : D × Bool × List Act}
    (f : List Byte) (h : createDb w p t file = .ok r) :
    appliedText f r.2.2 = applied (createRows (w.db (cut (p.db ++ [47] ++ file.getD t.file))).isNone t.recreate t.kind f
      (scriptName p.schema t.kind "create" t.createVersion)) ∧
    r.2.1 = ((w.db (cut (p.db ++ [47] ++ file.getD t.file))).isNone || t.recreate) ∧
    (.drop ∈ r.2.2 ↔ (w.db (cut (p.db ++ [47] ++ file.getD t.file))).isNone = false ∧ t.recreate = true) := by
  simp only [createDb] at h
  rw [createRows]
  cases hdb : w.db (cut (p.db ++ [47] ++ file.getD t.file)) with
  | none =>
    rw [hdb] at h
    obtain ⟨y, -, rfl⟩ := Res.map_eq_ok.1 h
    refine ⟨?_, rfl, by simp⟩
    simp only [Option.isNone_none, if_true]
    rw [applied_other (by decide), applied_apply]
    rfl
  | some d =>
    rw [hdb] at h
    simp only at h
    split at h
    · rename_i hr
      obtain ⟨y, -, rfl⟩ := Res.map_eq_ok.1 h
      refine ⟨?_, by simp [hr], by simp [hr]⟩
      simp only [Option.isNone_some, Bool.false_eq_true, if_false, hr, if_true]
      rw [applied_other (by decide), applied_apply]
      rfl
    · rename_i hr
      cases h
      refine ⟨?_, by simpa using hr, by simpa using hr⟩
      simp only [Option.isNone_some, Bool.false_eq_true, if_false, if_neg hr]
      rfl

theorem restore_text {w : World D} {p : Paths} {t : Settings} {pre : Option (List Byte)} {v : Int} {x : D}
    {r : D × List Act} (f : List Byte) (h : restoreData w p t pre v x = .ok r) :
    appliedText f r.2 = applied (restoreRows w p t f pre v) ∧ .drop ∉ r.2 := by
  have nd : ∀ {n x} {q : D × List Act}, optScript w n x = .ok q → Act.drop ∉ q.2 := by
    intro n x q h
    rw [optScript] at h
    split at h
    · obtain ⟨y, -, rfl⟩ := Res.map_eq_ok.1 h; simp
    · cases h; simp
  rw [restoreData] at h
  obtain ⟨r1, h1, h2⟩ := Res.bind_eq_ok.1 h
  rw [restoreRows, applied_append, ← opt_text t.kind f _ _ h1]
  split at h2
  · rename_i hc
    obtain ⟨q, hq, rfl⟩ := Res.map_eq_ok.1 h2
    rw [if_pos hc, ← opt_text t.kind f _ _ hq, appliedText_append]
    exact ⟨rfl, by simp [nd h1, nd hq]⟩
  · rename_i hc
    cases h2
    rw [if_neg hc]
    exact ⟨by simp [applied_nil], nd h1⟩

theorem start_text {w : World D} {p : Paths} {t : Settings} {file pre : Option (List Byte)} {r : Done D} {x : D} {b : Bool}
    {as : List Act} (f : List Byte) (h : dbInit w p t file pre = .ok r) (hc : createDb w p t file = .ok (x, b, as)) :
    appliedText f r.acts = applied (startRows w (w.db (cut (p.db ++ [47] ++ file.getD t.file))).isNone p t f pre
      (w.version x) r.version) ∧
    (.drop ∈ r.acts ↔ (w.db (cut (p.db ++ [47] ++ file.getD t.file))).isNone = false ∧ t.recreate = true) := by
  obtain ⟨c1, c2, c3⟩ := create_text f hc
  rw [dbInit, hc, Res.bind_ok] at h
  obtain ⟨q, hq, h⟩ := Res.bind_eq_ok.1 h
  obtain ⟨m, hm, rfl⟩ := Res.map_eq_ok.1 h
  dsimp only at c1 c2 c3 hq hm ⊢
  have hmd : Act.drop ∉ m.2 := by
    rw [optScript] at hm
    split at hm
    · obtain ⟨y, -, rfl⟩ := Res.map_eq_ok.1 hm; simp
    · cases hm; simp
  have hqt : appliedText f q.2 = applied (if (b && t.restore) = true then restoreRows w p t f pre (w.version x) else []) ∧
      Act.drop ∉ q.2 := by
    split at hq
    · rename_i hb; rw [if_pos hb]; exact restore_text f hq
    · rename_i hb; rw [if_neg hb]; cases hq; exact ⟨rfl, by simp⟩
  constructor
  · rw [startRows, ← c2, appliedText_append, appliedText_append, c1, hqt.1,
      migrate_text t.kind f (w.version x) (w.version m.1) hm]
    simp only [applied_append]
    rw [applied_other (by decide), applied_other (by decide), applied_nil]
    simp
  · rw [← c3]; simp [hqt.2, hmd]

/-- `C104`, what of it holds: if the directory of the log is there, the log is not the database, and the names are short
enough, then a start-up ends as the one of C50 (it ends in a crash exactly if a script fails), the directories of the
database are made, and nothing else is touched; the log gets rows for the kind of the database, first that it is opened, then
one for each script that is run, in order, with the name of the script and of the database, cut to 63 bytes; one that the
database is created or made anew exactly if it is -/
theorem C104_partial {e : Env D} {rows : D → Option (List Row)} (hl : LogOk e rows) {p : Paths} {t : Settings}
    {file : Option (List Byte)} (pre : Option (List Byte))
    {a : Nat} {l : List (List Byte × Nat)} {b : List Byte} {lp : Pos} {rs : List Row} {s : Sys D}
    (R : Ready e rows p t file a l b lp rs s) :
    let q := b :: place (base e.cwd a) l
    let f := p.db ++ str "/" ++ file.getD t.file
    ∃ N, ∀ n, N ≤ n →
    match dbInit (worldOf e f (dbBefore s q)) p t file pre with
    | .ok r => ∃ s' new, start e n p t file pre s = (s', .ok (r.isNew, r.version)) ∧
        s'.fs q = some .file ∧ s'.content q = r.content ∧
        (∀ z, OnWay (base e.cwd a) (place (base e.cwd a) l) z → s'.fs z = some .dir) ∧ s'.fs lp = some .file ∧
        (∀ z, ¬ OnWay (base e.cwd a) (place (base e.cwd a) l) z → z ≠ q → z ≠ lp → s'.fs z = s.fs z) ∧
        (∀ z, z ≠ q → z ≠ lp → s'.content z = s.content z) ∧
        rows (s'.content lp) = some (rs ++ new) ∧ new.head? = some ⟨t.kind, str "open", f⟩ ∧
        (∀ x ∈ new, x.kind = t.kind) ∧ applied new = appliedText f r.acts ∧
        ((∃ x ∈ new, x.action = str "create") ↔ dbBefore s q = none) ∧
        ((∃ x ∈ new, x.action = str "recreate") ↔ .drop ∈ r.acts)
    | .segv => Died e rows t.kind f q lp (rs ++ [⟨t.kind, str "open", f⟩]) (start e n p t file pre s)
    | .ub => False := by
  intro q f
  obtain ⟨N, hN⟩ := C104_rows hl pre R
  refine ⟨N, fun n hn => ?_⟩
  have key := hN n hn
  have hdb : (worldOf e f (dbBefore s q)).db (cut (p.db ++ [47] ++ file.getD t.file)) = dbBefore s q := by
    have : cut (p.db ++ [47] ++ file.getD t.file) = f := List.take_of_length_le (Nat.lt_succ_iff.mp R.short)
    rw [this]; simp [worldOf]
  generalize hr : dbInit (worldOf e f (dbBefore s q)) p t file pre = r at key ⊢
  cases r with
  | ub => exact key
  | segv => exact key
  | ok r =>
    obtain ⟨s', x, as, k1, k2, k3, k4, k5, k6, k7, k8, k9⟩ := key
    obtain ⟨t1, t2⟩ := start_text f hr k2
    rw [hdb] at t1 t2
    have hopt : ∀ e n (w m : String), ∀ y ∈ optRows e t.kind f n w m, y.kind = t.kind ∧
        (y.action = str "restore" ∨ y.action = str "apply") := by
      intro e n w m y hy
      rw [optRows] at hy
      split at hy
      · simp only [List.mem_cons, List.not_mem_nil, or_false] at hy
        rcases hy with rfl | rfl
        · exact ⟨rfl, .inl rfl⟩
        · exact ⟨rfl, .inr rfl⟩
      · simp only [List.mem_singleton] at hy
        subst hy; exact ⟨rfl, .inl rfl⟩
    have hother : ∀ y ∈ startRows (worldOf e f (dbBefore s q)) (dbBefore s q).isNone p t f pre (e.version x) r.version,
        y.kind = t.kind ∧ (y ∈ createRows (dbBefore s q).isNone t.recreate t.kind f
          (scriptName p.schema t.kind "create" t.createVersion) ∨
          y.action ∈ [str "open", str "restore", str "apply", str "migrate"]) := by
      intro y hy
      simp only [startRows, List.mem_append] at hy
      rcases hy with (((hy | hy) | hy) | hy) | hy
      · simp only [List.mem_singleton] at hy; subst hy; exact ⟨rfl, .inr (by simp)⟩
      · refine ⟨?_, .inl hy⟩
        rw [createRows] at hy
        split at hy
        · simp only [List.mem_cons, List.not_mem_nil, or_false] at hy
          rcases hy with rfl | rfl <;> rfl
        · split at hy
          · simp only [List.mem_cons, List.not_mem_nil, or_false] at hy
            rcases hy with rfl | rfl <;> rfl
          · cases hy
      · simp only [List.mem_singleton] at hy; subst hy; exact ⟨rfl, .inr (by simp)⟩
      · split at hy
        · rw [restoreRows, List.mem_append] at hy
          have : y.kind = t.kind ∧ (y.action = str "restore" ∨ y.action = str "apply") := by
            rcases hy with hy | hy
            · exact hopt _ _ _ _ y hy
            · split at hy
              · exact hopt _ _ _ _ y hy
              · cases hy
          exact ⟨this.1, .inr (by rcases this.2 with h | h <;> simp [h])⟩
        · cases hy
      · rw [migrateRows] at hy
        split at hy
        · rw [List.mem_cons] at hy
          rcases hy with rfl | hy
          · exact ⟨rfl, .inr (by simp [applyRow])⟩
          · split at hy
            · simp only [List.mem_singleton] at hy; subst hy; exact ⟨rfl, .inr (by simp)⟩
            · cases hy
        · simp only [List.mem_singleton] at hy; subst hy; exact ⟨rfl, .inr (by simp)⟩
    have hin : ∀ y ∈ createRows (dbBefore s q).isNone t.recreate t.kind f
          (scriptName p.schema t.kind "create" t.createVersion),
        y ∈ startRows (worldOf e f (dbBefore s q)) (dbBefore s q).isNone p t f pre (e.version x) r.version := by
      intro y hy
      simp only [startRows, List.mem_append]
      exact .inl (.inl (.inl (.inr hy)))
    refine ⟨s', _, k1, k3, k4, k5, k6, k7, k8, k9, rfl, fun y hy => (hother y hy).1, t1.symm, ?_, ?_⟩
    · constructor
      · rintro ⟨y, hy, hya⟩
        rcases (hother y hy).2 with h | h
        · rw [createRows] at h
          split at h
          · rename_i hn; simpa using hn
          · split at h
            · simp only [List.mem_cons, List.not_mem_nil, or_false] at h
              rcases h with rfl | rfl
              · exact absurd hya (show str "recreate" ≠ str "create" by decide)
              · exact absurd hya (show str "apply" ≠ str "create" by decide)
            · cases h
        · rw [hya] at h; exact absurd h (by decide)
      · intro hn
        refine ⟨⟨t.kind, str "create", cutTo 256 (str "create a new " ++ f ++ str " with " ++
          scriptName p.schema t.kind "create" t.createVersion)⟩, hin _ ?_, rfl⟩
        rw [createRows, hn]
        exact List.mem_cons_self
    · rw [t2]
      constructor
      · rintro ⟨y, hy, hya⟩
        rcases (hother y hy).2 with h | h
        · rw [createRows] at h
          split at h
          · simp only [List.mem_cons, List.not_mem_nil, or_false] at h
            rcases h with rfl | rfl
            · exact absurd hya (show str "create" ≠ str "recreate" by decide)
            · exact absurd hya (show str "apply" ≠ str "recreate" by decide)
          · rename_i hn
            split at h
            · rename_i hr; exact ⟨eq_false_of_ne_true hn, hr⟩
            · cases h
        · rw [hya] at h; exact absurd h (by decide)
      · rintro ⟨hn, hr⟩
        refine ⟨⟨t.kind, str "recreate", cutTo 256 (str "drop all tables of " ++ f ++ str " to RECREATE a fresh db")⟩,
          hin _ ?_, rfl⟩
        rw [createRows, hn, hr]
        exact List.mem_cons_self

/-- the log tells of the database before its directories are made: if they cannot be made, the program ends, and the last
row of the log is that the database is opened -/
theorem C104_directories {e : Env D} {rows : D → Option (List Row)} (hl : LogOk e rows) {p : Paths} {t : Settings}
    {file : Option (List Byte)} (pre : Option (List Byte)) {n : Nat} {lp : Pos} {rs : List Row} {s s1 : Sys D}
    (ho : openLog e p s = (s1, .ok (some lp))) (hr : rows (s1.content lp) = some rs) {dir : List Byte}
    (hs : (p.db ++ str "/" ++ file.getD t.file).length < 128)
    (hd : beforeSlash (p.db ++ str "/" ++ file.getD t.file) = some dir)
    {fs : Fs} {r : Option Int} (hm : mkdirP e.allow e.cwd n s1.fs (some dir) = some ⟨fs, r⟩) (hr0 : r ≠ some 0) :
    ∃ s', start e n p t file pre s = (s', .segv) ∧ s'.fs = fs ∧
      rows (s'.content lp) = some (rs ++ [⟨t.kind, str "open", p.db ++ str "/" ++ file.getD t.file⟩]) ∧
      ∀ z, z ≠ lp → s'.content z = s1.content z := by
  have hcut : cut (p.db ++ [47] ++ file.getD t.file) = p.db ++ str "/" ++ file.getD t.file :=
    List.take_of_length_le (Nat.lt_succ_iff.mp hs)
  obtain ⟨y, hy, hry⟩ := hl _ rs ⟨t.kind, str "open", p.db ++ str "/" ++ file.getD t.file⟩ hr
  refine ⟨⟨fs, setAt s1.content lp y⟩, ?_, rfl, by simpa [setAt] using hry, fun z hz => by simp [setAt, hz]⟩
  rw [start, bind_ok ho]
  simp only [hcut]
  rw [bind_ok (s' := { s1 with content := setAt s1.content lp y }) (a := ()) (by simp only [addLog, hy])]
  have : makeDir e n (p.db ++ str "/" ++ file.getD t.file) { s1 with content := setAt s1.content lp y } =
      (⟨fs, setAt s1.content lp y⟩, .segv) := by
    simp only [makeDir, hd, hm]
    cases r with
    | none => rfl
    | some r =>
      have : r ≠ 0 := fun h => hr0 (by rw [h])
      simp only [if_neg this]
  simp only [M.bind, this]

/-! ## examples, and where C104 is false -/

/-- databases for examples: a version, and the rows of the log -/
abbrev Db := Int × Option (List Row)

/-- scripts are known by the word in their names `/s/k_<word>…` -/
def exEnv (create migrate : Option (List (Db → Option Db))) : Env Db where
  allow := fun _ => true
  cwd := []
  script := fun n =>
    if n.take 11 = str "/s/k_create" then create
    else if n.take 12 = str "/s/k_migrate" then migrate else none
  empty := (0, none)
  drop := fun _ => (0, none)
  version := fun d => d.1
  logTable := fun d => some (d.1, some (d.2.getD []))
  logInsert := fun r d => d.2.map fun rs => (d.1, some (rs ++ [r]))

theorem exEnv_log (c m : Option (List (Db → Option Db))) : LogOk (exEnv c m) (·.2) := by
  intro d rs r h
  exact ⟨(d.1, some (rs ++ [r])), by simp [exEnv, show d.2 = some rs from h], rfl⟩

/-- the statement that sets the version -/
def setVersion (v : Int) : Db → Option Db := fun d => some (v, d.2)

def exPaths : Paths := { schema := str "/s", data := str "/t", db := str "/b" }

/-- only these directories -/
def exSys (dirs : List Pos) : Sys Db := ⟨fun q => if q ∈ dirs then some .dir else none, fun _ => (0, none)⟩

/-- a database in a directory that is still to be made, `/b/c/f` -/
theorem exReady (c m : Option (List (Db → Option Db))) :
    Ready (exEnv c m) (·.2) exPaths exSettings (some (str "c/f")) 1 [(str "b", 1), (str "c", 0)] (str "f")
      [str "cee_dbm_log.db", str "b"] [] (exSys [[], [str "b"]]) where
  tree := by
    refine ⟨rfl, fun x q h => ?_⟩
    simp only [exSys, List.mem_cons, List.cons.injEq, List.not_mem_nil, or_false, reduceCtorEq, false_or] at h ⊢
    have : q = [] := by
      apply Classical.byContradiction; intro hq; simp [hq] at h
    simp [this]
  cwd := rfl
  names := by simp only [Written, Name]; decide
  path := by decide
  short := by decide
  shortLog := by decide
  way := by
    intro q h
    refine ⟨?_, fun _ => rfl⟩
    simp only [exSys]; split <;> simp
  db := show (exSys [[], [str "b"]]).fs (str "f" :: place (base [] 1) [(str "b", 1), (str "c", 0)]) ≠ some .dir by decide
  dbNew := fun _ => rfl
  logDir := ⟨[str "b"], rfl, by decide, rfl⟩
  log := ⟨_, _, .inl ⟨by decide, rfl, rfl⟩, rfl, rfl⟩
  logAway := by
    show ¬ OnWay (base [] 1) (place (base [] 1) [(str "b", 1), (str "c", 0)]) _
    simp only [OnWay]; decide
  notLog := show _ ≠ str "f" :: place (base [] 1) [(str "b", 1), (str "c", 0)] by decide

/-- such a start-up: the directory is made, and the creation and a migration are recorded -/
example :
    let r := start (exEnv (some [setVersion 1]) (some [setVersion 2])) 9 exPaths exSettings (some (str "c/f")) none
      (exSys [[], [str "b"]])
    r.2 = .ok (true, 2) ∧ r.1.fs [str "c", str "b"] = some .dir ∧ r.1.content [str "f", str "c", str "b"] = (2, none) ∧
    (r.1.content [str "cee_dbm_log.db", str "b"]).2.map (fun rs => (rs.length, (applied rs).length)) = some (6, 2) :=
  ⟨rfl, rfl, rfl, rfl⟩

/-- the creation script fails at its second statement: what the first did stays, and the last row names the script -/
example :
    let r := start (exEnv (some [setVersion 1, fun _ => none]) none) 9 exPaths exSettings (some (str "c/f")) none
      (exSys [[], [str "b"]])
    r.2 = .segv ∧ r.1.content [str "f", str "c", str "b"] = (1, none) ∧
    (r.1.content [str "cee_dbm_log.db", str "b"]).2.map (fun rs => (rs.length, rs.getLast?.map (·.action))) =
      some (3, some (str "apply")) :=
  ⟨rfl, rfl, rfl⟩

/-- the hypotheses of C104_directories are met where `/b/c` cannot be made -/
example :
    let e := { exEnv none none with allow := fun q => q != [str "c", str "b"] }
    ∃ s1, openLog e exPaths (exSys [[], [str "b"]]) = (s1, .ok (some [str "cee_dbm_log.db", str "b"])) ∧
      (s1.content [str "cee_dbm_log.db", str "b"]).2 = some [] ∧
      beforeSlash (str "/b/c/f") = some (str "/b/c") ∧
      (mkdirP e.allow e.cwd 9 s1.fs (some (str "/b/c"))).map (·.ret) = some none ∧
      (start e 9 exPaths exSettings (some (str "c/f")) none (exSys [[], [str "b"]])).2 = .segv :=
  ⟨_, rfl, rfl, rfl, rfl, rfl⟩

/-- C104 is false for names that are too long for a row: the creation script is run, and what the only row about it says is
shorter than its name -/
theorem C104_cut_false : ∃ (e : Env Db) (p : Paths), LogOk e (·.2) ∧
    let r := start e 9 p exSettings none none (exSys [[], [str "b"]])
    let n := scriptName p.schema exSettings.kind "create" 1
    r.2 = .ok (true, 1) ∧ (e.script n).isSome = true ∧ 63 < n.length ∧ n.length < 127 ∧
    (r.1.content [str "cee_dbm_log.db", str "b"]).2.map (fun rs => (applied rs).map List.length) = some [63] := by
  refine ⟨{ exEnv none none with
      script := fun n => if (n.drop 72).take 8 = str "k_create" then some [setVersion 1] else none },
    { exPaths with schema := List.replicate 71 120 }, exEnv_log none none, rfl, rfl, ?_, ?_, rfl⟩
  all_goals simp [scriptName, cut, intText_one, exSettings, str]

/-- C104 is false for the first start-up, when the directory of the databases is missing: the log cannot be opened, as the
directory is only made afterwards; the database is created, and nothing is recorded -/
theorem C104_first_false : ∃ e : Env Db, LogOk e (·.2) ∧
    let r := start e 9 exPaths exSettings none none (exSys [[]])
    r.2 = .ok (true, 1) ∧ r.1.fs [str "f", str "b"] = some .file ∧ r.1.fs [str "cee_dbm_log.db", str "b"] = none := by
  refine ⟨exEnv (some [setVersion 1]) none, exEnv_log _ _, rfl, rfl, rfl⟩

/-- C104 is false if the database is the log and shall be made anew: what was recorded is lost -/
theorem C104_self_false : ∃ (e : Env Db) (s : Sys Db) (row : Row), LogOk e (·.2) ∧
    (s.content [str "cee_dbm_log.db", str "b"]).2 = some [row] ∧
    let r := start e 9 exPaths { exSettings with recreate := true } (some (str "cee_dbm_log.db")) none s
    r.2 = .ok (true, 1) ∧ (r.1.content [str "cee_dbm_log.db", str "b"]).2 = none := by
  refine ⟨exEnv (some [setVersion 1]) none, ⟨fun q => if q = [] ∨ q = [str "b"] then some .dir
    else if q = [str "cee_dbm_log.db", str "b"] then some .file else none, fun _ => (0, some [⟨[], [], []⟩])⟩, ⟨[], [], []⟩,
    exEnv_log _ _, rfl, rfl, rfl⟩

/-- C104 is false if the databases are in the root: the empty path is not a directory, and the program ends -/
theorem C104_root_false : ∃ e : Env Db, LogOk e (·.2) ∧ e.cwd = [] ∧
    (start e 9 { exPaths with db := [] } exSettings none none (exSys [[]])).2 = .segv := by
  exact ⟨exEnv none none, exEnv_log _ _, rfl, rfl⟩

/-- C104 is false if the creation is interrupted: a script that fails in its second statement leaves the database, so that the
next start-up, with a script that does not fail, does not run it -/
theorem C104_interrupted_false : ∃ (bad good : Env Db), (∀ n, (bad.script n).isSome = (good.script n).isSome) ∧
    let s := exSys [[], [str "b"]]
    let r := start bad 9 exPaths exSettings none none s
    r.2 = .segv ∧ (start good 9 exPaths exSettings none none r.1).2 = .ok (false, 1) ∧
    (start good 9 exPaths exSettings none none s).2 = .ok (true, 2) := by
  refine ⟨exEnv (some [setVersion 1, fun _ => none]) none, exEnv (some [setVersion 1, setVersion 2]) none, ?_, rfl, rfl, rfl⟩
  intro n
  simp only [exEnv]
  split
  · rfl
  · split <;> rfl

end Verif.Dbm.Props
