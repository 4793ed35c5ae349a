import Verif.Sqlite.Open

/-!
# C98: initializing a database.  C99: names of databases.  C100: attaching.  C101: variables of a database
-/

namespace Verif.Dbm.Props

open Verif.Json (Byte)

/-! ## C98 -/

section

variable {D : Type}

/-- the effect of a script on a content; `none` when a statement fails -/
def effect (sql : List (D → Option D)) (d : D) : Option D := sql.foldlM (fun d f => f d) d

/-- the effect of the statements before the first that fails -/
def reached : List (D → Option D) → D → D
  | [], d => d
  | f :: fs, d =>
    match f d with
    | none => d
    | some d => reached fs d

theorem execAll_disk (sql : List (D → Option D)) : ∀ d : D, execAll ⟨d, none⟩ sql = (⟨reached sql d, none⟩, (effect sql d).isSome) := by
  induction sql with
  | nil => intro d; rfl
  | cons f fs ih =>
    intro d
    rw [execAll, reached, effect, List.foldlM_cons]
    simp only [Conn.view, Option.getD_none, Conn.put]
    cases f d with
    | none => rfl
    | some d' => exact ih d'

theorem execAll_open (sql : List (D → Option D)) (k : D) : ∀ d : D,
    execAll ⟨k, some d⟩ sql = (⟨k, some (reached sql d)⟩, (effect sql d).isSome) := by
  induction sql with
  | nil => intro d; rfl
  | cons f fs ih =>
    intro d
    rw [execAll, reached, effect, List.foldlM_cons]
    simp only [Conn.view, Option.getD_some, Conn.put]
    cases f d with
    | none => rfl
    | some d' => exact ih d'

theorem reached_effect (sql : List (D → Option D)) : ∀ {d d' : D}, effect sql d = some d' → reached sql d = d' := by
  induction sql with
  | nil => intro d d' h; exact Option.some.inj h
  | cons f fs ih =>
    intro d d' h
    rw [effect, List.foldlM_cons] at h
    rw [reached]
    cases hf : f d with
    | none => rw [hf] at h; cases h
    | some x => rw [hf] at h; exact ih h

/-- the content that the connection starts with: that of the given one, or that of the file -/
def before (dbp : Option (Option (Conn D))) (file : D) : Conn D := (dbp.bind id).getD ⟨file, none⟩

theorem initDb_eq (o : Faults) (dbp : Option (Option (Conn D))) (file : D) (sql : List (D → Option D)) (t : Bool)
    (ho : dbp.bind id = none → o.open_ = true) : initDb o dbp file (some sql) t =
      initEnd dbp (initRun o sql t (before dbp file)).1 (dbp.bind id).isNone (initRun o sql t (before dbp file)).2 := by
  match dbp, ho with
  | some (some c), _ => rfl
  | some none, ho =>
    rw [initDb]
    · simp only [ho rfl, if_true]; rfl
    · intro c h; cases h
  | none, ho =>
    simp only [initDb, ho rfl, if_true]; rfl

/-- **C98** (the part that holds): in a transaction the script takes effect as a whole or not at all, and as a whole exactly if
the function returns; the given connection (or the new one) is then in `*db_p`, with no transaction open, or closed again when
`db_p` is NULL.  (A connection can be had: one is given that is not in a transaction, or the file can be opened.) -/
theorem C98_partial (o : Faults) (dbp : Option (Option (Conn D))) (file : D) (sql : List (D → Option D))
    (hc : (before dbp file).open_ = none) (ho : dbp.bind id = none → o.open_ = true) :
    let r := initDb o dbp file (some sql) true
    ∃ c, r.conn = some c ∧
      ((r.ret = .ok () ∧ effect sql (before dbp file).disk = some c.disk ∧ c.open_ = none ∧ r.dbp = dbp.map (fun _ => some c) ∧
          (dbp = none → r.opened = true ∧ r.closed = true) ∧ (dbp ≠ none → r.closed = false)) ∨
        (r.ret = .segv ∧ c.disk = (before dbp file).disk)) ∧
      (r.ret = .ok () ↔ o.begin_ = true ∧ o.commit = true ∧ (effect sql (before dbp file).disk).isSome = true) := by
  have key : ∀ (opened : Bool) (k : D), let r := (fun r : Conn D × Bool => initEnd dbp r.1 opened r.2) (initRun o sql true ⟨k, none⟩)
      (dbp = none → opened = true) →
      ∃ c, r.conn = some c ∧
      ((r.ret = .ok () ∧ effect sql k = some c.disk ∧ c.open_ = none ∧ r.dbp = dbp.map (fun _ => some c) ∧
          (dbp = none → r.opened = true ∧ r.closed = true) ∧ (dbp ≠ none → r.closed = false)) ∨
        (r.ret = .segv ∧ c.disk = k)) ∧
      (r.ret = .ok () ↔ o.begin_ = true ∧ o.commit = true ∧ (effect sql k).isSome = true) := by
    intro opened k
    simp only [initRun, execBegin, if_true]
    intro hopen
    cases hb : o.begin_ with
    | false =>
      cases dbp with
      | none => exact ⟨_, rfl, .inr ⟨rfl, rfl⟩, by simp [initEnd]⟩
      | some x => exact ⟨_, rfl, .inr ⟨rfl, rfl⟩, by simp [initEnd]⟩
    | true =>
      simp only [if_true, execAll_open]
      cases he : effect sql k with
      | none =>
        cases dbp with
        | none => exact ⟨_, rfl, .inr ⟨rfl, rfl⟩, by simp [initEnd]⟩
        | some x => exact ⟨_, rfl, .inr ⟨rfl, rfl⟩, by simp [initEnd]⟩
      | some d =>
        simp only [Option.isSome_some, if_true, execCommit, reached_effect sql he]
        cases hcm : o.commit with
        | false =>
          cases dbp with
          | none => exact ⟨_, rfl, .inr ⟨rfl, rfl⟩, by simp [initEnd]⟩
          | some x => exact ⟨_, rfl, .inr ⟨rfl, rfl⟩, by simp [initEnd]⟩
        | true =>
          cases dbp with
          | none => exact ⟨_, rfl, .inl ⟨rfl, rfl, rfl, rfl, fun _ => ⟨hopen rfl, rfl⟩, fun h => absurd rfl h⟩, by simp [initEnd]⟩
          | some x => exact ⟨_, rfl, .inl ⟨rfl, rfl, rfl, rfl, fun h => (by cases h), fun _ => rfl⟩, by simp [initEnd]⟩
  intro r
  have h1 : r = _ := initDb_eq o dbp file sql true ho
  generalize hb : before dbp file = c at hc h1 ⊢
  obtain ⟨k, op⟩ := c
  obtain rfl : op = none := hc
  rw [h1]
  exact key _ k (fun h => by rw [h]; rfl)

/-- without a transaction the statements before the first failing one take effect; and the function returns exactly if none
fails -/
theorem C98_plain (o : Faults) (dbp : Option (Option (Conn D))) (file : D) (sql : List (D → Option D))
    (hc : (before dbp file).open_ = none) (ho : dbp.bind id = none → o.open_ = true) :
    let r := initDb o dbp file (some sql) false
    (∃ c, r.conn = some c ∧ c.disk = reached sql (before dbp file).disk) ∧
      r.ret = if (effect sql (before dbp file).disk).isSome then .ok () else .segv := by
  have key : ∀ (opened : Bool) (k : D), let r := (fun r : Conn D × Bool => initEnd dbp r.1 opened r.2) (initRun o sql false ⟨k, none⟩)
      (∃ c, r.conn = some c ∧ c.disk = reached sql k) ∧ r.ret = if (effect sql k).isSome then .ok () else .segv := by
    intro opened k
    simp only [initRun, execAll_disk, Bool.false_eq_true, if_false, initEnd]
    cases dbp <;> cases (effect sql k).isSome <;> exact ⟨⟨_, rfl, rfl⟩, rfl⟩
  intro r
  have h1 : r = _ := initDb_eq o dbp file sql false ho
  generalize hb : before dbp file = c at hc h1 ⊢
  obtain ⟨k, op⟩ := c
  obtain rfl : op = none := hc
  rw [h1]
  exact key _ k

/-- two statements: the number becomes 5; the second one fails for 5 -/
def exSql : List (Nat → Option Nat) := [fun _ => some 5, fun d => if d = 5 then none else some 6]

example : (before (none : Option (Option (Conn Nat))) 1).open_ = none ∧
    (initDb ⟨true, true, true⟩ none 1 (some [fun d => some (d + 1)]) true).conn = some ⟨2, none⟩ ∧
    effect exSql 1 = none ∧ reached exSql 1 = 5 := by
  refine ⟨rfl, rfl, rfl, rfl⟩

/-- **C98 is false**: the connection of the caller is lost: when a statement fails in the transaction, `*db_p` is NULL and the
connection that was there is still in the transaction, in which the changes before the failing statement are to be seen
(nothing is rolled back). -/
theorem C98_lost_false (o : Faults) (k file : D) (sql : List (D → Option D)) (hb : o.begin_ = true) (he : effect sql k = none) :
    initDb o (some (some ⟨k, none⟩)) file (some sql) true =
      ⟨.segv, some none, some ⟨k, some (reached sql k)⟩, false, false⟩ := by
  simp [initDb, initRun, execBegin, hb, execAll_open, he, initEnd]

example : initDb ⟨true, true, true⟩ (some (some ⟨1, none⟩)) 0 (some exSql) true = ⟨.segv, some none, some ⟨1, some 5⟩, false, false⟩ :=
  C98_lost_false _ 1 0 exSql rfl rfl

/-- **C98 is false**: a connection that was opened for a script that fails is never closed. -/
theorem C98_leak_false (o : Faults) (file : D) (sql : List (D → Option D)) (t : Bool) (ho : o.open_ = true)
    (he : effect sql file = none) :
    (initDb o none file (some sql) t).opened = true ∧ (initDb o none file (some sql) t).closed = false := by
  cases t
  · simp [initDb, initRun, execAll_disk, he, initEnd, ho]
  · cases hb : o.begin_
    · simp [initDb, initRun, execBegin, initEnd, ho, hb]
    · simp [initDb, initRun, execBegin, hb, execAll_open, he, initEnd, ho]

example : (initDb ⟨true, true, true⟩ none 1 (some exSql) false).conn = some ⟨5, none⟩ ∧
    (initDb ⟨true, true, true⟩ none 1 (some exSql) false).closed = false := ⟨rfl, rfl⟩

/-- **C98 is false**: when the file cannot be opened and `db_p` is NULL, NULL is dereferenced for the message. -/
theorem C98_open_false (o : Faults) (file : D) (sql : Option (List (D → Option D))) (t : Bool) (ho : o.open_ = false) :
    (initDb o none file sql t).ret = .ub := by
  simp [initDb, ho]

/-- **C98 is false**: when the file cannot be opened and a place for the connection is given, the function returns as after a
success, with NULL in that place and nothing run. -/
theorem C98_silent_false (o : Faults) (file : D) (sql : Option (List (D → Option D))) (t : Bool) (ho : o.open_ = false) :
    initDb o (some none) file sql t = ⟨.ok (), some none, none, true, false⟩ := by
  simp [initDb, ho]

end

/-! ## C99 -/

/-- whole names: when directory and name fit, existence is asked of the very file, and that file is opened; a missing file
ends the program.  The kind is kept up to 63 bytes. -/
theorem C99_partial (there : List Byte → Bool) (p : Paths) (kind file : List Byte) (h : (p.db ++ str "/" ++ file).length < 128) :
    dbExist there p file = there (p.db ++ str "/" ++ file) ∧
    dbmOpen there p kind file = (if there (p.db ++ str "/" ++ file) then
      .ok ⟨kind.take 63, p.db ++ str "/" ++ file, p.db ++ str "/" ++ file⟩ else .segv) := by
  have h1 : joined p.db file = p.db ++ str "/" ++ file := rfl
  have h2 : cutTo 128 (p.db ++ str "/" ++ file) = p.db ++ str "/" ++ file := List.take_of_length_le (by omega)
  refine ⟨by rw [dbExist, h1, h2], ?_⟩
  rw [dbmOpen, h1, h2]
  rw [h2]
  rfl

/-- attaching: when the statement fits, it is the whole statement that is run, and the program goes on exactly if the file is
there and the statement succeeds. -/
theorem C99_attach (there runs : List Byte → Bool) (p : Paths) (file as_ : List Byte)
    (h : (str "attach 'file:" ++ p.db ++ str "/" ++ file ++ str "?mode=ro' as " ++ as_ ++ str ";").length < 256) :
    dbmAttach there runs p file as_ =
      if there (p.db ++ str "/" ++ file) ∧ runs (str "attach 'file:" ++ p.db ++ str "/" ++ file ++ str "?mode=ro' as " ++ as_ ++ str ";")
      then .ok (str "attach 'file:" ++ p.db ++ str "/" ++ file ++ str "?mode=ro' as " ++ as_ ++ str ";") else .segv := by
  have h1 : joined p.db file = p.db ++ str "/" ++ file := rfl
  have h2 : attachText p file as_ = str "attach 'file:" ++ p.db ++ str "/" ++ file ++ str "?mode=ro' as " ++ as_ ++ str ";" := rfl
  have h3 : cutTo 256 (p.db ++ str "/" ++ file) = p.db ++ str "/" ++ file := List.take_of_length_le (by
    simp only [List.length_append] at h ⊢; omega)
  have h4 : cutTo 256 (attachText p file as_) = attachText p file as_ := List.take_of_length_le (by rw [h2]; omega)
  rw [dbmAttach, h1, h3, h4, h2]
  by_cases a : there (p.db ++ str "/" ++ file) = true
  · simp only [a, if_true, true_and]
  · simp only [a, Bool.false_eq_true, if_false, false_and]

example : dbmOpen (fun s => s == str "d/x.db") ⟨[], [], str "d"⟩ (str "k") (str "x.db") =
    .ok ⟨str "k", str "d/x.db", str "d/x.db"⟩ := by decide +kernel

/-- **C99 is false**: when the directory is 127 bytes or longer, every database "exists" as soon as that directory (cut to 127
bytes) does, and it is the directory that is given to `open_db`. -/
theorem C99_exist_false (there : List Byte → Bool) (p : Paths) (kind file : List Byte) (h : 127 ≤ p.db.length) :
    dbExist there p file = there (p.db.take 127) ∧
    (there (p.db.take 127) = true → ∃ x, dbmOpen there p kind file = .ok x ∧ x.file = p.db.take 127) := by
  have h1 : cutTo 128 (joined p.db file) = p.db.take 127 := by
    rw [cutTo, joined, List.append_assoc, List.take_append_of_le_length h]
  refine ⟨by rw [dbExist, h1], fun ht => ?_⟩
  rw [dbmOpen, h1, if_pos ht]
  exact ⟨_, rfl, rfl⟩

example : dbExist (fun s => s == List.replicate 127 100) ⟨[], [], List.replicate 127 100⟩ (str "no.db") = true := by decide +kernel

/-- **C99 is false**: when the statement is cut within the last name, the database is attached under another name than the one
that was asked for, and nothing is reported. -/
theorem C99_name_false (there : List Byte → Bool) (p : Paths) (file a b : List Byte)
    (hl : 27 + p.db.length + file.length + a.length = 255) (ht : there (p.db ++ str "/" ++ file) = true) :
    dbmAttach there (fun _ => true) p file (a ++ b) =
      .ok (str "attach 'file:" ++ p.db ++ str "/" ++ file ++ str "?mode=ro' as " ++ a) := by
  have h1 : joined p.db file = p.db ++ str "/" ++ file := rfl
  have h3 : cutTo 256 (p.db ++ str "/" ++ file) = p.db ++ str "/" ++ file := List.take_of_length_le (by
    simp only [List.length_append, show (str "/").length = 1 from rfl]; omega)
  have h2 : cutTo 256 (attachText p file (a ++ b)) = str "attach 'file:" ++ p.db ++ str "/" ++ file ++ str "?mode=ro' as " ++ a := by
    have : attachText p file (a ++ b) = (str "attach 'file:" ++ p.db ++ str "/" ++ file ++ str "?mode=ro' as " ++ a) ++ (b ++ str ";") := by
      simp [attachText, str]
    rw [this, cutTo, List.take_append_of_le_length, List.take_of_length_le]
    all_goals
      simp only [List.length_append, show (str "/").length = 1 from rfl, show (str "attach 'file:").length = 13 from rfl,
        show (str "?mode=ro' as ").length = 13 from rfl]
      omega
  rw [dbmAttach, h1, h3, if_pos ht, h2]
  rfl

example : ∃ (p : Paths) (a b : List Byte), 27 + p.db.length + (str "x.db").length + a.length = 255 ∧ a ++ b = str "other" ∧ b ≠ [] :=
  ⟨⟨[], [], List.replicate 222 100⟩, str "ot", str "her", by decide +kernel, by decide +kernel, by decide +kernel⟩

/-! ## C100 -/

/-- reading a quoted text of SQL behind the opening quote: a doubled quote stands for one, a single one ends the text; the text
and what follows -/
def unquote (q : Byte) : List Byte → Option (List Byte × List Byte)
  | [] => none
  | [b] => if b = q then some ([], []) else none
  | b :: c :: s =>
    if b = q then
      if c = q then (unquote q s).map fun r => (q :: r.1, r.2) else some ([], c :: s)
    else (unquote q (c :: s)).map fun r => (b :: r.1, r.2)

theorem unquote_plain (q c : Byte) (hc : c ≠ q) (t s : List Byte) (h : q ∉ s) :
    unquote q (s ++ q :: c :: t) = some (s, c :: t) := by
  induction s with
  | nil => simp [unquote, hc]
  | cons b s ih =>
    rw [List.mem_cons, not_or] at h
    have ih := ih h.2
    cases s with
    | nil =>
      simp only [List.cons_append, List.nil_append] at ih ⊢
      rw [unquote, if_neg (fun e => h.1 e.symm), ih]; rfl
    | cons d s =>
      simp only [List.cons_append] at ih ⊢
      rw [unquote, if_neg (fun e => h.1 e.symm), ih]; rfl

theorem before_slash (dir x : List Byte) (hx : (47 : Byte) ∉ x) : beforeSlash (dir ++ [47] ++ x) = some dir := by
  have : ∀ (x y : List Byte), (47 : Byte) ∉ x → (x ++ 47 :: y).dropWhile (· != 47) = 47 :: y := by
    intro x y h
    induction x with
    | nil => rfl
    | cons b x ih =>
      rw [List.mem_cons, not_or] at h
      rw [List.cons_append, List.dropWhile_cons, if_pos (by simpa using fun e => h.1 e.symm), ih h.2]
  rw [beforeSlash]
  simp only [List.reverse_append, List.reverse_singleton, List.singleton_append]
  rw [this _ _ (by simpa using hx)]
  simp

/-- **C100** (the part that holds): the database in the directory of the main one is attached: with names without `"` and room
for the statement, SQLite reads from it the path of the file and the name. -/
theorem C100_partial (dir x file as_ : List Byte) (size : Nat) (hx : (47 : Byte) ∉ x) (hd : (34 : Byte) ∉ dir) (hf : (34 : Byte) ∉ file)
    (hs : dir.length + file.length + as_.length + 25 ≤ size) :
    ∃ t, attachDb (dir ++ str "/" ++ x) file as_ size = .ok (str "attach database \"" ++ t) ∧
      unquote 34 t = some (dir ++ str "/" ++ file, str " as " ++ as_ ++ str ";") := by
  refine ⟨dir ++ str "/" ++ file ++ str "\"" ++ str " as " ++ as_ ++ str ";", ?_, ?_⟩
  · have h1 : str "/" = [47] := rfl
    rw [attachDb, h1, before_slash _ _ hx]
    simp only
    rw [cutTo, List.take_of_length_le]
    · simp [str]
    · simp only [List.length_append, List.length_cons, List.length_nil, show (str "attach database \"").length = 17 from rfl,
        show (str "\" as ").length = 5 from rfl]
      omega
  · have h1 : dir ++ str "/" ++ file ++ str "\"" ++ str " as " ++ as_ ++ str ";" =
        (dir ++ str "/" ++ file) ++ 34 :: 32 :: (str "as " ++ as_ ++ str ";") := by simp [str]
    rw [h1, unquote_plain 34 32 (by decide)]
    · simp [str]
    · simp only [List.mem_append, not_or]
      exact ⟨⟨hd, by decide⟩, hf⟩

example : attachDb (str "/d/main.db") (str "x.db") (str "x") 64 = .ok (str "attach database \"/d/x.db\" as x;") := by decide +kernel

/-- **C100 is false**: a name with a quote in it ends the path there; the rest of the name is run as SQL. -/
theorem C100_quote_false (dir x a b as_ : List Byte) (c : Byte) (size : Nat) (hx : (47 : Byte) ∉ x) (hd : (34 : Byte) ∉ dir)
    (ha : (34 : Byte) ∉ a) (hc : c ≠ 34) (hs : dir.length + (a ++ [34, c] ++ b).length + as_.length + 25 ≤ size) :
    ∃ t, attachDb (dir ++ str "/" ++ x) (a ++ [34, c] ++ b) as_ size = .ok (str "attach database \"" ++ t) ∧
      unquote 34 t = some (dir ++ str "/" ++ a, c :: b ++ str "\" as " ++ as_ ++ str ";") := by
  refine ⟨dir ++ str "/" ++ (a ++ [34, c] ++ b) ++ str "\"" ++ str " as " ++ as_ ++ str ";", ?_, ?_⟩
  · have h1 : str "/" = [47] := rfl
    rw [attachDb, h1, before_slash _ _ hx]
    simp only
    rw [cutTo, List.take_of_length_le]
    · simp [str]
    · simp only [List.length_append, List.length_cons, List.length_nil, show (str "attach database \"").length = 17 from rfl,
        show (str "\" as ").length = 5 from rfl] at hs ⊢
      omega
  · have h1 : dir ++ str "/" ++ (a ++ [34, c] ++ b) ++ str "\"" ++ str " as " ++ as_ ++ str ";" =
        (dir ++ str "/" ++ a) ++ 34 :: c :: (b ++ str "\" as " ++ as_ ++ str ";") := by simp [str]
    rw [h1, unquote_plain 34 c hc]
    · simp
    · simp only [List.mem_append, not_or]
      exact ⟨⟨hd, by decide⟩, ha⟩

example : attachDb (str "/d/main.db") (str "x\" as y; drop table t; --") (str "x") 99 =
    .ok (str "attach database \"/d/x\" as y; drop table t; --\" as x;") := by decide +kernel

/-- **C100 is false**: for a main database in memory (its file name is empty) the behaviour is undefined. -/
theorem C100_memory_false (file as_ : List Byte) (size : Nat) : attachDb [] file as_ size = .ub := rfl

/-- detaching: with a name without `'` and room for the statement, SQLite reads the name from it. -/
theorem C100_detach (as_ : List Byte) (size : Nat) (ha : (39 : Byte) ∉ as_) (hs : as_.length + 20 ≤ size) :
    ∃ t, detachDb as_ size = str "detach database '" ++ t ∧ unquote 39 t = some (as_, str ";") := by
  refine ⟨as_ ++ str "';", ?_, ?_⟩
  · rw [detachDb, cutTo, List.take_of_length_le, List.append_assoc]
    simp only [List.length_append, show (str "detach database '").length = 17 from rfl, show (str "';").length = 2 from rfl]
    omega
  · exact unquote_plain 39 59 (by decide) [] as_ ha

example : detachDb (str "x") 64 = str "detach database 'x';" := by decide +kernel

/-! ## C101 -/

/-- **C101** (the part that holds): a name of at most 247 bytes: the value of the variable, if SQLite gives one. -/
theorem C101_partial (value : List Byte → Option Int) (name : List Byte) (h : name.length ≤ 247) {v : Int}
    (hv : value (str "PRAGMA " ++ name ++ str ";") = some v) : pragma value name = v := by
  have : pragmaText name = str "PRAGMA " ++ name ++ str ";" := by
    rw [pragmaText, cutTo, List.take_of_length_le]
    · rfl
    · simp only [List.length_append, show (str "PRAGMA ").length = 7 from rfl, List.length_cons, List.length_nil]
      omega
  rw [pragma, this, hv]; rfl

example : pragma (fun s => if s = str "PRAGMA user_version;" then some 3 else none) (str "user_version") = 3 := by decide +kernel

/-- **C101 is false**: a file that cannot be opened, or a variable that cannot be read, looks like one with the value 0. -/
theorem C101_zero_false (value : List Byte → Option Int) : userVersion false value = 0 ∧
    userVersion true (fun s => if s = str "PRAGMA user_version;" then some 0 else none) = 0 := by
  refine ⟨rfl, by decide +kernel⟩

end Verif.Dbm.Props
