import Verif.Sqlite.Bind

/-!
# Properties of the binding of SQL parameters

C47: which value is bound.  C72: which statements are run.  C73: which statements are finalized.  C74: the kind of a
statement.
-/

namespace Verif.Sqlite.Props

open Verif Verif.Sqlite

/-! ## the kind of a statement -/

/-- the word in any mixture of upper and lower case letters -/
def AnyCase (word w : List Byte) : Prop := w.map toLower = word

theorem strcasestr_zero (w p : List Byte) : strcasestr w p = some 0 ↔ prefixCI w p = true := by
  cases p with
  | nil => simp [strcasestr]
  | cons c cs =>
    simp only [strcasestr]
    split <;> simp_all

theorem prefixCI_iff (w p : List Byte) :
    prefixCI w p = true ↔ ∃ a b, p = a ++ b ∧ a.map toLower = w.map toLower := by
  induction w generalizing p with
  | nil => simp [prefixCI]
  | cons x xs ih =>
    cases p with
    | nil => simp [prefixCI]
    | cons c cs =>
      simp only [prefixCI, Bool.and_eq_true, beq_iff_eq, ih, List.map_cons]
      constructor
      · rintro ⟨h, a, b, rfl, h2⟩
        exact ⟨c :: a, b, rfl, by simp [h, h2]⟩
      · rintro ⟨a, b, h, h2⟩
        cases a with
        | nil => simp at h2
        | cons a0 a =>
          simp only [List.cons_append, List.cons.injEq] at h
          simp only [List.map_cons, List.cons.injEq] at h2
          exact ⟨by rw [h.1, h2.1], a, b, h.2, h2.2⟩

theorem kw_lower : kwSelect.map toLower = kwSelect ∧ kwInsert.map toLower = kwInsert ∧
    kwUpdate.map toLower = kwUpdate ∧ kwDelete.map toLower = kwDelete := by decide

/-- the words by their letters -/
def word : StmtType → Option (List Byte)
  | .select => some kwSelect
  | .insert => some kwInsert
  | .update => some kwUpdate
  | .delete => some kwDelete
  | .other => none

/-- white space in front and then the word -/
def StartsWith (w sql : List Byte) : Prop :=
  ∃ ws a b, sql = ws ++ a ++ b ∧ (∀ c ∈ ws, isSpace c = true) ∧ AnyCase w a

theorem dropWhile_append {α : Type} (p : α → Bool) (ws r : List α) (h : ∀ c ∈ ws, p c = true) :
    (ws ++ r).dropWhile p = r.dropWhile p := by
  induction ws with
  | nil => rfl
  | cons a ws ih =>
    rw [List.cons_append, List.dropWhile_cons_of_pos (h a (by simp)), ih (fun c hc => h c (by simp [hc]))]

theorem isSpace_lower (c : Byte) (h : isSpace c = true) : toLower c = c := by
  unfold toLower
  split
  · rename_i h1
    revert h h1
    simp only [isSpace, Bool.and_eq_true, decide_eq_true_eq, Bool.or_eq_true, beq_iff_eq]
    rw [UInt8.le_iff_toNat_le, UInt8.le_iff_toNat_le, UInt8.le_iff_toNat_le, UInt8.le_iff_toNat_le,
      ← UInt8.toNat_inj]
    simp
    omega
  · rfl

theorem startsWith_iff (w sql : List Byte) (hw : w.map toLower = w) (x : Byte) (xs : List Byte)
    (hx : w = x :: xs) (hs : isSpace x = false) :
    StartsWith w sql ↔ strcasestr w (sql.dropWhile isSpace) = some 0 := by
  rw [strcasestr_zero, prefixCI_iff, hw]
  constructor
  · rintro ⟨ws, a, b, rfl, h1, h2⟩
    refine ⟨a, b, ?_, h2⟩
    rw [List.append_assoc, dropWhile_append _ _ _ h1]
    cases a with
    | nil => rw [AnyCase, hx] at h2; simp at h2
    | cons y ys =>
      rw [AnyCase, hx, List.map_cons, List.cons.injEq] at h2
      rw [List.cons_append, List.dropWhile_cons_of_neg]
      intro hy
      rw [← h2.1, isSpace_lower y hy, hy] at hs
      exact Bool.noConfusion hs
  · rintro ⟨a, b, h1, h2⟩
    refine ⟨sql.takeWhile isSpace, a, b, ?_, ?_, h2⟩
    · rw [List.append_assoc, ← h1, List.takeWhile_append_dropWhile]
    · intro c hc
      exact List.all_eq_true.mp (List.all_takeWhile (l := sql)) c hc

/-- two words of the same length that are different cannot both stand at the beginning -/
theorem strcasestr_unique (w v p : List Byte) (hw : w.map toLower = w) (hv : v.map toLower = v)
    (hl : w.length = v.length) (h1 : strcasestr w p = some 0) (h2 : strcasestr v p = some 0) : w = v := by
  rw [strcasestr_zero, prefixCI_iff] at h1 h2
  obtain ⟨a, b, rfl, ha⟩ := h1
  obtain ⟨c, d, hp, hc⟩ := h2
  have la : a.length = w.length := by rw [← List.length_map (f := toLower), ha, hw]
  have lc : c.length = v.length := by rw [← List.length_map (f := toLower), hc, hv]
  have : a = c := List.append_inj_left hp (by omega)
  rw [← hw, ← hv, ← ha, ← hc, this]

/-- C74: the kind of a statement is the word it begins with, white space and case ignored -/
theorem C74_kind (sql w : List Byte) (t : StmtType) (h : word t = some w) :
    getStmtType sql = t ↔ StartsWith w sql := by
  obtain ⟨l1, l2, l3, l4⟩ := kw_lower
  have e1 := startsWith_iff kwSelect sql l1 115 _ rfl (by decide)
  have e2 := startsWith_iff kwInsert sql l2 105 _ rfl (by decide)
  have e3 := startsWith_iff kwUpdate sql l3 117 _ rfl (by decide)
  have e4 := startsWith_iff kwDelete sql l4 100 _ rfl (by decide)
  have u12 := fun a b => strcasestr_unique kwSelect kwInsert (sql.dropWhile isSpace) l1 l2 rfl a b
  have u13 := fun a b => strcasestr_unique kwSelect kwUpdate (sql.dropWhile isSpace) l1 l3 rfl a b
  have u14 := fun a b => strcasestr_unique kwSelect kwDelete (sql.dropWhile isSpace) l1 l4 rfl a b
  have u23 := fun a b => strcasestr_unique kwInsert kwUpdate (sql.dropWhile isSpace) l2 l3 rfl a b
  have u24 := fun a b => strcasestr_unique kwInsert kwDelete (sql.dropWhile isSpace) l2 l4 rfl a b
  have u34 := fun a b => strcasestr_unique kwUpdate kwDelete (sql.dropWhile isSpace) l3 l4 rfl a b
  have n12 : ¬ kwSelect = kwInsert := by decide
  have n13 : ¬ kwSelect = kwUpdate := by decide
  have n14 : ¬ kwSelect = kwDelete := by decide
  have n23 : ¬ kwInsert = kwUpdate := by decide
  have n24 : ¬ kwInsert = kwDelete := by decide
  have n34 : ¬ kwUpdate = kwDelete := by decide
  unfold getStmtType
  cases t <;> simp only [word, Option.some.injEq, reduceCtorEq] at h <;> subst h
  · rw [e1]; simp only; split <;> rename_i g1
    · simp [g1]
    · simp only [g1, iff_false]; repeat' split
      all_goals simp
  · rw [e2]; simp only; split <;> rename_i g1
    · simp only [reduceCtorEq, false_iff]; exact fun g => n12 (u12 g1 g)
    · split <;> rename_i g2
      · simp [g2]
      · simp only [g2, iff_false]; repeat' split
        all_goals simp
  · rw [e3]; simp only; split <;> rename_i g1
    · simp only [reduceCtorEq, false_iff]; exact fun g => n13 (u13 g1 g)
    · split <;> rename_i g2
      · simp only [reduceCtorEq, false_iff]; exact fun g => n23 (u23 g2 g)
      · split <;> rename_i g3
        · simp [g3]
        · simp only [g3, iff_false]; split <;> simp
  · rw [e4]; simp only; split <;> rename_i g1
    · simp only [reduceCtorEq, false_iff]; exact fun g => n14 (u14 g1 g)
    · split <;> rename_i g2
      · simp only [reduceCtorEq, false_iff]; exact fun g => n24 (u24 g2 g)
      · split <;> rename_i g3
        · simp only [reduceCtorEq, false_iff]; exact fun g => n34 (u34 g3 g)
        · split <;> simp_all

/-- C74: and of the other kind if it begins with none of the four words -/
theorem C74_other (sql : List Byte) :
    getStmtType sql = .other ↔ ∀ w ∈ [kwSelect, kwInsert, kwUpdate, kwDelete], ¬ StartsWith w sql := by
  have h1 := C74_kind sql kwSelect .select rfl
  have h2 := C74_kind sql kwInsert .insert rfl
  have h3 := C74_kind sql kwUpdate .update rfl
  have h4 := C74_kind sql kwDelete .delete rfl
  simp only [List.mem_cons, List.not_mem_nil, or_false, forall_eq_or_imp, forall_eq]
  rw [← h1, ← h2, ← h3, ← h4]
  cases getStmtType sql <;> simp

/-- the bytes of a word -/
def letters (w : String) : List Byte := w.toList.map fun c => UInt8.ofNat c.toNat

/-- a word of lower case letters, each as such or as a capital -/
def Spells : List Byte → List Byte → Prop
  | [], [] => True
  | c :: w, d :: a => (d = c ∨ d + 32 = c) ∧ Spells w a
  | _, _ => False

/-- blanks, tabs, line ends, and then the word, each of its lower case letters as such or as a capital -/
def Begins (w : String) (sql : List Byte) : Prop :=
  ∃ ws a b, sql = ws ++ a ++ b ∧ (∀ c ∈ ws, c ∈ [(32 : Byte), 9, 10, 11, 12, 13]) ∧ Spells (letters w) a

theorem isSpace_iff (c : Byte) : isSpace c = true ↔ c ∈ [(32 : Byte), 9, 10, 11, 12, 13] := by
  have := c.toNat_lt
  simp only [isSpace, Bool.or_eq_true, Bool.and_eq_true, beq_iff_eq, decide_eq_true_eq, List.mem_cons, List.not_mem_nil, or_false, UInt8.le_iff_toNat_le,
    ← UInt8.toNat_inj]
  simp
  omega

theorem lower_iff (c d : Byte) (hc : 97 ≤ c.toNat ∧ c.toNat ≤ 122) : toLower d = c ↔ d = c ∨ d + 32 = c := by
  unfold toLower
  simp only [Bool.and_eq_true, decide_eq_true_eq]
  have := d.toNat_lt
  split
  · next h =>
    rw [UInt8.le_iff_toNat_le, UInt8.le_iff_toNat_le] at h
    simp only [← UInt8.toNat_inj, UInt8.toNat_add] at h ⊢
    simp at h ⊢
    omega
  · next h =>
    rw [UInt8.le_iff_toNat_le, UInt8.le_iff_toNat_le] at h
    simp only [← UInt8.toNat_inj, UInt8.toNat_add] at h ⊢
    simp at h ⊢
    omega

theorem anyCase_iff (w a : List Byte) (hw : ∀ c ∈ w, 97 ≤ c.toNat ∧ c.toNat ≤ 122) :
    AnyCase w a ↔ Spells w a := by
  unfold AnyCase
  induction w generalizing a with
  | nil => cases a <;> simp [Spells]
  | cons c w ih =>
    rw [List.forall_mem_cons] at hw
    cases a with
    | nil => simp [Spells]
    | cons d a => simp only [List.map_cons, List.cons.injEq, Spells, ih a hw.2, lower_iff c d hw.1]

theorem begins_iff (w : String) (kw sql : List Byte) (h : letters w = kw) (hw : ∀ c ∈ kw, 97 ≤ c.toNat ∧ c.toNat ≤ 122) :
    StartsWith kw sql ↔ Begins w sql := by
  unfold StartsWith Begins
  simp only [isSpace_iff, h, anyCase_iff kw _ hw]

/-- **C74**, by the letters of the words -/
theorem C74_words (sql : List Byte) :
    (getStmtType sql = .select ↔ Begins "select" sql) ∧ (getStmtType sql = .insert ↔ Begins "insert" sql) ∧
    (getStmtType sql = .update ↔ Begins "update" sql) ∧ (getStmtType sql = .delete ↔ Begins "delete" sql) := by
  rw [C74_kind sql kwSelect .select rfl, C74_kind sql kwInsert .insert rfl, C74_kind sql kwUpdate .update rfl, C74_kind sql kwDelete .delete rfl]
  exact ⟨begins_iff _ _ _ (by decide) (by decide), begins_iff _ _ _ (by decide) (by decide), begins_iff _ _ _ (by decide) (by decide),
    begins_iff _ _ _ (by decide) (by decide)⟩

/-- `" InSert into"` -/
example : Begins "insert" [32, 73, 110, 83, 101, 114, 116, 32, 105] :=
  ((C74_words _).2.1).1 (by decide)

/-- `" InSert into"` -/
example : StartsWith kwInsert [32, 73, 110, 83, 101, 114, 116, 32, 105] ∧
    getStmtType [32, 73, 110, 83, 101, 114, 116, 32, 105] = .insert :=
  ⟨⟨[32], [73, 110, 83, 101, 114, 116], [32, 105], by decide, by decide, by unfold AnyCase; decide⟩, by decide⟩

/-- `"with"`, and `"replace into insert"` -/
example : getStmtType [119, 105, 116, 104] = .other ∧
    getStmtType [114, 32, 105, 110, 115, 101, 114, 116] = .other := by decide

/-! ## the values bound -/

/-- what SQLite stores -/
inductive Cell where
  | null
  | int (i : Int)
  | text (s : List Byte)
  | blob (s : List Byte)
  deriving DecidableEq

/-- what SQLite makes of a bind call: a text without size ends before its first NUL; a NULL pointer is NULL; `none`
if bytes behind the end of the memory are read -/
def cellOf : Bound → Option Cell
  | .int i => some (.int i)
  | .int64 i => some (.int i)
  | .text none _ => some .null
  | .text (some s) none => if 0 ∈ s then some (.text (s.takeWhile (· != 0))) else none
  | .text (some s) (some n) => if n ≤ s.length then some (.text (s.take n)) else none
  | .blob none _ => some .null
  | .blob (some s) n => if n ≤ s.length then some (.blob (s.take n)) else none
  | .null => some .null

/-- the data of a row are well formed: the type is known, a text ends with NUL or has a size, a blob has its size -/
def Means (info : Info) (d : Data) (c : Cell) : Prop :=
  if d.isNull = true ∧ info.notNull = false then c = .null
  else
    match info.type with
    | .undef => False
    | .int => c = .int d.i
    | .int64 => c = .int d.i64
    | .text => (∃ s r, d.value = some (s ++ 0 :: r) ∧ 0 ∉ s ∧ d.size = 0 ∧ c = .text s) ∨
        ∃ s r, d.value = some (s ++ r) ∧ d.size = s.length ∧ d.size ≠ 0 ∧ c = .text s
    | .blob => ∃ s r, d.value = some (s ++ r) ∧ d.size = s.length ∧ c = .blob s

/-- the zero of a type -/
def zeroCell : STy → Option Cell
  | .undef => none
  | .int => some (.int 0)
  | .int64 => some (.int 0)
  | .text => some (.text [])
  | .blob => some (.blob [])

/-- the value a row has for a statement: the caller's data, else its own, else (INSERT, not null) zero; `none` if
there is no value -/
inductive Wants (insert : Prop) (ext : Option Data) (info : Info) : Option Cell → Prop
  | caller {d c} : ext = some d → d.hasValue = true → Means info d c → Wants insert ext info (some c)
  | own {c} : (∀ d, ext = some d → d.hasValue = false) → info.data.hasValue = true → Means info info.data c →
      Wants insert ext info (some c)
  | zero {c} : (∀ d, ext = some d → d.hasValue = false) → info.data.hasValue = false → insert →
      info.notNull = true → zeroCell info.type = some c → Wants insert ext info (some c)
  | nothing : (∀ d, ext = some d → d.hasValue = false) → info.data.hasValue = false →
      ¬ (insert ∧ info.notNull = true) → Wants insert ext info none

/-- the data of the caller for row `i` -/
def ext (data : Option (List Data)) (i : Nat) : Option Data := data.bind (·[i]?)

/-- the values given to parameter `k`, in the order of the calls -/
def calls (k : Nat) : List Ev → List Bound
  | [] => []
  | .bind j b :: es => if j = k then b :: calls k es else calls k es
  | _ :: es => calls k es

theorem calls_append (k : Nat) (a b : List Ev) : calls k (a ++ b) = calls k a ++ calls k b := by
  induction a with
  | nil => rfl
  | cons e a ih =>
    cases e <;> simp only [List.cons_append, calls, ih]
    split <;> rfl

theorem takeWhile_nul (s r : List Byte) (h : 0 ∉ s) : (s ++ 0 :: r).takeWhile (· != 0) = s := by
  induction s with
  | nil => simp
  | cons a s ih =>
    have ha : (a != 0) = true := by
      simp only [bne_iff_ne, ne_eq]; rintro rfl; exact h (by simp)
    rw [List.cons_append, List.takeWhile_cons, if_pos ha, ih (fun hm => h (by simp [hm]))]

theorem bindData_means {info : Info} {d : Data} {c : Cell} (h : Means info d c) :
    ∃ b, bindData info d = .ok b ∧ cellOf b = some c := by
  unfold Means at h
  unfold bindData
  by_cases hn : d.isNull = true ∧ info.notNull = false
  · rw [if_pos hn] at h
    subst h
    exact ⟨.null, by simp [hn.1, hn.2], rfl⟩
  · rw [if_neg hn] at h
    have hn' : (d.isNull && !info.notNull) = false := by
      cases h1 : d.isNull <;> cases h2 : info.notNull <;> simp_all
    rw [hn']
    simp only [Bool.false_eq_true, if_false]
    cases ht : info.type <;> rw [ht] at h <;> simp only at h ⊢
    · rcases h with ⟨s, r, h1, h2, h3, rfl⟩ | ⟨s, r, h1, h2, h3, rfl⟩
      · exact ⟨_, rfl, by simp [h1, h3, cellOf, takeWhile_nul s r h2]⟩
      · refine ⟨_, rfl, ?_⟩
        rw [h1, if_neg h3, h2]
        simp [cellOf]
    · subst h; exact ⟨_, rfl, rfl⟩
    · subst h; exact ⟨_, rfl, rfl⟩
    · obtain ⟨s, r, h1, h2, rfl⟩ := h
      exact ⟨_, rfl, by simp [h1, h2, cellOf]⟩

theorem bindDefault_zero {t : STy} {c : Cell} (h : zeroCell t = some c) :
    ∃ b, bindDefault t = .ok b ∧ cellOf b = some c := by
  cases t <;> simp only [zeroCell, Option.some.injEq, reduceCtorEq] at h <;> subst h <;>
    exact ⟨_, rfl, by simp [cellOf]⟩

/-- one row: the value wanted is the value bound -/
theorem bindRow_wants {st : StmtType} {data : Option (List Data)} {i : Nat} {info : Info} {w : Option Cell}
    (hd : ∀ ds, data = some ds → i < ds.length) (h : Wants (st = .insert) (ext data i) info w) :
    ∃ b, bindRow st data i info = .ok b ∧ b.map cellOf = w.map some := by
  have key : ∀ w, (∀ d, ext data i = some d → d.hasValue = false) →
      (∃ b, (if info.data.hasValue then (bindData info info.data).map some
        else if st = .insert && info.notNull then (bindDefault info.type).map some else .ok none) = Res.ok b ∧
        b.map cellOf = w) → ∃ b, bindRow st data i info = .ok b ∧ b.map cellOf = w := by
    intro w hx hr
    unfold bindRow
    cases data with
    | none => exact hr
    | some ds =>
      have hlt := hd ds rfl
      have hx' := hx ds[i] (by simp [ext, hlt])
      simp only [List.getElem?_eq_getElem hlt, hx', Bool.false_eq_true, if_false]
      exact hr
  cases h with
  | caller h1 h2 h3 =>
    obtain ⟨b, hb, hc⟩ := bindData_means h3
    refine ⟨some b, ?_, by simp [hc]⟩
    cases data with
    | none => simp [ext] at h1
    | some ds =>
      simp only [ext, Option.bind_some] at h1
      simp [bindRow, h1, h2, hb, Res.map]
  | own h1 h2 h3 =>
    obtain ⟨b, hb, hc⟩ := bindData_means h3
    exact key _ h1 ⟨some b, by simp [h2, hb, Res.map], by simp [hc]⟩
  | zero h1 h2 h3 h4 h5 =>
    obtain ⟨b, hb, hc⟩ := bindDefault_zero h5
    exact key _ h1 ⟨some b, by simp [h2, h3, h4, hb, Res.map], by simp [hc]⟩
  | nothing h1 h2 h3 =>
    refine key _ h1 ⟨none, ?_, rfl⟩
    have h3' : (decide (st = .insert) && info.notNull) = false := by
      cases hn : info.notNull <;> simp_all
    simp [h2, h3']

theorem paramIndex_zero {params : List (Option (List Byte))} {name : List Byte} :
    paramIndex params name = 0 ↔ some name ∉ params := by
  unfold paramIndex
  cases h : params.findIdx? (· == some name) with
  | none =>
    rw [List.findIdx?_eq_none_iff] at h
    simp only [true_iff]
    intro hm
    simpa using h _ hm
  | some k =>
    rw [List.findIdx?_eq_some_iff_getElem] at h
    obtain ⟨hk, h1, _⟩ := h
    simp only [Nat.add_eq_zero_iff, Nat.one_ne_zero, and_false, false_iff]
    apply not_not_intro
    rw [← eq_of_beq h1]
    exact List.getElem_mem hk

/-- SQLite has one index for one name -/
def OneIndex (params : List (Option (List Byte))) : Prop :=
  ∀ (i j : Nat) (name : List Byte), params[i]? = some (some name) → params[j]? = some (some name) → i = j

theorem paramIndex_succ {params : List (Option (List Byte))} (ho : OneIndex params) {name : List Byte} {k : Nat} :
    paramIndex params name = k + 1 ↔ params[k]? = some (some name) := by
  have key : ∀ j, params.findIdx? (· == some name) = some j → params[j]? = some (some name) := by
    intro j h
    rw [List.findIdx?_eq_some_iff_getElem] at h
    obtain ⟨hk, h1, _⟩ := h
    rw [List.getElem?_eq_getElem hk, eq_of_beq h1]
  constructor
  · intro h
    unfold paramIndex at h
    split at h
    · rename_i j hj
      have : j = k := by omega
      exact this ▸ key j hj
    · omega
  · intro h
    unfold paramIndex
    cases hj : params.findIdx? (· == some name) with
    | none =>
      rw [List.findIdx?_eq_none_iff] at hj
      have := hj _ (List.mem_of_getElem? h)
      simp at this
    | some j => rw [ho j k name (key j hj) h]

/-- the rows of the table that name `name`, with what they want -/
inductive AllWant (insert : Prop) (data : Option (List Data)) : Nat → List Info → List Byte → List Cell → Prop
  | nil {i name} : AllWant insert data i [] name []
  | skip {i info infos name cs} : info.var ≠ name → AllWant insert data (i + 1) infos name cs →
      AllWant insert data i (info :: infos) name cs
  | none {i info infos name cs} : info.var = name → Wants insert (ext data i) info none →
      AllWant insert data (i + 1) infos name cs → AllWant insert data i (info :: infos) name cs
  | some {i info infos name c cs} : info.var = name → Wants insert (ext data i) info (some c) →
      AllWant insert data (i + 1) infos name cs → AllWant insert data i (info :: infos) name (c :: cs)

/-- the log of the loop as events -/
def evs (log : List (Nat × Bound)) : List Ev := log.map fun p => .bind p.1 p.2

theorem evs_append (a b : List (Nat × Bound)) : evs (a ++ b) = evs a ++ evs b := by simp [evs]

/-- the loop in one place: what is logged, what is marked -/
theorem bindLoop_spec {st : StmtType} {params : List (Option (List Byte))} (ho : OneIndex params)
    {data : Option (List Data)} (infos : List Info) (i : Nat)
    (hd : ∀ ds, data = some ds → i + infos.length ≤ ds.length) (bound : List Bool) (log : List (Nat × Bound))
    {bound' : List Bool} {log' : List (Nat × Bound)}
    (h : bindLoop st params data i infos bound log = .ok (bound', log')) :
    bound'.length = bound.length ∧
    (∀ k : Nat, bound'[k]? = some true ↔ bound[k]? = some true ∨ ∃ info ∈ infos, params[k]? = some (some info.var)) ∧
    ∃ more, log' = log ++ more ∧ ∀ (k : Nat) name cs, params[k]? = some (some name) →
      AllWant (st = .insert) data i infos name cs → (calls (k + 1) (evs more)).map cellOf = cs.map some := by
  induction infos generalizing i bound log with
  | nil =>
    simp only [bindLoop, Res.ok.injEq, Prod.mk.injEq] at h
    obtain ⟨rfl, rfl⟩ := h
    refine ⟨rfl, by simp, [], by simp, ?_⟩
    intro k name cs _ hw
    cases hw
    rfl
  | cons info infos ih =>
    have hd' : ∀ ds, data = some ds → (i + 1) + infos.length ≤ ds.length := by
      intro ds hds
      have := hd ds hds
      simp only [List.length_cons] at this
      omega
    have hlt : ∀ ds, data = some ds → i < ds.length := by
      intro ds hds
      have := hd ds hds
      simp only [List.length_cons] at this
      omega
    rw [bindLoop] at h
    cases hp : paramIndex params info.var with
    | zero =>
      rw [hp] at h
      obtain ⟨h1, h2, more, h3, h4⟩ := ih (i + 1) hd' bound log h
      have hno := paramIndex_zero.mp hp
      have hne : ∀ (k : Nat) name, params[k]? = some (some name) → info.var ≠ name := by
        rintro k name hk rfl
        exact hno (List.mem_of_getElem? hk)
      refine ⟨h1, ?_, more, h3, ?_⟩
      · intro k
        rw [h2]
        simp only [List.mem_cons, exists_eq_or_imp]
        constructor
        · rintro (h | h)
          · exact .inl h
          · exact .inr (.inr h)
        · rintro (h | h | h)
          · exact .inl h
          · exact absurd rfl (hne k _ h)
          · exact .inr h
      · intro k name cs hk hw
        have hn := hne k name hk
        cases hw with
        | skip _ hw => exact h4 k name cs hk hw
        | none he _ _ => exact absurd he hn
        | some he _ _ => exact absurd he hn
    | succ j =>
      rw [hp] at h
      simp only at h
      have hj := (paramIndex_succ ho).mp hp
      split at h
      · cases h
      · rename_i hb
        obtain ⟨b, hb1, h⟩ := (Res.bind_eq_ok (x := bindRow st data i info)).mp h
        obtain ⟨h1, h2, more, h3, h4⟩ := ih (i + 1) hd' _ _ h
        have hone : ∀ (k : Nat) name, params[k]? = some (some name) → (info.var = name ↔ k = j) := by
          intro k name hk
          constructor
          · rintro rfl; exact ho _ _ _ hk hj
          · rintro rfl; rw [hk] at hj; simpa using hj.symm
        refine ⟨by simpa using h1, ?_, b.toList.map (fun b => (j + 1, b)) ++ more, ?_, ?_⟩
        · intro k
          rw [h2]
          simp only [List.mem_cons, exists_eq_or_imp, List.getElem?_set]
          by_cases hk : j = k
          · subst hk
            have : j < bound.length := by omega
            simp [this, hj]
          · have hk' : ¬ params[k]? = some (some info.var) := fun h => hk ((hone k _ h).mp rfl).symm
            simp [hk, hk']
        · rw [h3]
          cases b <;> simp
        · intro k name cs hk hw
          rw [evs_append, calls_append, List.map_append]
          have hbk : ∀ w, Wants (st = .insert) (ext data i) info w → k = j →
              (calls (k + 1) (evs (b.toList.map (fun b => (j + 1, b))))).map cellOf = w.toList.map some := by
            intro w hw hkj
            obtain ⟨b', hb', hc⟩ := bindRow_wants hlt hw
            rw [hb1] at hb'
            cases hb'
            subst hkj
            cases b <;> cases w <;> simp_all [evs, calls]
          cases hw with
          | skip he hw =>
            have : j ≠ k := fun h => he ((hone k name hk).mpr h.symm)
            rw [h4 k name cs hk hw]
            cases b <;> simp [evs, calls, this]
          | none he hw1 hw => rw [h4 k name cs hk hw, hbk _ hw1 ((hone k name hk).mp he)]; rfl
          | some he hw1 hw => rw [h4 k name _ hk hw, hbk _ hw1 ((hone k name hk).mp he)]; rfl

/-- the loop succeeds if every row that is named in the statement has well formed data or none -/
theorem bindLoop_total {st : StmtType} {params : List (Option (List Byte))} (ho : OneIndex params)
    {data : Option (List Data)} (infos : List Info) (i : Nat)
    (hd : ∀ ds, data = some ds → i + infos.length ≤ ds.length) (bound : List Bool) (log : List (Nat × Bound))
    (hb : bound.length = params.length)
    (hw : ∀ (j : Nat) info, infos[j]? = some info → some info.var ∈ params →
      ∃ w, Wants (st = .insert) (ext data (i + j)) info w) :
    ∃ r, bindLoop st params data i infos bound log = .ok r := by
  induction infos generalizing i bound log with
  | nil => exact ⟨_, rfl⟩
  | cons info infos ih =>
    have hd' : ∀ ds, data = some ds → (i + 1) + infos.length ≤ ds.length := by
      intro ds hds
      have := hd ds hds
      simp only [List.length_cons] at this
      omega
    have hlt : ∀ ds, data = some ds → i < ds.length := by
      intro ds hds
      have := hd ds hds
      simp only [List.length_cons] at this
      omega
    have hw' : ∀ (j : Nat) info, infos[j]? = some info → some info.var ∈ params →
        ∃ w, Wants (st = .insert) (ext data (i + 1 + j)) info w := by
      intro j x hx hm
      have := hw (j + 1) x (by simpa using hx) hm
      rwa [show i + (j + 1) = i + 1 + j by omega] at this
    rw [bindLoop]
    cases hp : paramIndex params info.var with
    | zero => exact ih (i + 1) hd' bound log hb hw'
    | succ j =>
      have hj := (paramIndex_succ ho).mp hp
      have hjl : j < params.length := (List.getElem?_eq_some_iff.mp hj).1
      obtain ⟨w, hw0⟩ := hw 0 info rfl (List.mem_of_getElem? hj)
      obtain ⟨b, hb1, _⟩ := bindRow_wants hlt hw0
      simp only [hb1, Res.bind_ok]
      rw [if_neg (by omega)]
      exact ih (i + 1) hd' _ _ (by simpa using hb) hw'

theorem calls_evs_tail (k : Nat) (a b : List Ev) (hb : ∀ j x, Ev.bind j x ∉ b) : calls k (a ++ b) = calls k a := by
  rw [calls_append]
  have : calls k b = [] := by
    induction b with
    | nil => rfl
    | cons e b ih =>
      have := ih fun j x hm => hb j x (by simp [hm])
      cases e <;> simp only [calls, this]
      exact absurd (List.mem_cons_self ..) (hb _ _)
  rw [this, List.append_nil]

/-- C47, in general: the calls for a parameter give the values of the rows that name it, one after the other, a row
without value giving none -/
theorem C47_general {sql : List Byte} {params : List (Option (List Byte))} (ho : OneIndex params)
    {infos : List Info} {data : Option (List Data)} {pp : Bool} {es : List Ev} {rc : RetCode}
    (hd : ∀ ds, data = some ds → infos.length ≤ ds.length)
    (h : bindRun sql (some params) (some infos) data pp = .ok (es, rc))
    {k : Nat} {name : List Byte} (hk : params[k]? = some (some name)) {cs : List Cell}
    (hw : AllWant (StartsWith kwInsert sql) data 0 infos name cs) :
    (calls (k + 1) es).map cellOf = cs.map some := by
  rw [← propext (C74_kind sql kwInsert .insert rfl)] at hw
  unfold bindRun at h
  simp only [Res.map_eq_ok] at h
  obtain ⟨⟨bound', log'⟩, hl, h⟩ := h
  obtain ⟨_, _, more, h3, h4⟩ := bindLoop_spec ho infos 0 (by simpa using hd) _ _ hl
  simp only [List.nil_append] at h3
  subst h3
  have := h4 k name cs hk hw
  simp only at h
  split at h
  · cases h
    rw [calls_evs_tail _ _ _ (by simp)]
    exact this
  · cases h
    rw [calls_evs_tail _ _ _ (by cases pp <;> simp)]
    exact this

theorem allWant_none {ins : Prop} {data : Option (List Data)} (infos : List Info) (i : Nat) {name : List Byte}
    (h : ∀ info ∈ infos, info.var ≠ name) : AllWant ins data i infos name [] := by
  induction infos generalizing i with
  | nil => exact .nil
  | cons x xs ih => exact .skip (h x (by simp)) (ih (i + 1) fun y hy => h y (by simp [hy]))

theorem allWant_one {ins : Prop} {data : Option (List Data)} (infos : List Info) (i j : Nat) {info : Info}
    {w : Option Cell} (hj : infos[j]? = some info) (hw : Wants ins (ext data (i + j)) info w)
    (h : ∀ (m : Nat) x, infos[m]? = some x → x.var = info.var → m = j) :
    AllWant ins data i infos info.var w.toList := by
  induction infos generalizing i j with
  | nil => simp at hj
  | cons x xs ih =>
    cases j with
    | zero =>
      simp only [List.getElem?_cons_zero, Option.some.injEq] at hj
      subst hj
      have : AllWant ins data (i + 1) xs x.var [] := by
        apply allWant_none
        intro y hy he
        obtain ⟨m, hm⟩ := List.getElem?_of_mem hy
        have := h (m + 1) y (by simpa using hm) he
        omega
      cases w with
      | none => exact .none rfl hw this
      | some c => exact .some rfl hw this
    | succ j =>
      have hx : x.var ≠ info.var := by
        intro he
        have := h 0 x rfl he
        omega
      refine .skip hx (ih (i + 1) j (by simpa using hj) (by rwa [show i + 1 + j = i + (j + 1) by omega]) ?_)
      intro m y hy he
      have := h (m + 1) y (by simpa using hy) he
      omega

/-- C47: a parameter that is named by one row gets the value of this row, once; none if the row has no value -/
theorem C47_partial {sql : List Byte} {params : List (Option (List Byte))} (ho : OneIndex params)
    {infos : List Info} {data : Option (List Data)} {pp : Bool} {es : List Ev} {rc : RetCode}
    (hd : ∀ ds, data = some ds → infos.length ≤ ds.length)
    (h : bindRun sql (some params) (some infos) data pp = .ok (es, rc))
    {k j : Nat} {info : Info} {w : Option Cell} (hk : params[k]? = some (some info.var))
    (hj : infos[j]? = some info) (hone : ∀ (m : Nat) x, infos[m]? = some x → x.var = info.var → m = j)
    (hw : Wants (StartsWith kwInsert sql) (ext data j) info w) :
    (calls (k + 1) es).map cellOf = w.toList.map some :=
  C47_general ho hd h hk (allWant_one infos 0 j hj (by simpa using hw) hone)

/-- C47: the calls succeed if every row that the statement names has well formed data or none -/
theorem C47_total {sql : List Byte} {params : List (Option (List Byte))} (ho : OneIndex params)
    {infos : List Info} {data : Option (List Data)} (pp : Bool)
    (hd : ∀ ds, data = some ds → infos.length ≤ ds.length)
    (hw : ∀ (j : Nat) info, infos[j]? = some info → some info.var ∈ params →
      ∃ w, Wants (StartsWith kwInsert sql) (ext data j) info w) :
    ∃ es rc, bindRun sql (some params) (some infos) data pp = .ok (es, rc) := by
  rw [← propext (C74_kind sql kwInsert .insert rfl)] at hw
  obtain ⟨r, hr⟩ := bindLoop_total (log := []) ho infos 0 (by simpa using hd)
    (List.replicate params.length false) (by simp) (by simpa using hw)
  unfold bindRun
  simp only [hr, Res.map_ok']
  split <;> exact ⟨_, _, rfl⟩

/-- C72: a statement with parameters is run exactly if every parameter has a name that stands in the table -/
theorem C72_partial {sql : List Byte} {params : List (Option (List Byte))} (ho : OneIndex params)
    {infos : List Info} {data : Option (List Data)} {pp : Bool} {es : List Ev} {rc : RetCode}
    (hd : ∀ ds, data = some ds → infos.length ≤ ds.length)
    (h : bindRun sql (some params) (some infos) data pp = .ok (es, rc)) :
    (.step ∈ es ↔ ∀ p ∈ params, ∃ info ∈ infos, p = some info.var) ∧
    (rc = .ofStep ↔ .step ∈ es) ∧
    ((.step ∉ es) → rc = .sqliteError ∧ ∃ k, es.getLast? = some (.unbound (k + 1)) ∧
      (∀ info ∈ infos, params[k]? ≠ some (some info.var)) ∧ k < params.length ∧
      ∀ m, m < k → ∃ info ∈ infos, params[m]? = some (some info.var)) := by
  unfold bindRun at h
  simp only [Res.map_eq_ok] at h
  obtain ⟨⟨bound', log'⟩, hl, h⟩ := h
  obtain ⟨h1, h2, _⟩ := bindLoop_spec ho infos 0 (by simpa using hd) _ _ hl
  simp only [List.length_replicate] at h1
  have h2' : ∀ k : Nat, k < params.length → (bound'[k]? = some true ↔ ∃ info ∈ infos, params[k]? = some (some info.var)) := by
    intro k hk
    rw [h2]
    simp [List.getElem?_replicate, hk]
  simp only at h
  have hns : Ev.step ∉ (log'.map fun p => Ev.bind p.1 p.2) := by simp
  split at h
  · rename_i k hk
    cases h
    rw [firstUnbound, List.findIdx?_eq_some_iff_getElem] at hk
    obtain ⟨hkl, hk1, hk2⟩ := hk
    have hkl' : k < params.length := by omega
    have hno : ¬ ∃ info ∈ infos, params[k]? = some (some info.var) := by
      rw [← h2' k hkl', List.getElem?_eq_getElem hkl, eq_of_beq hk1]
      simp
    have hst : Ev.step ∉ (log'.map (fun p => Ev.bind p.1 p.2) ++ [Ev.unbound (k + 1)]) := by simp
    refine ⟨?_, by simp, ?_⟩
    · simp only [hst, false_iff]
      intro hall
      obtain ⟨info, hi, he⟩ := hall params[k] (List.getElem_mem hkl')
      exact hno ⟨info, hi, by rw [List.getElem?_eq_getElem hkl', he]⟩
    · intro _
      refine ⟨rfl, k, by simp, fun info hi he => hno ⟨info, hi, he⟩, hkl', ?_⟩
      intro m hm
      have := hk2 m hm
      rw [← h2' m (by omega), List.getElem?_eq_getElem (by omega)]
      simpa using this
  · rename_i hk
    cases h
    rw [firstUnbound, List.findIdx?_eq_none_iff] at hk
    refine ⟨?_, by simp, by simp⟩
    simp only [List.mem_append, hns, List.mem_cons, true_or, or_true, true_iff]
    intro p hp
    obtain ⟨k, hk1⟩ := List.getElem?_of_mem hp
    have hkl : k < params.length := (List.getElem?_eq_some_iff.mp hk1).1
    have : bound'[k]? = some true := by
      have hm := hk bound'[k] (List.getElem_mem (by omega))
      rw [List.getElem?_eq_getElem (by omega)]
      simpa using hm
    obtain ⟨info, hi, he⟩ := (h2' k hkl).mp this
    rw [hk1] at he
    exact ⟨info, hi, by simpa using he⟩

/-- C73: a statement that is run and not given to the caller is finalized once, after it was run; a statement that
the caller wants is not finalized -/
theorem C73_partial {sql : List Byte} {prep : Option (List (Option (List Byte)))} {infos : Option (List Info)}
    {data : Option (List Data)} {pp : Bool} {es : List Ev} {rc : RetCode}
    (h : bindRun sql prep infos data pp = .ok (es, rc)) :
    (rc = .ofStep → ∃ bs, es = bs ++ .step :: (if pp then [] else [.finalize]) ∧ .finalize ∉ bs ∧ .step ∉ bs) ∧
    (rc ≠ .ofStep → .finalize ∉ es ∧ .step ∉ es) := by
  cases prep with
  | none => simp only [bindRun, Res.ok.injEq, Prod.mk.injEq] at h; obtain ⟨rfl, rfl⟩ := h; simp
  | some params =>
  cases infos with
  | none =>
    simp only [bindRun, Res.ok.injEq, Prod.mk.injEq] at h
    obtain ⟨rfl, rfl⟩ := h
    exact ⟨fun _ => ⟨[], by simp⟩, by simp⟩
  | some infos =>
    simp only [bindRun, Res.map_eq_ok] at h
    obtain ⟨r, _, h⟩ := h
    split at h
    · cases h; simp
    · cases h
      exact ⟨fun _ => ⟨_, rfl, by simp, by simp⟩, by simp⟩

/-! ## the claims as they were made -/

/-- C47 is false for tables with two rows of the same name: the parameter is bound twice, and the later row wins -/
theorem C47_twice_false : ∃ sql params infos es rc, OneIndex params ∧
    bindRun sql (some params) (some infos) none false = .ok (es, rc) ∧ calls 1 es = [.int 1, .int 2] := by
  refine ⟨kwSelect, [some [64, 97]],
    [{ var := [64, 97], col := [97], type := .int, data := { i := 1, hasValue := true } },
     { var := [64, 97], col := [97], type := .int, data := { i := 2, hasValue := true } }], _, _, ?_, rfl, rfl⟩
  intro i j name hi hj
  have h1 := (List.getElem?_eq_some_iff.mp hi).1
  have h2 := (List.getElem?_eq_some_iff.mp hj).1
  simp at h1 h2
  omega

/-- C72 is false: a statement is run although one of its parameters has no value (`select … @a`) -/
theorem C72_false : ∃ sql params infos es rc,
    bindRun sql (some params) (some infos) none false = .ok (es, rc) ∧ .step ∈ es ∧ params = [some [64, 97]] ∧
      calls 1 es = [] :=
  ⟨kwSelect, [some [64, 97]], [{ var := [64, 97], col := [97], type := .int }], _, _, rfl, by decide, rfl, rfl⟩

/-- C73 is false: a statement with a parameter that is not in the table is never finalized -/
theorem C73_false : ∃ sql params infos es rc,
    bindRun sql (some params) (some infos) none false = .ok (es, rc) ∧ .finalize ∉ es :=
  ⟨kwSelect, [some [64, 97]], [], _, _, rfl, by decide⟩

/-! ## the hypotheses can be met -/

/-- `insert … (@a, @b, @c)` with a caller's value for `@a`, an own value for `@b` and the default for `@c` -/
def exParams : List (Option (List Byte)) := [some [64, 97], some [64, 98], some [64, 99]]

def exInfos : List Info :=
  [{ var := [64, 97], col := [97], type := .int, data := { i := 5, hasValue := true } },
   { var := [64, 98], col := [98], type := .text, data := { value := some [120, 0], hasValue := true } },
   { var := [64, 99], col := [99], type := .text, notNull := true }]

def exData : List Data := [{ i := 7, hasValue := true }, {}, {}]

example : (∀ (i j : Fin 3), exParams[i] = exParams[j] → i = j) ∧
    (bindRun kwInsert (some exParams) (some exInfos) (some exData) false).map Prod.fst =
      .ok [.bind 1 (.int 7), .bind 2 (.text (some [120, 0]) none), .bind 3 (.text (some []) (some 0)), .step,
        .finalize] := ⟨by decide, rfl⟩

example : Wants (StartsWith kwInsert kwInsert) (ext (some exData) 0) exInfos[0] (some (.int 7)) :=
  .caller (d := { i := 7, hasValue := true }) rfl rfl (by simp [Means, exInfos])

example : Wants (StartsWith kwInsert kwInsert) (ext (some exData) 1) exInfos[1] (some (.text [120])) :=
  .own (by simp [ext, exData]) rfl (by
    simp only [Means, exInfos, List.getElem_cons_succ, List.getElem_cons_zero]
    exact .inl ⟨[120], [], by simp⟩)

example : Wants (StartsWith kwInsert kwInsert) (ext (some exData) 2) exInfos[2] (some (.text [])) :=
  .zero (by simp [ext, exData]) rfl ⟨[], kwInsert, [], by simp, by simp, by unfold AnyCase; decide⟩ rfl rfl

end Verif.Sqlite.Props
