import Verif.Sqlite.Mkdir

/-!
# C97: making directories
-/

namespace Verif.Dbm.Props

open Verif.Json (Byte)

/-! ## statements -/

/-- a name of an entry: not empty, not `.` or `..`, without slash -/
def Name (c : List Byte) : Prop := c ≠ [] ∧ c ≠ dot ∧ c ≠ dots ∧ slash ∉ c

/-- the path with `a` slashes in front and the given names, each with a number of slashes after it -/
def write (a : Nat) (l : List (List Byte × Nat)) : List Byte :=
  List.replicate a slash ++ l.flatMap fun e => e.1 ++ List.replicate e.2 slash

/-- names, and at least one slash between them -/
def Written (l : List (List Byte × Nat)) : Prop := (∀ e ∈ l, Name e.1) ∧ ∀ e ∈ l.dropLast, 0 < e.2

/-- where a path with `a` slashes in front starts -/
def base (cwd : List (List Byte)) (a : Nat) : List (List Byte) := if a = 0 then cwd else []

/-- the position of the names -/
def place (b : List (List Byte)) (l : List (List Byte × Nat)) : List (List Byte) := (l.map (·.1)).reverse ++ b

/-- `q` is passed on the way from `b` to `p` -/
def OnWay (b p q : List (List Byte)) : Prop := b <:+ q ∧ q <:+ p

/-- a tree: the root is a directory, and everything is in a directory -/
def Tree (fs : Fs) : Prop := fs [] = some .dir ∧ ∀ c p, fs (c :: p) ≠ none → fs p = some .dir

/-! ## paths -/

theorem split_append (s t : List Byte) : split (s ++ slash :: t) = split s ++ split t := by
  induction s with
  | nil => simp [split]
  | cons b s ih =>
    rw [List.cons_append, split, split, ih]
    split
    · rfl
    · cases h : split s with
      | nil => cases s with
        | nil => simp [split] at h
        | cons b s => rw [split] at h; split at h; cases h; split at h <;> cases h
      | cons c cs => rfl

theorem split_name {c : List Byte} (h : slash ∉ c) : split c = [c] := by
  induction c with
  | nil => rfl
  | cons b s ih =>
    rw [List.mem_cons, not_or] at h
    rw [split, ih h.2, if_neg (fun e => h.1 e.symm)]

/-- following the parts of a path -/
def run (fs : Fs) (pos : List (List Byte)) (path : List Byte) : Option (List (List Byte)) :=
  (split path).foldlM (walkStep fs) pos

theorem run_slash (fs : Fs) (pos : List (List Byte)) (t : List Byte) (h : fs pos = some .dir) :
    run fs pos (slash :: t) = run fs pos t := by
  rw [run, split, if_pos rfl, List.foldlM_cons, walkStep, if_pos h, if_pos (.inl rfl)]
  rfl

theorem run_slashes (fs : Fs) (pos : List (List Byte)) (t : List Byte) (h : fs pos = some .dir) (k : Nat) :
    run fs pos (List.replicate k slash ++ t) = run fs pos t := by
  induction k with
  | zero => rfl
  | succ k ih => rw [List.replicate_succ, List.cons_append, run_slash _ _ _ h, ih]

theorem run_nil (fs : Fs) (pos : List (List Byte)) (h : fs pos = some .dir) : run fs pos [] = some pos := by
  simp [run, split, walkStep, h]

theorem run_name (fs : Fs) (pos : List (List Byte)) {c : List Byte} (hc : slash ∉ c) :
    run fs pos c = walkStep fs pos c := by
  rw [run, split_name hc]; simp

theorem run_cons (fs : Fs) (pos : List (List Byte)) {c : List Byte} (hc : slash ∉ c) (t : List Byte) :
    run fs pos (c ++ slash :: t) = (walkStep fs pos c).bind fun p => run fs p t := by
  rw [run, split_append, split_name hc, List.singleton_append, List.foldlM_cons]
  rfl

theorem step_name (fs : Fs) (pos : List (List Byte)) {c : List Byte} (hc : Name c) (h : fs pos = some .dir) :
    walkStep fs pos c = if (fs (c :: pos)).isSome then some (c :: pos) else none := by
  rw [walkStep, if_pos h, if_neg (by rintro (e | e); exact hc.1 e; exact hc.2.1 e), if_neg hc.2.2.1]

theorem write_nil (a : Nat) : write a [] = List.replicate a slash := by simp [write]

theorem write_concat (a : Nat) (l : List (List Byte × Nat)) (c : List Byte) (k : Nat) :
    write a (l ++ [(c, k)]) = write a l ++ c ++ List.replicate k slash := by
  simp [write]

theorem head_write {a : Nat} {l : List (List Byte × Nat)} (hw : Written l) (hne : write a l ≠ []) (cwd : List (List Byte)) :
    startOf cwd (write a l) = base cwd a := by
  cases a with
  | succ a => simp [startOf, base, write, List.replicate_succ]
  | zero =>
    cases l with
    | nil => simp [write] at hne
    | cons e l =>
      obtain ⟨h1, -, -, h4⟩ := hw.1 e (by simp)
      obtain ⟨c, k⟩ := e
      cases c with
      | nil => exact absurd rfl h1
      | cons b c =>
        rw [List.mem_cons, not_or] at h4
        simp only [startOf, base, write, List.flatMap_cons, List.replicate_zero, List.nil_append, List.cons_append,
          List.head?_cons, Option.some.injEq]
        rw [if_neg (fun e => h4.1 e.symm), if_pos trivial]

theorem place_cons (b : List (List Byte)) (e : List Byte × Nat) (l : List (List Byte × Nat)) :
    place b (e :: l) = place (e.1 :: b) l := by simp [place]

theorem place_concat (b : List (List Byte)) (l : List (List Byte × Nat)) (c : List Byte) (k : Nat) :
    place b (l ++ [(c, k)]) = c :: place b l := by simp [place]

theorem suffix_place (b : List (List Byte)) (l : List (List Byte × Nat)) : b <:+ place b l := ⟨_, rfl⟩

theorem Tree.up {fs : Fs} (ht : Tree fs) (p q : List (List Byte)) (h : fs (p ++ q) ≠ none) : p = [] ∨ fs q = some .dir := by
  induction p with
  | nil => exact .inl rfl
  | cons c p ih =>
    have h1 := ht.2 c (p ++ q) h
    rcases ih (by rw [h1]; simp) with h2 | h2
    · subst h2; exact .inr h1
    · exact .inr h2

theorem Written.tail {e : List Byte × Nat} {l : List (List Byte × Nat)} (h : Written (e :: l)) : Written l := by
  refine ⟨fun x hx => h.1 x (List.mem_cons_of_mem _ hx), fun x hx => h.2 x ?_⟩
  cases l with
  | nil => simp at hx
  | cons y l => rw [List.dropLast_cons₂]; exact List.mem_cons_of_mem _ hx

/-- following a path on which there are no files -/
theorem run_write {fs : Fs} (ht : Tree fs) (l : List (List Byte × Nat)) : ∀ b, Written l → fs b = some .dir →
    (∀ q, OnWay b (place b l) q → fs q ≠ some .file) →
    run fs b (l.flatMap fun e => e.1 ++ List.replicate e.2 slash) =
      if (fs (place b l)).isSome then some (place b l) else none := by
  induction l with
  | nil =>
    intro b _ hb _
    simp only [List.flatMap_nil, place, List.map_nil, List.reverse_nil, List.nil_append]
    rw [run_nil _ _ hb, hb]; rfl
  | cons e l ih =>
    intro b hw hb hq
    have he := hw.1 e (by simp)
    obtain ⟨c, k⟩ := e
    rw [List.flatMap_cons, place_cons]
    rw [place_cons] at hq
    dsimp only at he hq ⊢
    cases k with
    | zero =>
      have hl : l = [] := by
        cases l with
        | nil => rfl
        | cons y l => exact absurd (hw.2 (c, 0) (by simp)) (by simp)
      subst hl
      simp only [List.replicate_zero, List.append_nil, List.flatMap_nil, place, List.map_nil, List.reverse_nil,
        List.nil_append]
      rw [run_name _ _ he.2.2.2, step_name _ _ he hb]
    | succ k =>
      rw [List.replicate_succ, List.append_assoc, List.cons_append, run_cons _ _ he.2.2.2, step_name _ _ he hb]
      cases hc : fs (c :: b) with
      | none =>
        have : fs (place (c :: b) l) = none := by
          apply Classical.byContradiction
          intro h
          rcases ht.up _ _ h with h1 | h1
          · rw [place, h1, List.nil_append] at h; exact h hc
          · rw [hc] at h1; cases h1
        rw [this]; rfl
      | some kd =>
        have hd : fs (c :: b) = some .dir := by
          have := hq (c :: b) ⟨List.suffix_cons _ _, suffix_place _ _⟩
          cases kd with
          | dir => exact hc
          | file => exact absurd hc this
        show run fs (c :: b) _ = _
        rw [run_slashes _ _ _ hd, ih _ hw.tail hd fun q h => hq q ⟨(List.suffix_cons _ _).trans h.1, h.2⟩]

/-- following a path on which there are no files, and then another one -/
theorem run_append {fs : Fs} (ht : Tree fs) (t : List Byte) (l : List (List Byte × Nat)) : ∀ b,
    (∀ e ∈ l, Name e.1 ∧ 0 < e.2) → fs b = some .dir → (∀ q, OnWay b (place b l) q → fs q ≠ some .file) →
    run fs b ((l.flatMap fun e => e.1 ++ List.replicate e.2 slash) ++ t) =
      if (fs (place b l)).isSome then run fs (place b l) t else none := by
  induction l with
  | nil =>
    intro b _ hb _
    simp [place, hb]
  | cons e l ih =>
    intro b hw hb hq
    obtain ⟨he, hk⟩ := hw e (by simp)
    obtain ⟨c, k⟩ := e
    rw [List.flatMap_cons, place_cons]
    rw [place_cons] at hq
    dsimp only at he hq hk ⊢
    obtain ⟨k, rfl⟩ : ∃ j, k = j + 1 := ⟨k - 1, by omega⟩
    rw [List.replicate_succ, List.append_assoc, List.append_assoc, List.cons_append, run_cons _ _ he.2.2.2, step_name _ _ he hb]
    cases hc : fs (c :: b) with
    | none =>
      have : fs (place (c :: b) l) = none := by
        apply Classical.byContradiction
        intro h
        rcases ht.up _ _ h with h1 | h1
        · rw [place, h1, List.nil_append] at h; exact h hc
        · rw [hc] at h1; cases h1
      rw [this]; rfl
    | some kd =>
      have hd : fs (c :: b) = some .dir := by
        have := hq (c :: b) ⟨List.suffix_cons _ _, suffix_place _ _⟩
        cases kd with
        | dir => exact hc
        | file => exact absurd hc this
      show run fs (c :: b) _ = _
      rw [run_slashes _ _ _ hd, ih _ (fun x hx => hw x (List.mem_cons_of_mem _ hx)) hd
        fun q h => hq q ⟨(List.suffix_cons _ _).trans h.1, h.2⟩]

theorem resolve_write {fs : Fs} (ht : Tree fs) (l : List (List Byte × Nat)) (a : Nat) (cwd : List (List Byte))
    (hw : Written l) (hne : write a l ≠ []) (hb : fs cwd = some .dir)
    (hq : ∀ q, OnWay (base cwd a) (place (base cwd a) l) q → fs q ≠ some .file) :
    resolve fs cwd (write a l) =
      if (fs (place (base cwd a) l)).isSome then some (place (base cwd a) l) else none := by
  have hbase : fs (base cwd a) = some .dir := by
    unfold base; split
    · exact hb
    · exact ht.1
  rw [resolve, if_neg hne, head_write hw hne]
  show run fs (base cwd a) (write a l) = _
  rw [write, run_slashes _ _ _ hbase, run_write ht l _ hw hbase hq]

theorem filter_write (l : List (List Byte × Nat)) (hw : Written l) :
    (split (l.flatMap fun e => e.1 ++ List.replicate e.2 slash)).filter (· ≠ []) = l.map (·.1) := by
  have hs : ∀ (k : Nat) (t : List Byte), (split (List.replicate k slash ++ t)).filter (· ≠ []) = (split t).filter (· ≠ []) := by
    intro k t
    induction k with
    | zero => rfl
    | succ k ih => rw [List.replicate_succ, List.cons_append, split, if_pos rfl, List.filter_cons]; simpa using ih
  induction l with
  | nil => simp [split]
  | cons e l ih =>
    have he := hw.1 e (by simp)
    have ih := ih hw.tail
    obtain ⟨c, k⟩ := e
    rw [List.flatMap_cons]
    dsimp only at he ⊢
    cases k with
    | zero =>
      have hl : l = [] := by
        cases l with
        | nil => rfl
        | cons y l => exact absurd (hw.2 (c, 0) (by simp)) (by simp)
      subst hl
      simp only [List.replicate_zero, List.append_nil, List.flatMap_nil]
      rw [split_name he.2.2.2, List.filter_cons, if_pos (by simpa using he.1)]
      rfl
    | succ k =>
      rw [List.replicate_succ, List.append_assoc, List.cons_append, split_append, split_name he.2.2.2,
        List.filter_append, hs, ih, List.filter_cons, if_pos (by simpa using he.1)]
      rfl

theorem names_write (a : Nat) (l : List (List Byte × Nat)) (hw : Written l) :
    (split (write a l)).filter (· ≠ []) = l.map (·.1) := by
  rw [write]
  induction a with
  | zero => exact filter_write l hw
  | succ k ih => rw [List.replicate_succ, List.cons_append, split, if_pos rfl, List.filter_cons]; simpa using ih

theorem fold_names (fs : Fs) (l : List (List Byte × Nat)) : ∀ b, (∀ e ∈ l, Name e.1) →
    (∀ q, OnWay b (place b l) q → fs q = some .dir) → (l.map (·.1)).foldlM (walkStep fs) b = some (place b l) := by
  induction l with
  | nil => intro b _ _; rfl
  | cons e l ih =>
    intro b hn hd
    rw [place_cons] at hd ⊢
    rw [List.map_cons, List.foldlM_cons, step_name _ _ (hn e (by simp)) (hd b ⟨List.suffix_rfl,
      (List.suffix_cons _ _).trans (suffix_place _ _)⟩),
      hd (e.1 :: b) ⟨List.suffix_cons _ _, suffix_place _ _⟩]
    exact ih _ (fun x hx => hn x (List.mem_cons_of_mem _ hx)) fun q h => hd q ⟨(List.suffix_cons _ _).trans h.1, h.2⟩

theorem dropWhile_slashes (k : Nat) (t : List Byte) :
    (List.replicate k slash ++ t).dropWhile (· == slash) = t.dropWhile (· == slash) := by
  induction k with
  | zero => rfl
  | succ k ih => rw [List.replicate_succ, List.cons_append, List.dropWhile_cons, if_pos (by simp), ih]

theorem dropWhile_name {c : List Byte} (hc : slash ∉ c) (t : List Byte) :
    (c ++ t).dropWhile (· != slash) = t.dropWhile (· != slash) := by
  induction c with
  | nil => rfl
  | cons b c ih =>
    rw [List.mem_cons, not_or] at hc
    rw [List.cons_append, List.dropWhile_cons, if_pos (by simpa using fun e => hc.1 e.symm), ih hc.2]

theorem dropWhile_no {c : List Byte} (hc : slash ∉ c) (hne : c ≠ []) (t : List Byte) :
    (c ++ t).dropWhile (· == slash) = c ++ t := by
  cases c with
  | nil => exact absurd rfl hne
  | cons b c =>
    rw [List.mem_cons, not_or] at hc
    rw [List.cons_append, List.dropWhile_cons, if_neg (by simpa using fun e => hc.1 e.symm)]

/-- `dirname` takes away the last name -/
theorem dirname_write (a : Nat) (l : List (List Byte × Nat)) (c : List Byte) (k : Nat) (hc1 : c ≠ []) (hc2 : slash ∉ c)
    (hw : ∀ e ∈ l, Name e.1 ∧ 0 < e.2) :
    dirname (write a (l ++ [(c, k)])) =
      match l.getLast? with
      | none => if a = 0 then dot else [slash]
      | some e => write a (l.dropLast ++ [(e.1, 0)]) := by
  have hcr : slash ∉ c.reverse := by simpa using hc2
  have hcn : c.reverse ≠ [] := by simpa using hc1
  have h1 : (write a (l ++ [(c, k)])).reverse.dropWhile (· == slash) = c.reverse ++ (write a l).reverse := by
    rw [write_concat, List.reverse_append, List.reverse_append, List.reverse_replicate, dropWhile_slashes,
      dropWhile_no hcr hcn]
  have h2 : write a (l ++ [(c, k)]) ≠ [] := by
    rw [write_concat]; intro h; simp at h; exact hc1 h.2.1
  rw [dirname, if_neg h2, h1, if_neg (by simp; intro h; exact absurd h hc1)]
  dsimp only
  rw [dropWhile_name hcr]
  rcases List.eq_nil_or_concat l with rfl | ⟨l', ⟨d, m⟩, rfl⟩
  · rw [write_nil, List.reverse_replicate]
    cases a with
    | zero => rfl
    | succ a =>
      have h3 := dropWhile_slashes (a + 1) []
      rw [List.append_nil] at h3
      have h4 : (List.replicate (a + 1) slash).dropWhile (· != slash) = List.replicate (a + 1) slash := by
        rw [List.replicate_succ, List.dropWhile_cons, if_neg (by simp)]
      rw [h4, if_neg (by simp), h3]
      rfl
  · obtain ⟨hd, hm⟩ := hw (d, m) (by simp)
    dsimp only at hd hm
    have hdr : slash ∉ d.reverse := by simpa using hd.2.2.2
    have hdn : d.reverse ≠ [] := by simpa using hd.1
    obtain ⟨m, rfl⟩ : ∃ j, m = j + 1 := ⟨m - 1, by omega⟩
    have h3 : (write a (l'.concat (d, m + 1))).reverse = List.replicate (m + 1) slash ++ (d.reverse ++ (write a l').reverse) := by
      rw [List.concat_eq_append, write_concat, List.reverse_append, List.reverse_append, List.reverse_replicate]
    rw [h3]
    have h4 : (List.replicate (m + 1) slash ++ (d.reverse ++ (write a l').reverse)).dropWhile (· != slash) =
        List.replicate (m + 1) slash ++ (d.reverse ++ (write a l').reverse) := by
      rw [List.replicate_succ, List.cons_append, List.dropWhile_cons, if_neg (by simp)]
    rw [h4, if_neg (by simp), dropWhile_slashes, dropWhile_no hdr hdn, if_neg (by simp; intro h; exact absurd h hd.1)]
    simp [write_concat]

/-! ## the whole call -/

theorem onWay_len {b p q : List (List Byte)} (h : OnWay b p q) : q.length ≤ p.length := h.2.length_le

theorem onWay_cons {b p q : List (List Byte)} {c : List Byte} (hb : b <:+ p) :
    OnWay b (c :: p) q ↔ OnWay b p q ∨ q = c :: p := by
  constructor
  · rintro ⟨h1, h2⟩
    rcases List.suffix_cons_iff.1 h2 with h | h
    · exact .inr h
    · exact .inl ⟨h1, h⟩
  · rintro (⟨h1, h2⟩ | rfl)
    · exact ⟨h1, h2.trans (List.suffix_cons _ _)⟩
    · exact ⟨hb.trans (List.suffix_cons _ _), List.suffix_rfl⟩

theorem Written.parts {l : List (List Byte × Nat)} {c : List Byte} {k : Nat} (h : Written (l ++ [(c, k)])) :
    c ≠ [] ∧ slash ∉ c ∧ ∀ e ∈ l, Name e.1 ∧ 0 < e.2 := by
  have hc := h.1 (c, k) (by simp)
  exact ⟨hc.1, hc.2.2.2, fun e he => ⟨h.1 e (by simp [he]), h.2 e (by rw [List.dropLast_concat]; exact he)⟩⟩

theorem place_last (b : List (List Byte)) (l : List (List Byte × Nat)) (d : List Byte) (m k : Nat) :
    place b (l ++ [(d, m)]) = place b (l ++ [(d, k)]) := by simp [place]

theorem stat_root {fs : Fs} (ht : Tree fs) (cwd : List (List Byte)) : statOk fs cwd [slash] = true := by
  simp [statOk, resolve, split, startOf, walkStep, ht.1]

theorem stat_dot {fs : Fs} {cwd : List (List Byte)} (hc : fs cwd = some .dir) : statOk fs cwd dot = true := by
  have h : (46 : Byte) ≠ slash := by decide
  simp [statOk, resolve, split, startOf, walkStep, hc, h]

theorem mkdir_write {fs : Fs} {allow : List (List Byte) → Bool} {cwd : List (List Byte)} {a : Nat}
    {l : List (List Byte × Nat)} {c : List Byte} {k : Nat} (hw : Written (l ++ [(c, k)]))
    (hd : ∀ q, OnWay (base cwd a) (place (base cwd a) l) q → fs q = some .dir) :
    mkdir fs allow cwd (write a (l ++ [(c, k)])) =
      if fs (c :: place (base cwd a) l) = none ∧ allow (c :: place (base cwd a) l) = true then
        some fun q => if q = c :: place (base cwd a) l then some .dir else fs q
      else none := by
  have hc := hw.1 (c, k) (by simp)
  have hne : write a (l ++ [(c, k)]) ≠ [] := by
    rw [write_concat]; intro h; simp at h; exact hc.1 h.2.1
  rw [mkdir, names_write _ _ hw, head_write hw hne]
  rw [List.map_append, List.map_cons, List.map_nil, List.getLast?_concat, List.dropLast_concat]
  dsimp only
  rw [if_neg (by rintro (e | e); exact hc.2.1 e; exact hc.2.2.1 e),
    fold_names fs l _ (fun e he => hw.1 e (by simp [he])) hd]
  dsimp only
  rw [hd _ ⟨suffix_place _ _, List.suffix_rfl⟩]
  simp

theorem mkdirP_step {allow : List (List Byte) → Bool} {cwd : List (List Byte)} {fs : Fs} (ht : Tree fs)
    (hcwd : fs cwd = some .dir) (a : Nat) (l : List (List Byte × Nat)) (c : List Byte) (k : Nat) (hw : Written (l ++ [(c, k)]))
    (hq : ∀ q, OnWay (base cwd a) (place (base cwd a) (l ++ [(c, k)])) q → fs q ≠ some .file ∧ (fs q = none → allow q = true))
    (n : Nat)
    (key : fs (place (base cwd a) (l ++ [(c, k)])) = none → ∃ fs1,
      mkdirP allow cwd n fs (some (dirname (write a (l ++ [(c, k)])))) = some ⟨fs1, some 0⟩ ∧
      ∀ q, (OnWay (base cwd a) (place (base cwd a) l) q → fs1 q = some .dir) ∧
        (¬ OnWay (base cwd a) (place (base cwd a) l) q → fs1 q = fs q)) :
    ∃ fs', mkdirP allow cwd (n + 1) fs (some (write a (l ++ [(c, k)]))) = some ⟨fs', some 0⟩ ∧
      ∀ q, (OnWay (base cwd a) (place (base cwd a) (l ++ [(c, k)])) q → fs' q = some .dir) ∧
        (¬ OnWay (base cwd a) (place (base cwd a) (l ++ [(c, k)])) q → fs' q = fs q) := by
  have hne : write a (l ++ [(c, k)]) ≠ [] := by
    rw [write_concat]; intro h; simp at h; exact (hw.1 (c, k) (by simp)).1 h.2.1
  have hs := resolve_write ht (l ++ [(c, k)]) a cwd hw hne hcwd fun q h => (hq q h).1
  rw [mkdirP, statOk, hs]
  cases he : fs (place (base cwd a) (l ++ [(c, k)])) with
  | some kd =>
    refine ⟨fs, rfl, fun q => ⟨fun h => ?_, fun _ => rfl⟩⟩
    obtain ⟨⟨x, hx⟩, ⟨y, hy⟩⟩ := h
    rcases ht.up y q (by rw [hy, he]; simp) with h1 | h1
    · subst h1
      rw [List.nil_append] at hy
      subst hy
      have := (hq _ ⟨suffix_place _ _, List.suffix_rfl⟩).1
      cases kd with
      | dir => exact he
      | file => exact absurd he this
    · exact h1
  | none =>
    obtain ⟨fs1, h1, h2⟩ := key he
    rw [place_concat] at he hq ⊢
    have hnot : ¬ OnWay (base cwd a) (place (base cwd a) l) (c :: place (base cwd a) l) := fun h => by
      have := onWay_len h
      simp only [List.length_cons] at this
      omega
    simp only [Option.isSome_none, Bool.false_eq_true, if_false, h1]
    rw [mkdir_write hw (fun q h => (h2 q).1 h), (h2 _).2 hnot, if_pos ⟨he, (hq _ ⟨(suffix_place _ _).trans
      (List.suffix_cons _ _), List.suffix_rfl⟩).2 he⟩]
    refine ⟨_, rfl, fun q => ?_⟩
    rw [onWay_cons (suffix_place _ _)]
    split
    · rename_i e
      exact ⟨fun _ => rfl, fun h => absurd (.inr e) h⟩
    · rename_i e
      exact ⟨fun h => (h2 q).1 (h.resolve_right e), fun h => (h2 q).2 fun h' => h (.inl h')⟩

/-- the call for the directory that a path is in -/
theorem mkdirP_dirname {allow : List (List Byte) → Bool} {cwd : List (List Byte)} {fs : Fs} (ht : Tree fs)
    (hcwd : fs cwd = some .dir) (a : Nat) : ∀ (m : Nat) (l : List (List Byte × Nat)), l.length = m → ∀ (c : List Byte) (k : Nat),
    c ≠ [] → slash ∉ c → (∀ e ∈ l, Name e.1 ∧ 0 < e.2) →
    (∀ q, OnWay (base cwd a) (place (base cwd a) l) q → fs q ≠ some .file ∧ (fs q = none → allow q = true)) →
    ∀ n, m < n → ∃ fs', mkdirP allow cwd n fs (some (dirname (write a (l ++ [(c, k)])))) = some ⟨fs', some 0⟩ ∧
      ∀ q, (OnWay (base cwd a) (place (base cwd a) l) q → fs' q = some .dir) ∧
        (¬ OnWay (base cwd a) (place (base cwd a) l) q → fs' q = fs q) := by
  have hbase : fs (base cwd a) = some .dir := by
    unfold base; split
    · exact hcwd
    · exact ht.1
  intro m
  induction m with
  | zero =>
    intro l hl c k hc1 hc2 hw hq n hn
    obtain rfl := List.length_eq_zero_iff.1 hl
    obtain ⟨n, rfl⟩ : ∃ j, n = j + 1 := ⟨n - 1, by omega⟩
    refine ⟨fs, ?_, fun q => ⟨fun h => ?_, fun _ => rfl⟩⟩
    · rw [dirname_write a [] c k hc1 hc2 hw]
      simp only [List.getLast?_nil]
      rw [mkdirP, if_pos]
      split
      · exact stat_dot hcwd
      · exact stat_root ht cwd
    · obtain ⟨h1, h2⟩ := h
      have : q = base cwd a := h2.eq_of_length_le (by simpa [place] using h1.length_le)
      rw [this]; exact hbase
  | succ m ih =>
    intro l hl c k hc1 hc2 hw hq n hn
    obtain ⟨n, rfl⟩ : ∃ j, n = j + 1 := ⟨n - 1, by omega⟩
    rcases List.eq_nil_or_concat l with rfl | ⟨l', ⟨d, j⟩, rfl⟩
    · simp at hl
    rw [List.concat_eq_append] at *
    rw [dirname_write a _ c k hc1 hc2 hw, List.getLast?_concat, List.dropLast_concat]
    dsimp only
    rw [place_last _ _ _ j 0] at hq ⊢
    have hd := (hw (d, j) (by simp)).1
    have hl' : ∀ e ∈ l', Name e.1 ∧ 0 < e.2 := fun e he => hw e (by simp [he])
    have hw' : Written (l' ++ [(d, 0)]) := by
      refine ⟨fun e he => ?_, fun e he => ?_⟩
      · rcases List.mem_append.1 he with h1 | h1
        · exact (hl' e h1).1
        · rw [List.mem_singleton] at h1; subst h1; exact hd
      · rw [List.dropLast_concat] at he
        exact (hl' e he).2
    refine mkdirP_step ht hcwd a l' d 0 hw' hq n fun _ => ?_
    exact ih l' (by simpa using hl) d 0 hd.1 hd.2.2.2 hl' (fun q h => hq q (by
      rw [place_concat]; exact (onWay_cons (suffix_place _ _)).2 (.inl h))) n (by omega)

/-- **C97** (the part that holds): for a path made of names, with any number of slashes before, between and after them, on
which there is no file and on which every missing directory can be made, `mkdir_p` returns 0, every position on the way is a
directory afterwards, and nothing else has changed. -/
theorem C97_partial {allow : List (List Byte) → Bool} {cwd : List (List Byte)} {fs : Fs} (ht : Tree fs)
    (hcwd : fs cwd = some .dir) (a : Nat) (l : List (List Byte × Nat)) (hw : Written l) (hne : write a l ≠ [])
    (hq : ∀ q, OnWay (base cwd a) (place (base cwd a) l) q → fs q ≠ some .file ∧ (fs q = none → allow q = true)) :
    ∃ N, ∀ n, N ≤ n → ∃ fs', mkdirP allow cwd n fs (some (write a l)) = some ⟨fs', some 0⟩ ∧
      ∀ q, (OnWay (base cwd a) (place (base cwd a) l) q → fs' q = some .dir) ∧
        (¬ OnWay (base cwd a) (place (base cwd a) l) q → fs' q = fs q) := by
  rcases List.eq_nil_or_concat l with rfl | ⟨l', ⟨d, j⟩, rfl⟩
  · refine ⟨1, fun n hn => ⟨fs, ?_, fun q => ⟨fun h => ?_, fun _ => rfl⟩⟩⟩
    · obtain ⟨n, rfl⟩ : ∃ j, n = j + 1 := ⟨n - 1, by omega⟩
      cases a with
      | zero => simp [write] at hne
      | succ a =>
        rw [mkdirP, if_pos]
        rw [statOk, resolve_write ht [] _ cwd hw hne hcwd fun q h => (hq q h).1]
        simp [place, base, ht.1]
    · obtain ⟨h1, h2⟩ := h
      have h3 : q = base cwd a := h2.eq_of_length_le (by simpa [place] using h1.length_le)
      rw [h3]
      unfold base; split
      · exact hcwd
      · exact ht.1
  · rw [List.concat_eq_append] at *
    refine ⟨l'.length + 2, fun n hn => ?_⟩
    obtain ⟨n, rfl⟩ : ∃ j, n = j + 1 := ⟨n - 1, by omega⟩
    obtain ⟨h1, h2, h3⟩ := hw.parts
    exact mkdirP_step ht hcwd a l' d j hw hq n fun _ => mkdirP_dirname ht hcwd a _ l' rfl d j h1 h2 h3 (fun q h => hq q (by
      rw [place_concat]; exact (onWay_cons (suffix_place _ _)).2 (.inl h))) n (by omega)

/-- a tree with the directory `/a` (the current one) and the file `/a/f` -/
def exFs : Fs := fun q => if q = [] ∨ q = [[97]] then some .dir else if q = [[102], [97]] then some .file else none

theorem exFs_tree : Tree exFs := by
  refine ⟨by simp [exFs], fun c p h => ?_⟩
  unfold exFs at h ⊢
  split at h
  · rename_i h1
    rcases h1 with h1 | h1
    · cases h1
    · cases h1; simp
  · split at h
    · rename_i h1; cases h1; simp
    · exact absurd rfl h

/-- the hypotheses of `C97_partial` can be met: `x//y/` in the directory `/a` -/
example : Tree exFs ∧ exFs [[97]] = some .dir ∧ Written [([120], 2), ([121], 1)] ∧
    write 0 [([120], 2), ([121], 1)] = str "x//y/" ∧
    ∀ q, OnWay (base [[97]] 0) (place (base [[97]] 0) [([120], 2), ([121], 1)]) q → exFs q ≠ some .file ∧
      (exFs q = none → (fun _ => true) q = true) := by
  refine ⟨exFs_tree, by simp [exFs], ⟨?_, ?_⟩, by decide, fun q h => ⟨fun h1 => ?_, fun _ => rfl⟩⟩
  · intro e he
    simp only [List.mem_cons, List.not_mem_nil, or_false] at he
    rcases he with rfl | rfl <;> exact ⟨by decide, by decide, by decide, by decide⟩
  · intro e he
    simp only [List.dropLast_cons₂, List.dropLast_singleton, List.mem_cons, List.not_mem_nil, or_false] at he
    subst he; decide
  · have h2 : q = [[102], [97]] := by
      unfold exFs at h1
      split at h1
      · cases h1
      · split at h1
        · assumption
        · cases h1
    subst h2
    have := h.2
    simp [place, base, List.suffix_cons_iff] at this

theorem foldlM_mono {fs fs' : Fs} (h : ∀ q, fs q ≠ none → fs' q = fs q) (cs : List (List Byte)) :
    ∀ b p, cs.foldlM (walkStep fs) b = some p → cs.foldlM (walkStep fs') b = some p := by
  induction cs with
  | nil => intro b p hp; exact hp
  | cons c cs ih =>
    intro b p hp
    rw [List.foldlM_cons] at hp ⊢
    cases hs : walkStep fs b c with
    | none => rw [hs] at hp; cases hp
    | some p1 =>
      rw [hs] at hp
      have : walkStep fs' b c = some p1 := by
        unfold walkStep at hs ⊢
        split at hs
        · rename_i hd
          rw [if_pos (by rw [h b (by rw [hd]; simp)]; exact hd)]
          split at hs
          · rename_i h1; rw [if_pos h1]; exact hs
          · rename_i h1; rw [if_neg h1]
            split at hs
            · rename_i h2; rw [if_pos h2]; exact hs
            · rename_i h2; rw [if_neg h2]
              split at hs
              · rename_i h3
                rw [h (c :: b) (by intro e; rw [e] at h3; cases h3), if_pos h3]; exact hs
              · cases hs
        · cases hs
      rw [this]
      exact ih _ _ hp

/-- empty parts do not matter on the way to a directory -/
theorem foldlM_filter {fs : Fs} (cs : List (List Byte)) : ∀ b p, fs p = some .dir →
    (cs.filter (· ≠ [])).foldlM (walkStep fs) b = some p → cs.foldlM (walkStep fs) b = some p := by
  induction cs with
  | nil => intro b p _ h; exact h
  | cons c cs ih =>
    intro b p hp h
    rw [List.filter_cons] at h
    split at h
    · rw [List.foldlM_cons] at h ⊢
      cases hs : walkStep fs b c with
      | none => rw [hs] at h; cases h
      | some p1 => rw [hs] at h; exact ih _ _ hp h
    · rename_i hc
      obtain rfl : c = [] := by simpa using hc
      have hb : fs b = some .dir := by
        cases hf : cs.filter (· ≠ []) with
        | nil => rw [hf] at h; cases h; exact hp
        | cons d ds =>
          rw [hf, List.foldlM_cons, walkStep] at h
          apply Classical.byContradiction
          intro hn
          rw [if_neg hn] at h; cases h
      rw [List.foldlM_cons, walkStep, if_pos hb, if_pos (.inl rfl)]
      exact ih _ _ hp h

/-- what `mkdir` does when it succeeds -/
theorem mkdir_sound {fs fs' : Fs} {allow : List (List Byte) → Bool} {cwd : List (List Byte)} {s : List Byte}
    (h : mkdir fs allow cwd s = some fs') : statOk fs' cwd s = true ∧
      ∃ c p, fs p = some .dir ∧ fs (c :: p) = none ∧ fs' = fun q => if q = c :: p then some .dir else fs q := by
  unfold mkdir at h
  dsimp only at h
  split at h
  · cases h
  · rename_i c hc
    split at h
    · cases h
    · rename_i hcd
      split at h
      · cases h
      · rename_i pos hpos
        split at h
        · rename_i hd
          obtain ⟨h1, h2, -⟩ := hd
          cases h
          refine ⟨?_, c, pos, h1, h2, rfl⟩
          have hne : s ≠ [] := by
            rintro rfl
            simp [split] at hc
          rw [statOk, resolve, if_neg hne]
          have hcs : (split s).filter (· ≠ []) = ((split s).filter (· ≠ [])).dropLast ++ [c] := by
            obtain ⟨ys, hys⟩ := List.getLast?_eq_some_iff.1 hc
            rw [hys, List.dropLast_concat]
          have hcne : c ≠ [] := by
            have : c ∈ (split s).filter (· ≠ []) := by rw [hcs]; simp
            simpa using (List.mem_filter.1 this).2
          rw [foldlM_filter (split s) _ (c :: pos) (by simp)]
          · rfl
          · rw [hcs, List.foldlM_append]
            have := foldlM_mono (fs := fs) (fs' := fun q => if q = c :: pos then some .dir else fs q) (fun q hq => by
              split
              · rename_i e; subst e; exact absurd h2 hq
              · rfl) _ _ _ hpos
            rw [this]
            simp only [Option.bind_eq_bind, Option.bind_some]
            rw [List.foldlM_cons, walkStep, if_pos, if_neg (by rintro (e | e); exact hcne e; exact hcd (.inl e)),
              if_neg (fun e => hcd (.inr e)), if_pos (by simp)]
            · rfl
            · rw [if_neg (fun e => ?_)]
              · exact h1
              · have := congrArg List.length e; simp at this
        · cases h

/-- whatever the path is (also with `.` and `..`), `mkdir_p` only adds directories, it returns 0 or the program ends; and
when it returns 0 the path leads to something. -/
theorem C97_sound {allow : List (List Byte) → Bool} {cwd : List (List Byte)} (n : Nat) : ∀ {fs : Fs} {s : List Byte} {r : Made},
    mkdirP allow cwd n fs (some s) = some r →
    (r.ret = some 0 ∨ r.ret = none) ∧ (∀ q, fs q ≠ none → r.fs q = fs q) ∧
    (∀ q, fs q = none → r.fs q = none ∨ r.fs q = some .dir) ∧ (Tree fs → Tree r.fs) ∧
    (r.ret = some 0 → statOk r.fs cwd s = true) := by
  induction n with
  | zero => intro fs s r h; cases h
  | succ n ih =>
    intro fs s r h
    rw [mkdirP] at h
    split at h
    · rename_i hs
      cases h
      exact ⟨.inl rfl, fun _ _ => rfl, fun _ h => .inl h, id, fun _ => hs⟩
    · split at h
      · cases h
      · rename_i fs1 h1
        cases h
        obtain ⟨-, a2, a3, a4, -⟩ := ih h1
        exact ⟨.inr rfl, a2, a3, a4, fun h => by cases h⟩
      · rename_i fs1 x h1
        obtain ⟨-, a2, a3, a4, -⟩ := ih h1
        split at h
        · cases h
          exact ⟨.inr rfl, a2, a3, a4, fun h => by cases h⟩
        · rename_i fs2 h2
          cases h
          obtain ⟨b1, c, p, b2, b3, rfl⟩ := mkdir_sound h2
          refine ⟨.inl rfl, fun q hq => ?_, fun q hq => ?_, fun ht => ?_, fun _ => b1⟩
          · dsimp only at a2 ⊢
            split
            · rename_i e; subst e
              rw [← a2 _ hq] at hq; exact absurd b3 hq
            · exact a2 q hq
          · dsimp only at a3 ⊢
            split
            · exact .inr rfl
            · exact a3 q hq
          · obtain ⟨t1, t2⟩ := a4 ht
            refine ⟨?_, fun d q hq => ?_⟩
            · dsimp only at t1 ⊢
              rw [if_neg (by simp)]; exact t1
            · dsimp only at t2 hq ⊢
              split at hq
              · rename_i e
                cases e
                rw [if_neg (fun e => by have := congrArg List.length e; simp at this)]
                exact b2
              · have := t2 d q hq
                split
                · rfl
                · exact this

example : (mkdirP (fun _ => true) [[97]] 3 exFs (some (str "x/y"))).map (fun r => (r.ret, r.fs [[121], [120], [97]])) =
    some (some 0, some .dir) := by decide +kernel

/-- **C97 is false**: when the path leads to a file, 0 is returned although there is no directory. -/
theorem C97_file_false {allow : List (List Byte) → Bool} {cwd : List (List Byte)} {fs : Fs} {s : List Byte}
    {p : List (List Byte)} (hp : resolve fs cwd s = some p) (_hf : fs p = some .file) (n : Nat) :
    mkdirP allow cwd (n + 1) fs (some s) = some ⟨fs, some 0⟩ := by
  rw [mkdirP, if_pos (by rw [statOk, hp]; rfl)]

example : resolve exFs [[97]] (str "f") = some [[102], [97]] ∧ exFs [[102], [97]] = some .file := by decide +kernel

/-- **C97 is false**: for a missing directory whose path is written with `/.` or `/..` at the end, everything is made that
should be made, and then the program ends with a segmentation fault (`mkdir -p x/.` is fine). -/
theorem C97_dot_false {allow : List (List Byte) → Bool} {cwd : List (List Byte)} {fs : Fs} (ht : Tree fs)
    (hcwd : fs cwd = some .dir) (a : Nat) (l : List (List Byte × Nat)) (hw : ∀ e ∈ l, Name e.1 ∧ 0 < e.2)
    (hq : ∀ q, OnWay (base cwd a) (place (base cwd a) l) q → fs q ≠ some .file ∧ (fs q = none → allow q = true))
    (hm : fs (place (base cwd a) l) = none) (d : List Byte) (hd : d = dot ∨ d = dots) :
    ∃ N, ∀ n, N ≤ n → ∃ fs', mkdirP allow cwd n fs (some (write a l ++ d)) = some ⟨fs', none⟩ ∧
      ∀ q, OnWay (base cwd a) (place (base cwd a) l) q → fs' q = some .dir := by
  have hbase : fs (base cwd a) = some .dir := by
    unfold base; split
    · exact hcwd
    · exact ht.1
  have hd1 : d ≠ [] := by rcases hd with rfl | rfl <;> simp
  have hd2 : slash ∉ d := by rcases hd with rfl | rfl <;> decide
  have hl : l ≠ [] := by
    rintro rfl
    rw [place, List.map_nil, List.reverse_nil, List.nil_append, hbase] at hm
    cases hm
  have hwl : Written l := ⟨fun e he => (hw e he).1, fun e he => (hw e (List.dropLast_subset _ he)).2⟩
  have hne : write a l ≠ [] := by
    obtain ⟨⟨c, k⟩, l', rfl⟩ := List.exists_cons_of_ne_nil hl
    have := (hw (c, k) (by simp)).1.1
    intro h
    simp [write] at h
    exact this h.2.1
  have hstart : startOf cwd (write a l ++ d) = base cwd a := by
    rw [← head_write hwl hne, startOf, startOf, List.head?_append]
    cases h : write a l with
    | nil => exact absurd h hne
    | cons x y => rfl
  have hstat : statOk fs cwd (write a l ++ d) = false := by
    rw [statOk, resolve, if_neg (by simp [hne]), hstart]
    show (run fs (base cwd a) (write a l ++ d)).isSome = false
    rw [write, List.append_assoc, run_slashes _ _ _ hbase, run_append ht d l _ hw hbase fun q h => (hq q h).1, hm]
    rfl
  have hmk : ∀ fs : Fs, mkdir fs allow cwd (write a l ++ d) = none := by
    intro fs
    have hlast : ((split (write a l ++ d)).filter (· ≠ [])).getLast? = some d := by
      rcases List.eq_nil_or_concat l with rfl | ⟨l', ⟨c, k⟩, rfl⟩
      · exact absurd rfl hl
      obtain ⟨-, hk⟩ := hw (c, k) (by simp)
      dsimp only at hk
      obtain ⟨k, rfl⟩ : ∃ j, k = j + 1 := ⟨k - 1, by omega⟩
      rw [List.concat_eq_append, write_concat, List.replicate_succ', List.append_assoc, List.append_assoc,
        List.append_assoc, List.singleton_append, ← List.append_assoc, ← List.append_assoc, split_append, split_name hd2,
        List.filter_append, List.filter_cons, if_pos (by simpa using hd1), List.filter_nil, List.getLast?_concat]
    rw [mkdir, hlast]
    dsimp only
    rw [if_pos hd]
  refine ⟨l.length + 2, fun n hn => ?_⟩
  obtain ⟨n, rfl⟩ : ∃ j, n = j + 1 := ⟨n - 1, by omega⟩
  obtain ⟨fs', h1, h2⟩ := mkdirP_dirname ht hcwd a _ l rfl d 0 hd1 hd2 hw hq n (by omega)
  rw [write_concat, List.replicate_zero, List.append_nil] at h1
  refine ⟨fs', ?_, fun q h => (h2 q).1 h⟩
  rw [mkdirP, hstat]
  simp only [Bool.false_eq_true, if_false, h1, hmk]

example : (mkdirP (fun _ => true) [[97]] 4 exFs (some (str "x/."))).map (fun r => (r.ret, r.fs [[120], [97]])) =
    some (none, some .dir) := by decide +kernel

/-- **C97 is false**: when a directory cannot be made, the program ends with a segmentation fault instead of a nonzero
result. -/
theorem C97_denied_false {allow : List (List Byte) → Bool} {cwd : List (List Byte)} {fs : Fs} (ht : Tree fs)
    (hcwd : fs cwd = some .dir) (a : Nat) (l : List (List Byte × Nat)) (c : List Byte) (k : Nat) (hw : Written (l ++ [(c, k)]))
    (hq : ∀ q, OnWay (base cwd a) (place (base cwd a) l) q → fs q = some .dir)
    (hm : fs (c :: place (base cwd a) l) = none) (ha : allow (c :: place (base cwd a) l) = false) :
    ∃ N, ∀ n, N ≤ n → mkdirP allow cwd n fs (some (write a (l ++ [(c, k)]))) = some ⟨fs, none⟩ := by
  have hne : write a (l ++ [(c, k)]) ≠ [] := by
    rw [write_concat]; intro h; simp at h; exact (hw.1 (c, k) (by simp)).1 h.2.1
  have hs := resolve_write ht (l ++ [(c, k)]) a cwd hw hne hcwd fun q h => by
    rw [place_concat, onWay_cons (suffix_place _ _)] at h
    rcases h with h | rfl
    · rw [hq q h]; simp
    · rw [hm]; simp
  rw [place_concat, hm] at hs
  obtain ⟨h1, h2, h3⟩ := hw.parts
  refine ⟨l.length + 2, fun n hn => ?_⟩
  obtain ⟨n, rfl⟩ : ∃ j, n = j + 1 := ⟨n - 1, by omega⟩
  obtain ⟨fs', e1, e2⟩ := mkdirP_dirname (allow := allow) ht hcwd a _ l rfl c k h1 h2 h3 (fun q h => by
    rw [hq q h]; simp) n (by omega)
  have : fs' = fs := funext fun q => by
    by_cases h : OnWay (base cwd a) (place (base cwd a) l) q
    · rw [(e2 q).1 h, hq q h]
    · exact (e2 q).2 h
  subst this
  rw [mkdirP, statOk, hs]
  simp only [Option.isSome_none, Bool.false_eq_true, if_false, e1]
  rw [mkdir_write hw hq, if_neg (by rw [ha]; simp)]

example : (mkdirP (fun q => q != [[120], [97]]) [[97]] 4 exFs (some (str "x"))).map (fun r => (r.ret, r.fs [[120], [97]])) =
    some (none, none) := by decide +kernel

/-- no path -/
theorem C97_null {allow : List (List Byte) → Bool} {cwd : List (List Byte)} (n : Nat) (fs : Fs) :
    mkdirP allow cwd n fs none = some ⟨fs, some 1⟩ := by
  cases n <;> rfl

end Verif.Dbm.Props
