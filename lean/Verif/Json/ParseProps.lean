import Verif.Json.Parse

/-! # Property C37: the language of the parser, on the level of tokens -/

namespace Verif.Json

/-! ## specification: syntax trees -/

/-- a JSON document as written: repeated keys and trailing commas are still there -/
inductive Syn where
  | str (s : List Byte)
  | lit (a : Atom)
  /-- an array; `trail`: with a comma after the last element -/
  | arr (items : List Syn) (trail : Bool)
  /-- an object; `trail`: with a comma after the last entry -/
  | obj (items : List (List Byte × Syn)) (trail : Bool)

theorem Syn.ind {P : Syn → Prop} (hs : ∀ s, P (.str s)) (hl : ∀ a, P (.lit a))
    (ha : ∀ xs tr, (∀ x ∈ xs, P x) → P (.arr xs tr))
    (ho : ∀ kvs tr, (∀ kv ∈ kvs, P kv.2) → P (.obj kvs tr)) (v : Syn) : P v := by
  refine Syn.rec (motive_1 := P) (motive_2 := fun xs => ∀ x ∈ xs, P x)
    (motive_3 := fun xs => ∀ x ∈ xs, P x.2) (motive_4 := fun x => P x.2) hs hl ?_ ?_ ?_ ?_ ?_ ?_ ?_ v
  · intro xs tr h; exact ha xs tr h
  · intro xs tr h; exact ho xs tr h
  · simp
  · intro x xs h1 h2; simpa using ⟨h1, h2⟩
  · simp
  · intro x xs h1 h2; rw [List.forall_mem_cons]; exact ⟨h1, h2⟩
  · intro k v h; exact h

/-- what is between the brackets, and the closing bracket: the pieces separated by commas; only after a
piece there may be a trailing comma -/
def body (pieces : List (List Tok)) (trail : Bool) (close : Tok) : List Tok :=
  List.intercalate [.comma] pieces ++ (if trail && !pieces.isEmpty then [.comma] else []) ++ [close]

mutual
/-- the tokens of a document -/
def Syn.toks : Syn → List Tok
  | .str s => [.str s]
  | .lit a => [.lit a]
  | .arr items tr => .lb :: body (toksL items) tr .rb
  | .obj items tr => .lc :: body (toksF items) tr .rc
/-- the tokens of each element -/
def toksL : List Syn → List (List Tok)
  | [] => []
  | x :: xs => x.toks :: toksL xs
/-- the tokens of each entry -/
def toksF : List (List Byte × Syn) → List (List Tok)
  | [] => []
  | (k, x) :: xs => (.str k :: .colon :: x.toks) :: toksF xs
end

mutual
/-- the value of a document; of entries with the same key the last one counts, in the place of the first -/
def Syn.val : Syn → Val
  | .str s => .atom (.str s)
  | .lit a => .atom a
  | .arr items _ => .arr (valL items)
  | .obj items _ => .obj (valF items [])
/-- the values of the elements -/
def valL : List Syn → List Val
  | [] => []
  | x :: xs => x.val :: valL xs
/-- the entries added one after the other -/
def valF : List (List Byte × Syn) → List (List Byte × Val) → List (List Byte × Val)
  | [], acc => acc
  | (k, x) :: xs, acc => valF xs (insertKey k x.val acc)
end

mutual
/-- how deep containers are nested -/
def Syn.depth : Syn → Nat
  | .str _ => 0
  | .lit _ => 0
  | .arr items _ => 1 + depthL items
  | .obj items _ => 1 + depthF items
/-- the deepest element -/
def depthL : List Syn → Nat
  | [] => 0
  | x :: xs => max x.depth (depthL xs)
/-- the deepest entry -/
def depthF : List (List Byte × Syn) → Nat
  | [] => 0
  | (_, x) :: xs => max x.depth (depthF xs)
end

/-- a list of tokens, and then the end of the input for ever -/
def listNext : List Tok → Res (Tok × List Tok)
  | [] => .ok (.eof, [])
  | c :: ts => .ok (c, ts)

/-! ## bodies -/

/-- what follows a piece -/
def bodyTail (pieces : List (List Tok)) (trail : Bool) (close : Tok) : List Tok :=
  if pieces.isEmpty then (if trail then [.comma, close] else [close]) else .comma :: body pieces trail close

theorem body_nil (tr : Bool) (c : Tok) : body [] tr c = [c] := by simp [body]

theorem body_cons (p : List Tok) (ps : List (List Tok)) (tr : Bool) (c : Tok) :
    body (p :: ps) tr c = p ++ bodyTail ps tr c := by
  cases ps with
  | nil => cases tr <;> simp [body, bodyTail, List.intercalate]
  | cons q qs => simp [body, bodyTail, List.intercalate]

theorem bodyTail_cons (p : List Tok) (ps : List (List Tok)) (tr : Bool) (c : Tok) :
    bodyTail (p :: ps) tr c = .comma :: body (p :: ps) tr c := rfl

/-! ## the loop -/

theorem prun_stop {σ : Type} {next : σ → Res (Tok × σ)} {s : PSt} (h : s.goes = false) (n : Nat) (t : σ) :
    prun next n s t = .ok (some (s, t)) := by
  cases n <;> simp [prun, h]

theorem prun_go {σ : Type} {next : σ → Res (Tok × σ)} {s : PSt} (h : s.goes = true) (n : Nat) (t : σ) :
    prun next (n + 1) s t = (next t).bind fun r => (pstep s r.1).bind fun s => prun next n s r.2 := by
  rw [prun]; simp [h]

theorem goes_iff {s : PSt} :
    s.goes = true ↔ s.stk ≠ [] ∧ s.stk.length < 512 ∧ s.st ≠ .error ∧ s.st ≠ .done := by
  simp [PSt.goes, and_assoc]

theorem goes_mk {st : PState} {top : PFrame} {rest : List PFrame} {key : List Byte} {res : Option Val}
    (hl : rest.length + 1 < 512) (h1 : st ≠ .error) (h2 : st ≠ .done) :
    (PSt.mk st (top :: rest) key res).goes = true := by
  rw [goes_iff]; exact ⟨by simp, by simpa using hl, h1, h2⟩

/-- one token from the list -/
theorem prun_tok {s s1 : PSt} {c : Tok} (h : s.goes = true) (hs : pstep s c = .ok s1) (n : Nat) (ts : List Tok) :
    prun listNext (n + 1) s (c :: ts) = prun listNext n s1 ts := by
  rw [prun_go h, listNext, Res.bind_ok]; simp only; rw [hs, Res.bind_ok]

/-! ## documents are accepted -/

/-- a value where an element is expected -/
def InArr (x : Syn) : Prop :=
  ∀ (xs : List Val) (ret : PState) (k : List Byte) (rest : List PFrame) (key : List Byte) (res : Option Val)
    (n : Nat) (ts : List Tok), rest.length + 1 + x.depth ≤ 511 →
    ∃ key' res', prun listNext (n + x.toks.length) ⟨.arrValueOrClose, ⟨ret, some (.arr xs), k⟩ :: rest, key, res⟩
      (x.toks ++ ts) =
      prun listNext n ⟨.arrCloseOrComma, ⟨ret, some (.arr (xs ++ [x.val])), k⟩ :: rest, key', res'⟩ ts

/-- a value where the value of an entry is expected -/
def InObj (x : Syn) : Prop :=
  ∀ (kvs : List (List Byte × Val)) (ret : PState) (k : List Byte) (rest : List PFrame) (key : List Byte)
    (res : Option Val) (n : Nat) (ts : List Tok), rest.length + 1 + x.depth ≤ 511 →
    ∃ key' res', prun listNext (n + x.toks.length) ⟨.objValue, ⟨ret, some (.obj kvs), k⟩ :: rest, key, res⟩
      (x.toks ++ ts) =
      prun listNext n ⟨.objCloseOrComma, ⟨ret, some (.obj (insertKey key x.val kvs)), k⟩ :: rest, key', res'⟩ ts

/-- the end of an array: elements from the state where one is expected -/
theorem run_elems (items : List Syn) (tr : Bool) : ∀ (xs : List Val) (ret : PState) (k : List Byte)
    (rest : List PFrame) (key : List Byte) (res : Option Val) (n : Nat) (ts : List Tok),
    (∀ x ∈ items, InArr x) → rest.length + 1 + depthL items ≤ 511 →
    ∃ key' res', prun listNext (n + (body (toksL items) tr .rb).length)
      ⟨.arrValueOrClose, ⟨ret, some (.arr xs), k⟩ :: rest, key, res⟩ (body (toksL items) tr .rb ++ ts) =
      (popFrame ⟨.error, [], key', res'⟩ ⟨ret, some (.arr (xs ++ valL items)), k⟩ rest).bind
        fun s => prun listNext n s ts := by
  induction items with
  | nil =>
    intro xs ret k rest key res n ts _ hl
    refine ⟨key, res, ?_⟩
    rw [depthL] at hl
    rw [toksL, body_nil]
    have hg := goes_mk (st := .arrValueOrClose) (top := ⟨ret, some (.arr xs), k⟩) (key := key) (res := res)
      (rest := rest) (by omega) (by simp) (by simp)
    show prun listNext (n + 1) _ (.rb :: ts) = _
    rw [prun_go hg, listNext, Res.bind_ok, valL, List.append_nil]
    simp only [pstep]
    cases rest <;> rfl
  | cons x items ih =>
    intro xs ret k rest key res n ts hin hl
    rw [depthL] at hl
    rw [toksL, body_cons]
    obtain ⟨key1, res1, e1⟩ := hin x (List.mem_cons_self ..) xs ret k rest key res
      (n + (bodyTail (toksL items) tr .rb).length) (bodyTail (toksL items) tr .rb ++ ts) (by omega)
    have hg : ∀ key res, (PSt.mk .arrCloseOrComma (⟨ret, some (.arr (xs ++ [x.val])), k⟩ :: rest) key res).goes = true :=
      fun key res => goes_mk (by omega) (by simp) (by simp)
    have hg2 : ∀ key res, (PSt.mk .arrValueOrClose (⟨ret, some (.arr (xs ++ [x.val])), k⟩ :: rest) key res).goes = true :=
      fun key res => goes_mk (by omega) (by simp) (by simp)
    have hstart : prun listNext (n + (x.toks ++ bodyTail (toksL items) tr .rb).length)
        ⟨.arrValueOrClose, ⟨ret, some (.arr xs), k⟩ :: rest, key, res⟩
        (x.toks ++ bodyTail (toksL items) tr .rb ++ ts) =
        prun listNext (n + (bodyTail (toksL items) tr .rb).length)
          ⟨.arrCloseOrComma, ⟨ret, some (.arr (xs ++ [x.val])), k⟩ :: rest, key1, res1⟩
          (bodyTail (toksL items) tr .rb ++ ts) := by
      rw [← e1, List.append_assoc, List.length_append]
      congr 1; omega
    rw [hstart]
    cases items with
    | nil =>
      refine ⟨key1, res1, ?_⟩
      have hend : ∀ (st : PState), (st = .arrCloseOrComma ∨ st = .arrValueOrClose) →
          prun listNext (n + 1) ⟨st, ⟨ret, some (.arr (xs ++ [x.val])), k⟩ :: rest, key1, res1⟩ (.rb :: ts) =
          (popFrame ⟨.error, [], key1, res1⟩ ⟨ret, some (.arr (xs ++ valL [x])), k⟩ rest).bind
            fun s => prun listNext n s ts := by
        rintro st (rfl | rfl)
        · rw [prun_go (hg _ _), listNext, Res.bind_ok]
          simp only [pstep, valL]
          cases rest <;> rfl
        · rw [prun_go (hg2 _ _), listNext, Res.bind_ok]
          simp only [pstep, valL]
          cases rest <;> rfl
      cases tr with
      | false => exact hend _ (.inl rfl)
      | true =>
        show prun listNext (n + 1 + 1) _ (.comma :: .rb :: ts) = _
        rw [prun_tok (hg _ _) (s1 := ⟨.arrValueOrClose, ⟨ret, some (.arr (xs ++ [x.val])), k⟩ :: rest, key1, res1⟩) rfl]
        exact hend _ (.inr rfl)
    | cons y items =>
      obtain ⟨key2, res2, e2⟩ := ih (xs ++ [x.val]) ret k rest key1 res1 n ts
        (fun z hz => hin z (List.mem_cons_of_mem _ hz)) (by omega)
      refine ⟨key2, res2, ?_⟩
      rw [toksL, bodyTail_cons, ← toksL]
      show prun listNext (n + (body (toksL (y :: items)) tr .rb).length + 1) _ (.comma :: (body (toksL (y :: items)) tr .rb ++ ts)) = _
      rw [prun_tok (hg _ _) (s1 := ⟨.arrValueOrClose, ⟨ret, some (.arr (xs ++ [x.val])), k⟩ :: rest, key1, res1⟩) rfl,
        e2, List.append_assoc]
      simp [valL]

/-- the end of an object: entries from the state where a key is expected -/
theorem run_fields (items : List (List Byte × Syn)) (tr : Bool) : ∀ (kvs : List (List Byte × Val)) (ret : PState)
    (k : List Byte) (rest : List PFrame) (key : List Byte) (res : Option Val) (n : Nat) (ts : List Tok),
    (∀ x ∈ items, InObj x.2) → rest.length + 1 + depthF items ≤ 511 →
    ∃ key' res', prun listNext (n + (body (toksF items) tr .rc).length)
      ⟨.keyOrClose, ⟨ret, some (.obj kvs), k⟩ :: rest, key, res⟩ (body (toksF items) tr .rc ++ ts) =
      (popFrame ⟨.error, [], key', res'⟩ ⟨ret, some (.obj (valF items kvs)), k⟩ rest).bind
        fun s => prun listNext n s ts := by
  induction items with
  | nil =>
    intro kvs ret k rest key res n ts _ hl
    refine ⟨key, res, ?_⟩
    rw [depthF] at hl
    rw [toksF, body_nil]
    have hg := goes_mk (st := .keyOrClose) (top := ⟨ret, some (.obj kvs), k⟩) (key := key) (res := res)
      (rest := rest) (by omega) (by simp) (by simp)
    show prun listNext (n + 1) _ (.rc :: ts) = _
    rw [prun_go hg, listNext, Res.bind_ok, valF]
    simp only [pstep]
    cases rest <;> rfl
  | cons x items ih =>
    intro kvs ret k rest key res n ts hin hl
    obtain ⟨kx, x⟩ := x
    rw [depthF] at hl
    rw [toksF, body_cons]
    have hgk : ∀ key res, (PSt.mk .keyOrClose (⟨ret, some (.obj kvs), k⟩ :: rest) key res).goes = true :=
      fun key res => goes_mk (by omega) (by simp) (by simp)
    have hgc : ∀ key res, (PSt.mk .colon (⟨ret, some (.obj kvs), k⟩ :: rest) key res).goes = true :=
      fun key res => goes_mk (by omega) (by simp) (by simp)
    obtain ⟨key1, res1, e1⟩ := hin (kx, x) (List.mem_cons_self ..) kvs ret k rest kx res
      (n + (bodyTail (toksF items) tr .rc).length) (bodyTail (toksF items) tr .rc ++ ts) (by simp only; omega)
    simp only at e1
    have hg : ∀ key res, (PSt.mk .objCloseOrComma (⟨ret, some (.obj (insertKey kx x.val kvs)), k⟩ :: rest) key res).goes = true :=
      fun key res => goes_mk (by omega) (by simp) (by simp)
    have hg2 : ∀ key res, (PSt.mk .keyOrClose (⟨ret, some (.obj (insertKey kx x.val kvs)), k⟩ :: rest) key res).goes = true :=
      fun key res => goes_mk (by omega) (by simp) (by simp)
    have hstart : prun listNext (n + (.str kx :: .colon :: x.toks ++ bodyTail (toksF items) tr .rc).length)
        ⟨.keyOrClose, ⟨ret, some (.obj kvs), k⟩ :: rest, key, res⟩
        (.str kx :: .colon :: x.toks ++ bodyTail (toksF items) tr .rc ++ ts) =
        prun listNext (n + (bodyTail (toksF items) tr .rc).length)
          ⟨.objCloseOrComma, ⟨ret, some (.obj (insertKey kx x.val kvs)), k⟩ :: rest, key1, res1⟩
          (bodyTail (toksF items) tr .rc ++ ts) := by
      rw [← e1]
      have hn : n + (.str kx :: .colon :: x.toks ++ bodyTail (toksF items) tr .rc).length =
          (n + (bodyTail (toksF items) tr .rc).length + x.toks.length) + 1 + 1 := by
        simp only [List.cons_append, List.length_cons, List.length_append]; omega
      rw [hn]
      simp only [List.cons_append, List.append_assoc]
      rw [prun_tok (hgk _ _) (s1 := ⟨.colon, ⟨ret, some (.obj kvs), k⟩ :: rest, kx, res⟩) rfl,
        prun_tok (hgc _ _) (s1 := ⟨.objValue, ⟨ret, some (.obj kvs), k⟩ :: rest, kx, res⟩) rfl]
    rw [hstart]
    cases items with
    | nil =>
      refine ⟨key1, res1, ?_⟩
      have hend : ∀ (st : PState), (st = .objCloseOrComma ∨ st = .keyOrClose) →
          prun listNext (n + 1) ⟨st, ⟨ret, some (.obj (insertKey kx x.val kvs)), k⟩ :: rest, key1, res1⟩ (.rc :: ts) =
          (popFrame ⟨.error, [], key1, res1⟩ ⟨ret, some (.obj (valF [(kx, x)] kvs)), k⟩ rest).bind
            fun s => prun listNext n s ts := by
        rintro st (rfl | rfl)
        · rw [prun_go (hg _ _), listNext, Res.bind_ok]
          simp only [pstep, valF]
          cases rest <;> rfl
        · rw [prun_go (hg2 _ _), listNext, Res.bind_ok]
          simp only [pstep, valF]
          cases rest <;> rfl
      cases tr with
      | false => exact hend _ (.inl rfl)
      | true =>
        show prun listNext (n + 1 + 1) _ (.comma :: .rc :: ts) = _
        rw [prun_tok (hg _ _) (s1 := ⟨.keyOrClose, ⟨ret, some (.obj (insertKey kx x.val kvs)), k⟩ :: rest, key1, res1⟩) rfl]
        exact hend _ (.inr rfl)
    | cons y items =>
      obtain ⟨key2, res2, e2⟩ := ih (insertKey kx x.val kvs) ret k rest key1 res1 n ts
        (fun z hz => hin z (List.mem_cons_of_mem _ hz)) (by omega)
      refine ⟨key2, res2, ?_⟩
      have hb : bodyTail (toksF (y :: items)) tr .rc = .comma :: body (toksF (y :: items)) tr .rc := by
        obtain ⟨ky, y⟩ := y; rfl
      rw [hb]
      show prun listNext (n + (body (toksF (y :: items)) tr .rc).length + 1) _
        (.comma :: (body (toksF (y :: items)) tr .rc ++ ts)) = _
      rw [prun_tok (hg _ _) (s1 := ⟨.keyOrClose, ⟨ret, some (.obj (insertKey kx x.val kvs)), k⟩ :: rest, key1, res1⟩) rfl,
        e2]
      rfl

theorem depthL_mem {xs : List Syn} {x : Syn} (h : x ∈ xs) : x.depth ≤ depthL xs := by
  induction xs with
  | nil => simp at h
  | cons y ys ih =>
    rw [depthL]
    rcases List.mem_cons.1 h with rfl | h
    · omega
    · have := ih h; omega

theorem in_ctx (x : Syn) : InArr x ∧ InObj x := by
  induction x using Syn.ind with
  | hs s =>
    constructor
    · intro xs ret k rest key res n ts hl
      exact ⟨key, res, prun_tok (goes_mk (by simp only [Syn.depth] at hl; omega) (by simp) (by simp)) rfl n ts⟩
    · intro xs ret k rest key res n ts hl
      exact ⟨key, res, prun_tok (goes_mk (by simp only [Syn.depth] at hl; omega) (by simp) (by simp)) rfl n ts⟩
  | hl a =>
    constructor
    · intro xs ret k rest key res n ts hl
      exact ⟨key, res, prun_tok (goes_mk (by simp only [Syn.depth] at hl; omega) (by simp) (by simp)) rfl n ts⟩
    · intro xs ret k rest key res n ts hl
      exact ⟨key, res, prun_tok (goes_mk (by simp only [Syn.depth] at hl; omega) (by simp) (by simp)) rfl n ts⟩
  | ha items tr ih =>
    constructor
    · intro xs ret k rest key res n ts hl
      simp only [Syn.depth] at hl
      obtain ⟨key1, res1, e⟩ := run_elems items tr [] .arrCloseOrComma [] (⟨ret, some (.arr xs), k⟩ :: rest) key res
        n ts (fun x hx => (ih x hx).1) (by simp only [List.length_cons]; omega)
      refine ⟨key1, some (.arr (valL items)), ?_⟩
      rw [Syn.toks]
      show prun listNext (n + (body (toksL items) tr .rb).length + 1) _ (.lb :: (body (toksL items) tr .rb ++ ts)) = _
      rw [prun_tok (goes_mk (by omega) (by simp) (by simp)) (s1 := ⟨.arrValueOrClose,
        ⟨.arrCloseOrComma, some (.arr []), []⟩ :: ⟨ret, some (.arr xs), k⟩ :: rest, key, res⟩) rfl, e]
      rfl
    · intro kvs ret k rest key res n ts hl
      simp only [Syn.depth] at hl
      obtain ⟨key1, res1, e⟩ := run_elems items tr [] .objCloseOrComma key (⟨ret, some (.obj kvs), k⟩ :: rest) key res
        n ts (fun x hx => (ih x hx).1) (by simp only [List.length_cons]; omega)
      refine ⟨key1, some (.arr (valL items)), ?_⟩
      rw [Syn.toks]
      show prun listNext (n + (body (toksL items) tr .rb).length + 1) _ (.lb :: (body (toksL items) tr .rb ++ ts)) = _
      rw [prun_tok (goes_mk (by omega) (by simp) (by simp)) (s1 := ⟨.arrValueOrClose,
        ⟨.objCloseOrComma, some (.arr []), key⟩ :: ⟨ret, some (.obj kvs), k⟩ :: rest, key, res⟩) rfl, e]
      rfl
  | ho items tr ih =>
    constructor
    · intro xs ret k rest key res n ts hl
      simp only [Syn.depth] at hl
      obtain ⟨key1, res1, e⟩ := run_fields items tr [] .arrCloseOrComma [] (⟨ret, some (.arr xs), k⟩ :: rest) key res
        n ts (fun x hx => (ih x hx).2) (by simp only [List.length_cons]; omega)
      refine ⟨key1, some (.obj (valF items [])), ?_⟩
      rw [Syn.toks]
      show prun listNext (n + (body (toksF items) tr .rc).length + 1) _ (.lc :: (body (toksF items) tr .rc ++ ts)) = _
      rw [prun_tok (goes_mk (by omega) (by simp) (by simp)) (s1 := ⟨.keyOrClose,
        ⟨.arrCloseOrComma, some (.obj []), []⟩ :: ⟨ret, some (.arr xs), k⟩ :: rest, key, res⟩) rfl, e]
      rfl
    · intro kvs ret k rest key res n ts hl
      simp only [Syn.depth] at hl
      obtain ⟨key1, res1, e⟩ := run_fields items tr [] .objCloseOrComma key (⟨ret, some (.obj kvs), k⟩ :: rest) key res
        n ts (fun x hx => (ih x hx).2) (by simp only [List.length_cons]; omega)
      refine ⟨key1, some (.obj (valF items [])), ?_⟩
      rw [Syn.toks]
      show prun listNext (n + (body (toksF items) tr .rc).length + 1) _ (.lc :: (body (toksF items) tr .rc ++ ts)) = _
      rw [prun_tok (goes_mk (by omega) (by simp) (by simp)) (s1 := ⟨.keyOrClose,
        ⟨.objCloseOrComma, some (.obj []), key⟩ :: ⟨ret, some (.obj kvs), k⟩ :: rest, key, res⟩) rfl, e]
      rfl

/-- a document at the top level -/
theorem prun_doc (x : Syn) (hd : x.depth ≤ 511) (n : Nat) (ts : List Tok) : ∃ key,
    prun listNext (n + x.toks.length) pinit (x.toks ++ ts) = .ok (some (⟨.done, [], key, some x.val⟩, ts)) := by
  have hg : pinit.goes = true := by decide
  have hstop : ∀ key res, (PSt.mk .done [] key res).goes = false := fun _ _ => rfl
  cases x with
  | str s =>
    exact ⟨[], (prun_tok hg (s1 := ⟨.done, [], [], some (.atom (.str s))⟩) rfl n ts).trans (prun_stop (hstop _ _) n ts)⟩
  | lit a =>
    exact ⟨[], (prun_tok hg (s1 := ⟨.done, [], [], some (.atom a)⟩) rfl n ts).trans (prun_stop (hstop _ _) n ts)⟩
  | arr items tr =>
    simp only [Syn.depth] at hd
    obtain ⟨key1, res1, e⟩ := run_elems items tr [] .done [] [] [] none n ts (fun x _ => (in_ctx x).1)
      (by simp only [List.length_nil]; omega)
    refine ⟨key1, ?_⟩
    rw [Syn.toks]
    show prun listNext (n + (body (toksL items) tr .rb).length + 1) _ (.lb :: (body (toksL items) tr .rb ++ ts)) = _
    rw [prun_tok hg (s1 := ⟨.arrValueOrClose, [⟨.done, some (.arr []), []⟩], [], none⟩) rfl, e]
    exact prun_stop (hstop _ _) n ts
  | obj items tr =>
    simp only [Syn.depth] at hd
    obtain ⟨key1, res1, e⟩ := run_fields items tr [] .done [] [] [] none n ts (fun x _ => (in_ctx x.2).2)
      (by simp only [List.length_nil]; omega)
    refine ⟨key1, ?_⟩
    rw [Syn.toks]
    show prun listNext (n + (body (toksF items) tr .rc).length + 1) _ (.lc :: (body (toksF items) tr .rc ++ ts)) = _
    rw [prun_tok hg (s1 := ⟨.keyOrClose, [⟨.done, some (.obj []), []⟩], [], none⟩) rfl, e]
    exact prun_stop (hstop _ _) n ts

/-! ## only documents are accepted -/

/-- the end of the input and an error of the tokenizer are accepted nowhere -/
theorem pstep_eof {s s1 : PSt} {c : Tok} (hc : c = .eof ∨ c = .err) (hs : s.st ≠ .done)
    (h : pstep s c = .ok s1) : s1.st = .error := by
  obtain ⟨st, stk, key, res⟩ := s
  cases stk with
  | nil => simp [pstep] at h
  | cons top rest =>
    rcases hc with rfl | rfl <;> cases st <;> simp only [pstep, Tok.atom?] at h <;> first
      | exact absurd rfl hs
      | (rw [← Res.ok.inj h])
      | (split at h <;> first | (rw [← Res.ok.inj h]) | cases h)

/-- one turn of a loop that ends in `done` -/
theorem prun_inv {st : PState} {top : PFrame} {rest : List PFrame} {key : List Byte} {res : Option Val}
    {n : Nat} {ts ts' : List Tok} {s' : PSt} (h1 : st ≠ .error) (h2 : st ≠ .done)
    (h : prun listNext n ⟨st, top :: rest, key, res⟩ ts = .ok (some (s', ts'))) (hd : s'.st = .done) :
    rest.length + 1 ≤ 511 ∧ ∃ m c ts1 s1, n = m + 1 ∧ ts = c :: ts1 ∧
      pstep ⟨st, top :: rest, key, res⟩ c = .ok s1 ∧ prun listNext m s1 ts1 = .ok (some (s', ts')) := by
  cases hg : (PSt.mk st (top :: rest) key res).goes with
  | false =>
    rw [prun_stop hg] at h
    simp only [Res.ok.injEq, Option.some.injEq, Prod.mk.injEq] at h
    obtain ⟨rfl, -⟩ := h
    exact absurd hd h2
  | true =>
    have hl := (goes_iff.1 hg).2.1
    simp only [List.length_cons] at hl
    refine ⟨by omega, ?_⟩
    cases n with
    | zero => rw [prun] at h; simp [hg] at h
    | succ m =>
      rw [prun_go hg] at h
      cases ts with
      | cons c ts =>
        rw [listNext, Res.bind_ok] at h
        obtain ⟨s1, e1, e2⟩ := Res.bind_eq_ok.1 h
        exact ⟨m, c, ts, s1, rfl, rfl, e1, e2⟩
      | nil =>
        exfalso
        rw [listNext, Res.bind_ok] at h
        obtain ⟨s1, e1, e2⟩ := Res.bind_eq_ok.1 h
        have hs1 : s1.st = .error := pstep_eof (.inl rfl) h2 e1
        have : s1.goes = false := by
          cases hs : s1.goes with
          | false => rfl
          | true => exact absurd hs1 (goes_iff.1 hs).2.2.1
        rw [prun_stop this] at e2
        simp only [Res.ok.injEq, Option.some.injEq, Prod.mk.injEq] at e2
        obtain ⟨rfl, -⟩ := e2
        rw [hs1] at hd; cases hd

/-- a loop that starts in `error` does not end in `done` -/
theorem prun_error {s s' : PSt} {n : Nat} {ts ts' : List Tok} (hs : s.st = .error)
    (h : prun listNext n s ts = .ok (some (s', ts'))) (hd : s'.st = .done) : False := by
  have : s.goes = false := by
    cases hg : s.goes with
    | false => rfl
    | true => exact absurd hs (goes_iff.1 hg).2.2.1
  rw [prun_stop this] at h
  simp only [Res.ok.injEq, Option.some.injEq, Prod.mk.injEq] at h
  obtain ⟨rfl, -⟩ := h
  rw [hs] at hd; cases hd

/-- after the container is complete -/
def Cont (n : Nat) (s' : PSt) (ts' : List Tok) (top : PFrame) (rest : List PFrame) (ts : List Tok) : Prop :=
  ∃ m key res, m < n ∧ ((popFrame ⟨.error, [], key, res⟩ top rest).bind fun s => prun listNext m s ts) =
    .ok (some (s', ts'))

theorem Cont.mono {n m : Nat} {s' : PSt} {ts' ts : List Tok} {top : PFrame} {rest : List PFrame}
    (h : Cont n s' ts' top rest ts) (hm : n ≤ m) : Cont m s' ts' top rest ts := by
  obtain ⟨k, key, res, hk, e⟩ := h
  exact ⟨k, key, res, by omega, e⟩

/-- what a loop in a state within a container has read when it ends in `done` -/
structure Sound (n : Nat) (s' : PSt) (ts' : List Tok) : Prop where
  av : ∀ (xs : List Val) (ret : PState) (k : List Byte) (rest : List PFrame) (key : List Byte) (res : Option Val)
    (ts : List Tok), prun listNext n ⟨.arrValueOrClose, ⟨ret, some (.arr xs), k⟩ :: rest, key, res⟩ ts =
      .ok (some (s', ts')) →
    ∃ items tr ts1, ts = body (toksL items) tr .rb ++ ts1 ∧ rest.length + 1 + depthL items ≤ 511 ∧
      Cont n s' ts' ⟨ret, some (.arr (xs ++ valL items)), k⟩ rest ts1
  ac : ∀ (xs : List Val) (ret : PState) (k : List Byte) (rest : List PFrame) (key : List Byte) (res : Option Val)
    (ts : List Tok), prun listNext n ⟨.arrCloseOrComma, ⟨ret, some (.arr xs), k⟩ :: rest, key, res⟩ ts =
      .ok (some (s', ts')) →
    ∃ items tr ts1, ts = bodyTail (toksL items) tr .rb ++ ts1 ∧ rest.length + 1 + depthL items ≤ 511 ∧
      Cont n s' ts' ⟨ret, some (.arr (xs ++ valL items)), k⟩ rest ts1
  ok : ∀ (kvs : List (List Byte × Val)) (ret : PState) (k : List Byte) (rest : List PFrame) (key : List Byte)
    (res : Option Val) (ts : List Tok),
    prun listNext n ⟨.keyOrClose, ⟨ret, some (.obj kvs), k⟩ :: rest, key, res⟩ ts = .ok (some (s', ts')) →
    ∃ items tr ts1, ts = body (toksF items) tr .rc ++ ts1 ∧ rest.length + 1 + depthF items ≤ 511 ∧
      Cont n s' ts' ⟨ret, some (.obj (valF items kvs)), k⟩ rest ts1
  oc : ∀ (kvs : List (List Byte × Val)) (ret : PState) (k : List Byte) (rest : List PFrame) (key : List Byte)
    (res : Option Val) (ts : List Tok),
    prun listNext n ⟨.objCloseOrComma, ⟨ret, some (.obj kvs), k⟩ :: rest, key, res⟩ ts = .ok (some (s', ts')) →
    ∃ items tr ts1, ts = bodyTail (toksF items) tr .rc ++ ts1 ∧ rest.length + 1 + depthF items ≤ 511 ∧
      Cont n s' ts' ⟨ret, some (.obj (valF items kvs)), k⟩ rest ts1

theorem cont_of_pop {m n : Nat} {s' s1 : PSt} {ts' ts1 : List Tok} {top : PFrame} {rest : List PFrame}
    {s : PSt} (hm : m < n) (hp : popFrame s top rest = .ok s1)
    (h : prun listNext m s1 ts1 = .ok (some (s', ts'))) : Cont n s' ts' top rest ts1 := by
  refine ⟨m, s.key, s.result, hm, ?_⟩
  have : popFrame ⟨.error, [], s.key, s.result⟩ top rest = popFrame s top rest := by
    cases rest <;> rfl
  rw [this, hp, Res.bind_ok]; exact h

theorem bodyTail_of_body {α : Type} (f : List α → List (List Tok)) (h0 : f [] = [])
    (h1 : ∀ x xs, f (x :: xs) ≠ []) (items : List α) (tr : Bool) (c : Tok) :
    ∃ tr', Tok.comma :: body (f items) tr c = bodyTail (f items) tr' c := by
  cases items with
  | nil => exact ⟨true, by rw [h0]; simp [body, bodyTail]⟩
  | cons x xs =>
    refine ⟨tr, ?_⟩
    have := h1 x xs
    cases e : f (x :: xs) with
    | nil => exact absurd e this
    | cons p ps => rfl

theorem sound (n : Nat) : ∀ (s' : PSt) (ts' : List Tok), s'.st = .done → Sound n s' ts' := by
  induction n using Nat.strongRecOn with
  | _ n ih =>
  intro s' ts' hd
  refine ⟨?_, ?_, ?_, ?_⟩
  · intro xs ret k rest key res ts h
    obtain ⟨hl, m, c, ts1, s1, rfl, rfl, e1, e2⟩ := prun_inv (by simp) (by simp) h hd
    have hS := ih m (by omega) s' ts' hd
    -- an element that is a complete token
    have hatom : ∀ (x : Syn) (a : Atom), x.toks = [c] → x.val = .atom a → x.depth = 0 →
        s1 = ⟨.arrCloseOrComma, ⟨ret, some (.arr (xs ++ [.atom a])), k⟩ :: rest, key, res⟩ →
        ∃ items tr ts2, c :: ts1 = body (toksL items) tr .rb ++ ts2 ∧ rest.length + 1 + depthL items ≤ 511 ∧
          Cont (m + 1) s' ts' ⟨ret, some (.arr (xs ++ valL items)), k⟩ rest ts2 := by
      intro x a hx hv hdp hs
      subst hs
      obtain ⟨items, tr, ts2, hts, hdl, hc⟩ := hS.ac _ _ _ _ _ _ _ e2
      refine ⟨x :: items, tr, ts2, ?_, ?_, ?_⟩
      · rw [toksL, body_cons, hx, hts]; rfl
      · rw [depthL, hdp]; omega
      · rw [valL, hv]; simpa using hc.mono (by omega)
    -- an element that is a container
    have hcont : ∀ (x : Syn) (ts2 : List Tok), c :: ts1 = x.toks ++ ts2 → rest.length + 1 + x.depth ≤ 511 →
        Cont m s' ts' ⟨.arrCloseOrComma, some x.val, []⟩ (⟨ret, some (.arr xs), k⟩ :: rest) ts2 →
        ∃ items tr ts2, c :: ts1 = body (toksL items) tr .rb ++ ts2 ∧ rest.length + 1 + depthL items ≤ 511 ∧
          Cont (m + 1) s' ts' ⟨ret, some (.arr (xs ++ valL items)), k⟩ rest ts2 := by
      intro x ts2 hx hdx hc
      obtain ⟨m1, key1, res1, hm1, e⟩ := hc
      obtain ⟨items, tr, ts3, hts, hdl, hc⟩ := (ih m1 (by omega) s' ts' hd).ac _ _ _ _ _ _ _ e
      refine ⟨x :: items, tr, ts3, ?_, ?_, ?_⟩
      · rw [toksL, body_cons, hx, hts, List.append_assoc]
      · rw [depthL]; omega
      · rw [valL]; simpa using hc.mono (by omega)
    cases c with
    | rb =>
      refine ⟨[], false, ts1, by rw [toksL, body_nil]; rfl, by rw [depthL]; omega, ?_⟩
      rw [valL, List.append_nil]
      exact cont_of_pop (by omega) e1 e2
    | str s => exact hatom (.str s) (.str s) rfl rfl rfl (Res.ok.inj e1).symm
    | lit a => exact hatom (.lit a) a rfl rfl rfl (Res.ok.inj e1).symm
    | lb =>
      obtain rfl := Res.ok.inj e1
      obtain ⟨items, tr, ts2, hts, hdl, hc⟩ := hS.av _ _ _ _ _ _ _ e2
      simp only [List.length_cons] at hdl
      exact hcont (.arr items tr) ts2 (by rw [Syn.toks, hts]; rfl) (by rw [Syn.depth]; omega) hc
    | lc =>
      obtain rfl := Res.ok.inj e1
      obtain ⟨items, tr, ts2, hts, hdl, hc⟩ := hS.ok _ _ _ _ _ _ _ e2
      simp only [List.length_cons] at hdl
      exact hcont (.obj items tr) ts2 (by rw [Syn.toks, hts]; rfl) (by rw [Syn.depth]; omega) hc
    | eof => obtain rfl := Res.ok.inj e1; exact (prun_error rfl e2 hd).elim
    | err => obtain rfl := Res.ok.inj e1; exact (prun_error rfl e2 hd).elim
    | rc => obtain rfl := Res.ok.inj e1; exact (prun_error rfl e2 hd).elim
    | colon => obtain rfl := Res.ok.inj e1; exact (prun_error rfl e2 hd).elim
    | comma => obtain rfl := Res.ok.inj e1; exact (prun_error rfl e2 hd).elim
  · intro xs ret k rest key res ts h
    obtain ⟨hl, m, c, ts1, s1, rfl, rfl, e1, e2⟩ := prun_inv (by simp) (by simp) h hd
    have hS := ih m (by omega) s' ts' hd
    cases c with
    | rb =>
      refine ⟨[], false, ts1, rfl, by rw [depthL]; omega, ?_⟩
      rw [valL, List.append_nil]
      exact cont_of_pop (by omega) e1 e2
    | comma =>
      obtain rfl := Res.ok.inj e1
      obtain ⟨items, tr, ts2, hts, hdl, hc⟩ := hS.av _ _ _ _ _ _ _ e2
      obtain ⟨tr', e⟩ := bodyTail_of_body toksL rfl (by simp [toksL]) items tr .rb
      exact ⟨items, tr', ts2, by rw [← e, hts]; rfl, hdl, hc.mono (by omega)⟩
    | str s => obtain rfl := Res.ok.inj e1; exact (prun_error rfl e2 hd).elim
    | lit s => obtain rfl := Res.ok.inj e1; exact (prun_error rfl e2 hd).elim
    | lb => obtain rfl := Res.ok.inj e1; exact (prun_error rfl e2 hd).elim
    | lc => obtain rfl := Res.ok.inj e1; exact (prun_error rfl e2 hd).elim
    | rc => obtain rfl := Res.ok.inj e1; exact (prun_error rfl e2 hd).elim
    | colon => obtain rfl := Res.ok.inj e1; exact (prun_error rfl e2 hd).elim
    | eof => obtain rfl := Res.ok.inj e1; exact (prun_error rfl e2 hd).elim
    | err => obtain rfl := Res.ok.inj e1; exact (prun_error rfl e2 hd).elim
  · intro kvs ret k rest key res ts h
    obtain ⟨hl, m, c, ts1, s1, rfl, rfl, e1, e2⟩ := prun_inv (by simp) (by simp) h hd
    cases c with
    | rc =>
      refine ⟨[], false, ts1, by rw [toksF, body_nil]; rfl, by rw [depthF]; omega, ?_⟩
      rw [valF]
      exact cont_of_pop (by omega) e1 e2
    | str kx =>
      obtain rfl := Res.ok.inj e1
      obtain ⟨-, m, c, ts1, s1, rfl, rfl, e1, e2⟩ := prun_inv (by simp) (by simp) e2 hd
      by_cases hcol : c = .colon
      · subst hcol
        obtain rfl := Res.ok.inj e1
        obtain ⟨-, m, c, ts1, s1, rfl, rfl, e1, e2⟩ := prun_inv (by simp) (by simp) e2 hd
        have hS := ih m (by omega) s' ts' hd
        have hatom : ∀ (x : Syn) (a : Atom), x.toks = [c] → x.val = .atom a → x.depth = 0 →
            s1 = ⟨.objCloseOrComma, ⟨ret, some (.obj (insertKey kx (.atom a) kvs)), k⟩ :: rest, kx, res⟩ →
            ∃ items tr ts2, .str kx :: .colon :: c :: ts1 = body (toksF items) tr .rc ++ ts2 ∧
              rest.length + 1 + depthF items ≤ 511 ∧
              Cont (m + 1 + 1 + 1) s' ts' ⟨ret, some (.obj (valF items kvs)), k⟩ rest ts2 := by
          intro x a hx hv hdp hs
          subst hs
          obtain ⟨items, tr, ts2, hts, hdl, hc⟩ := hS.oc _ _ _ _ _ _ _ e2
          refine ⟨(kx, x) :: items, tr, ts2, ?_, ?_, ?_⟩
          · rw [toksF, body_cons, hx, hts]; rfl
          · rw [depthF, hdp]; omega
          · rw [valF, hv]; exact hc.mono (by omega)
        have hcont : ∀ (x : Syn) (ts2 : List Tok), c :: ts1 = x.toks ++ ts2 → rest.length + 1 + x.depth ≤ 511 →
            Cont m s' ts' ⟨.objCloseOrComma, some x.val, kx⟩ (⟨ret, some (.obj kvs), k⟩ :: rest) ts2 →
            ∃ items tr ts2, .str kx :: .colon :: c :: ts1 = body (toksF items) tr .rc ++ ts2 ∧
              rest.length + 1 + depthF items ≤ 511 ∧
              Cont (m + 1 + 1 + 1) s' ts' ⟨ret, some (.obj (valF items kvs)), k⟩ rest ts2 := by
          intro x ts2 hx hdx hc
          obtain ⟨m1, key1, res1, hm1, e⟩ := hc
          obtain ⟨items, tr, ts3, hts, hdl, hc⟩ := (ih m1 (by omega) s' ts' hd).oc _ _ _ _ _ _ _ e
          refine ⟨(kx, x) :: items, tr, ts3, ?_, ?_, ?_⟩
          · rw [toksF, body_cons, hx, hts]; simp
          · rw [depthF]; omega
          · rw [valF]; exact hc.mono (by omega)
        cases c with
        | str s => exact hatom (.str s) (.str s) rfl rfl rfl (Res.ok.inj e1).symm
        | lit a => exact hatom (.lit a) a rfl rfl rfl (Res.ok.inj e1).symm
        | lb =>
          obtain rfl := Res.ok.inj e1
          obtain ⟨items, tr, ts2, hts, hdl, hc⟩ := hS.av _ _ _ _ _ _ _ e2
          simp only [List.length_cons] at hdl
          exact hcont (.arr items tr) ts2 (by rw [Syn.toks, hts]; rfl) (by rw [Syn.depth]; omega) hc
        | lc =>
          obtain rfl := Res.ok.inj e1
          obtain ⟨items, tr, ts2, hts, hdl, hc⟩ := hS.ok _ _ _ _ _ _ _ e2
          simp only [List.length_cons] at hdl
          exact hcont (.obj items tr) ts2 (by rw [Syn.toks, hts]; rfl) (by rw [Syn.depth]; omega) hc
        | eof => obtain rfl := Res.ok.inj e1; exact (prun_error rfl e2 hd).elim
        | err => obtain rfl := Res.ok.inj e1; exact (prun_error rfl e2 hd).elim
        | rc => obtain rfl := Res.ok.inj e1; exact (prun_error rfl e2 hd).elim
        | rb => obtain rfl := Res.ok.inj e1; exact (prun_error rfl e2 hd).elim
        | colon => obtain rfl := Res.ok.inj e1; exact (prun_error rfl e2 hd).elim
        | comma => obtain rfl := Res.ok.inj e1; exact (prun_error rfl e2 hd).elim
      · simp only [pstep, hcol, ↓reduceIte] at e1
        obtain rfl := Res.ok.inj e1; exact (prun_error rfl e2 hd).elim
    | comma => obtain rfl := Res.ok.inj e1; exact (prun_error rfl e2 hd).elim
    | lit s => obtain rfl := Res.ok.inj e1; exact (prun_error rfl e2 hd).elim
    | lb => obtain rfl := Res.ok.inj e1; exact (prun_error rfl e2 hd).elim
    | lc => obtain rfl := Res.ok.inj e1; exact (prun_error rfl e2 hd).elim
    | rb => obtain rfl := Res.ok.inj e1; exact (prun_error rfl e2 hd).elim
    | colon => obtain rfl := Res.ok.inj e1; exact (prun_error rfl e2 hd).elim
    | eof => obtain rfl := Res.ok.inj e1; exact (prun_error rfl e2 hd).elim
    | err => obtain rfl := Res.ok.inj e1; exact (prun_error rfl e2 hd).elim
  · intro kvs ret k rest key res ts h
    obtain ⟨hl, m, c, ts1, s1, rfl, rfl, e1, e2⟩ := prun_inv (by simp) (by simp) h hd
    have hS := ih m (by omega) s' ts' hd
    cases c with
    | rc =>
      refine ⟨[], false, ts1, rfl, by rw [depthF]; omega, ?_⟩
      rw [valF]
      exact cont_of_pop (by omega) e1 e2
    | comma =>
      obtain rfl := Res.ok.inj e1
      obtain ⟨items, tr, ts2, hts, hdl, hc⟩ := hS.ok _ _ _ _ _ _ _ e2
      obtain ⟨tr', e⟩ := bodyTail_of_body toksF rfl (by intro x xs; obtain ⟨kx, x⟩ := x; simp [toksF]) items tr .rc
      exact ⟨items, tr', ts2, by rw [← e, hts]; rfl, hdl, hc.mono (by omega)⟩
    | str s => obtain rfl := Res.ok.inj e1; exact (prun_error rfl e2 hd).elim
    | lit s => obtain rfl := Res.ok.inj e1; exact (prun_error rfl e2 hd).elim
    | lb => obtain rfl := Res.ok.inj e1; exact (prun_error rfl e2 hd).elim
    | lc => obtain rfl := Res.ok.inj e1; exact (prun_error rfl e2 hd).elim
    | rb => obtain rfl := Res.ok.inj e1; exact (prun_error rfl e2 hd).elim
    | colon => obtain rfl := Res.ok.inj e1; exact (prun_error rfl e2 hd).elim
    | eof => obtain rfl := Res.ok.inj e1; exact (prun_error rfl e2 hd).elim
    | err => obtain rfl := Res.ok.inj e1; exact (prun_error rfl e2 hd).elim

/-- a loop from the start that ends in `done` has read a document -/
theorem prun_doc_inv {n : Nat} {s' : PSt} {ts ts' : List Tok}
    (h : prun listNext n pinit ts = .ok (some (s', ts'))) (hd : s'.st = .done) :
    ∃ x : Syn, ts = x.toks ++ ts' ∧ x.depth ≤ 511 ∧ s'.result = some x.val := by
  obtain ⟨hl, m, c, ts1, s1, rfl, rfl, e1, e2⟩ := prun_inv (by simp) (by simp) h hd
  have hfin : ∀ {s : PSt} {m : Nat} {ts1 : List Tok}, s.stk = [] → prun listNext m s ts1 = .ok (some (s', ts')) →
      s' = s ∧ ts' = ts1 := by
    intro s m ts1 hs e
    rw [prun_stop (by simp [PSt.goes, hs])] at e
    simp only [Res.ok.injEq, Option.some.injEq, Prod.mk.injEq] at e
    exact ⟨e.1.symm, e.2.symm⟩
  have hS := sound m s' ts' hd
  cases c with
  | str s =>
    obtain rfl := Res.ok.inj e1
    obtain ⟨rfl, rfl⟩ := hfin rfl e2
    exact ⟨.str s, rfl, by rw [Syn.depth]; omega, rfl⟩
  | lit a =>
    obtain rfl := Res.ok.inj e1
    obtain ⟨rfl, rfl⟩ := hfin rfl e2
    exact ⟨.lit a, rfl, by rw [Syn.depth]; omega, rfl⟩
  | lb =>
    obtain rfl := Res.ok.inj e1
    obtain ⟨items, tr, ts2, hts, hdl, m1, key1, res1, hm1, e⟩ := hS.av _ _ _ _ _ _ _ e2
    obtain ⟨rfl, rfl⟩ := hfin rfl e
    refine ⟨.arr items tr, by rw [Syn.toks, hts]; rfl, ?_, rfl⟩
    simp only [List.length_nil] at hdl
    rw [Syn.depth]; omega
  | lc =>
    obtain rfl := Res.ok.inj e1
    obtain ⟨items, tr, ts2, hts, hdl, m1, key1, res1, hm1, e⟩ := hS.ok _ _ _ _ _ _ _ e2
    obtain ⟨rfl, rfl⟩ := hfin rfl e
    refine ⟨.obj items tr, by rw [Syn.toks, hts]; rfl, ?_, rfl⟩
    simp only [List.length_nil] at hdl
    rw [Syn.depth]; omega
  | eof => obtain rfl := Res.ok.inj e1; exact (prun_error rfl e2 hd).elim
  | err => obtain rfl := Res.ok.inj e1; exact (prun_error rfl e2 hd).elim
  | rc => obtain rfl := Res.ok.inj e1; exact (prun_error rfl e2 hd).elim
  | rb => obtain rfl := Res.ok.inj e1; exact (prun_error rfl e2 hd).elim
  | colon => obtain rfl := Res.ok.inj e1; exact (prun_error rfl e2 hd).elim
  | comma => obtain rfl := Res.ok.inj e1; exact (prun_error rfl e2 hd).elim

/-! ## the stack is always well formed -/

/-- every container on the stack will be put into the one below it, the last one is the result -/
def ChainOk : List PFrame → Prop
  | [] => False
  | [f] => f.ret = .done
  | f :: p :: rest =>
    ((f.ret = .arrCloseOrComma ∧ ∃ xs, p.j = some (.arr xs)) ∨
      (f.ret = .objCloseOrComma ∧ ∃ kvs, p.j = some (.obj kvs))) ∧ ChainOk (p :: rest)

/-- the container that is filled in each state -/
def PInv (s : PSt) : Prop :=
  match s.st with
  | .value => ∃ top, s.stk = [top] ∧ top.ret = .done
  | .keyOrClose | .colon | .objValue | .objCloseOrComma =>
    ∃ top rest kvs, s.stk = top :: rest ∧ top.j = some (.obj kvs) ∧ ChainOk s.stk
  | .arrValueOrClose | .arrCloseOrComma =>
    ∃ top rest xs, s.stk = top :: rest ∧ top.j = some (.arr xs) ∧ ChainOk s.stk
  | .error => True
  | .done => s.stk = [] ∧ ∃ v, s.result = some v

theorem ChainOk.cast {top top' : PFrame} {rest : List PFrame} (h : ChainOk (top :: rest))
    (hr : top'.ret = top.ret) : ChainOk (top' :: rest) := by
  cases rest with
  | nil => simp only [ChainOk] at h ⊢; rw [hr]; exact h
  | cons p r => simp only [ChainOk] at h ⊢; rw [hr]; exact h

theorem popFrame_inv {s : PSt} {top : PFrame} {rest : List PFrame} {v : Val} (hj : top.j = some v)
    (hc : ChainOk (top :: rest)) : ∃ s1, popFrame s top rest = .ok s1 ∧ PInv s1 := by
  obtain ⟨ret, j, k⟩ := top
  simp only at hj; subst hj
  cases rest with
  | nil =>
    simp only [ChainOk] at hc
    subst hc
    exact ⟨_, rfl, rfl, v, rfl⟩
  | cons p rest =>
    obtain ⟨h1, h2⟩ := hc
    obtain ⟨pr, pj, pk⟩ := p
    rcases h1 with ⟨hr, xs, hp⟩ | ⟨hr, kvs, hp⟩
    · simp only at hr hp; subst hr hp
      exact ⟨_, rfl, _, _, _, rfl, rfl, h2.cast rfl⟩
    · simp only at hr hp; subst hr hp
      exact ⟨_, rfl, _, _, _, rfl, rfl, h2.cast rfl⟩

/-- every token can be handled in every state the parser gets into -/
theorem pstep_inv {s : PSt} (h : PInv s) (hst : s.st ≠ .done) (hne : s.stk ≠ []) (c : Tok) :
    ∃ s1, pstep s c = .ok s1 ∧ PInv s1 := by
  obtain ⟨st, stk, key, res⟩ := s
  have herr : ∀ s : PSt, s.st = .error → PInv s := by
    rintro ⟨st, stk, key, res⟩ rfl; trivial
  cases st with
  | done => exact absurd rfl hst
  | error =>
    cases stk with
    | nil => exact absurd rfl hne
    | cons top rest => exact ⟨_, rfl, trivial⟩
  | value =>
    obtain ⟨⟨ret, j, k⟩, rfl, hr⟩ := h
    simp only at hr; subst hr
    cases c <;> first
      | exact ⟨_, rfl, _, rfl, trivial⟩
      | exact ⟨_, rfl, _, _, _, rfl, rfl, rfl⟩
      | exact ⟨_, rfl, rfl, _, rfl⟩
      | exact ⟨_, rfl, trivial⟩
  | keyOrClose =>
    obtain ⟨top, rest, kvs, rfl, hj, hc⟩ := h
    cases c <;> first
      | exact popFrame_inv hj hc
      | exact ⟨_, rfl, _, _, _, rfl, hj, hc⟩
      | exact ⟨_, rfl, trivial⟩
  | colon =>
    obtain ⟨top, rest, kvs, rfl, hj, hc⟩ := h
    cases c <;> first
      | exact ⟨_, rfl, _, _, _, rfl, hj, hc⟩
      | exact ⟨_, rfl, trivial⟩
  | objValue =>
    obtain ⟨⟨ret, j, k⟩, rest, kvs, rfl, hj, hc⟩ := h
    simp only at hj; subst hj
    cases c <;> first
      | exact ⟨_, rfl, _, _, _, rfl, rfl, hc.cast rfl⟩
      | exact ⟨_, rfl, _, _, _, rfl, rfl, .inr ⟨rfl, _, rfl⟩, hc⟩
      | exact ⟨_, rfl, trivial⟩
  | objCloseOrComma =>
    obtain ⟨top, rest, kvs, rfl, hj, hc⟩ := h
    cases c <;> first
      | exact popFrame_inv hj hc
      | exact ⟨_, rfl, _, _, _, rfl, hj, hc⟩
      | exact ⟨_, rfl, trivial⟩
  | arrValueOrClose =>
    obtain ⟨⟨ret, j, k⟩, rest, xs, rfl, hj, hc⟩ := h
    simp only at hj; subst hj
    cases c <;> first
      | exact popFrame_inv rfl hc
      | exact ⟨_, rfl, _, _, _, rfl, rfl, hc.cast rfl⟩
      | exact ⟨_, rfl, _, _, _, rfl, rfl, .inl ⟨rfl, _, rfl⟩, hc⟩
      | exact ⟨_, rfl, trivial⟩
  | arrCloseOrComma =>
    obtain ⟨top, rest, xs, rfl, hj, hc⟩ := h
    cases c <;> first
      | exact popFrame_inv hj hc
      | exact ⟨_, rfl, _, _, _, rfl, hj, hc⟩
      | exact ⟨_, rfl, trivial⟩

/-! ## any source of tokens -/

/-- the source yields these tokens on the way from one position to another -/
inductive Yields {σ : Type} (next : σ → Res (Tok × σ)) : σ → List Tok → σ → Prop
  | nil (t : σ) : Yields next t [] t
  | cons {t t1 t2 : σ} {c : Tok} {cs : List Tok} (h : next t = .ok (c, t1)) (hs : Yields next t1 cs t2) :
      Yields next t (c :: cs) t2

theorem Yields.append {σ : Type} {next : σ → Res (Tok × σ)} {t1 t2 t3 : σ} {as bs : List Tok}
    (h1 : Yields next t1 as t2) (h2 : Yields next t2 bs t3) : Yields next t1 (as ++ bs) t3 := by
  induction h1 with
  | nil => exact h2
  | cons h _ ih => exact .cons h (ih h2)

/-- a source can be replaced by the list of what it yields -/
theorem prun_yields {σ : Type} {next : σ → Res (Tok × σ)} (n : Nat) : ∀ (s s' : PSt) (t t' : σ),
    prun next n s t = .ok (some (s', t')) →
    ∃ ts, Yields next t ts t' ∧ ∀ rest, prun listNext n s (ts ++ rest) = .ok (some (s', rest)) := by
  induction n with
  | zero =>
    intro s s' t t' h
    rw [prun] at h
    cases hg : s.goes with
    | true => simp [hg] at h
    | false =>
      simp only [hg, Bool.not_false, ↓reduceIte, Res.ok.injEq, Option.some.injEq, Prod.mk.injEq] at h
      obtain ⟨rfl, rfl⟩ := h
      exact ⟨[], .nil t, fun rest => prun_stop hg 0 rest⟩
  | succ n ih =>
    intro s s' t t' h
    cases hg : s.goes with
    | false =>
      rw [prun_stop hg] at h
      simp only [Res.ok.injEq, Option.some.injEq, Prod.mk.injEq] at h
      obtain ⟨rfl, rfl⟩ := h
      exact ⟨[], .nil t, fun rest => prun_stop hg _ rest⟩
    | true =>
      rw [prun_go hg] at h
      obtain ⟨⟨c, t1⟩, e1, h⟩ := Res.bind_eq_ok.1 h
      obtain ⟨s1, e2, h⟩ := Res.bind_eq_ok.1 h
      obtain ⟨ts, hy, hr⟩ := ih s1 s' t1 t' h
      exact ⟨c :: ts, .cons e1 hy, fun rest => (prun_tok hg e2 n _).trans (hr rest)⟩

/-- and a list by a source that yields it -/
theorem prun_of_yields {σ : Type} {next : σ → Res (Tok × σ)} {t t' : σ} {ts : List Tok}
    (hy : Yields next t ts t') : ∀ (n : Nat) (s s' : PSt),
    prun listNext n s ts = .ok (some (s', [])) → s'.st = .done →
    prun next n s t = .ok (some (s', t')) := by
  induction hy with
  | nil t =>
    intro n s s' h hsd
    cases hg : s.goes with
    | false =>
      rw [prun_stop hg] at h ⊢
      simp only [Res.ok.injEq, Option.some.injEq, Prod.mk.injEq] at h ⊢
      exact ⟨h.1, trivial⟩
    | true =>
      exfalso
      obtain ⟨st, stk, key, res⟩ := s
      obtain ⟨h1, h2, h3, h4⟩ := goes_iff.1 hg
      cases stk with
      | nil => exact h1 rfl
      | cons top rest =>
        obtain ⟨-, m, c, ts1, s1, -, hnil, -⟩ := prun_inv h3 h4 h hsd
        simp at hnil
  | cons hn hs ih =>
    rename_i t t1 t2 c cs
    intro n s s' h hsd
    cases hg : s.goes with
    | false =>
      rw [prun_stop hg] at h
      simp at h
    | true =>
      cases n with
      | zero => rw [prun] at h; simp [hg] at h
      | succ n =>
        rw [prun_go hg, listNext, Res.bind_ok] at h
        obtain ⟨s1, e1, h⟩ := Res.bind_eq_ok.1 h
        rw [prun_go hg, hn, Res.bind_ok]
        simp only
        simp only at e1
        rw [e1, Res.bind_ok]
        exact ih n s1 s' h hsd

/-! ## a list of tokens starts with at most one document -/

/-- the first token of a document -/
def Tok.starts : Tok → Bool
  | .str _ | .lit _ | .lb | .lc => true
  | _ => false

theorem toks_head (x : Syn) : ∃ c cs, x.toks = c :: cs ∧ c.starts = true := by
  cases x with
  | str s => exact ⟨_, _, rfl, rfl⟩
  | lit a => exact ⟨_, _, rfl, rfl⟩
  | arr xs tr => exact ⟨_, _, by rw [Syn.toks], rfl⟩
  | obj xs tr => exact ⟨_, _, by rw [Syn.toks], rfl⟩

/-- there is no other document at the start of the tokens -/
def Uniq (x : Syn) : Prop :=
  ∀ (y : Syn) (r r' : List Tok), x.toks ++ r = y.toks ++ r' → x.val = y.val ∧ x.depth = y.depth ∧ r = r'

theorem tails_eq {ps qs : List (List Tok)} {tr tr' : Bool} {cl : Tok} {r r' : List Tok} (hcl : cl ≠ .comma)
    (hp : ∀ p ∈ ps, ∃ c cs, p = c :: cs ∧ c.starts = true) (hq : ∀ p ∈ qs, ∃ c cs, p = c :: cs ∧ c.starts = true)
    (hs : cl.starts = false) (h : bodyTail ps tr cl ++ r = bodyTail qs tr' cl ++ r') :
    (ps = [] ∧ qs = [] ∧ r = r') ∨ (ps ≠ [] ∧ qs ≠ [] ∧ body ps tr cl ++ r = body qs tr' cl ++ r') := by
  cases ps with
  | nil =>
    cases qs with
    | nil =>
      left
      cases tr <;> cases tr' <;> simp_all [bodyTail]
    | cons q qs =>
      exfalso
      obtain ⟨c, cs, rfl, hc⟩ := hq _ (List.mem_cons_self ..)
      rw [bodyTail_cons, body_cons] at h
      cases tr
      · simp_all [bodyTail]
      · simp only [bodyTail, List.isEmpty_nil, ↓reduceIte, List.cons_append, List.cons.injEq, true_and] at h
        rw [h.1, hc] at hs; cases hs
  | cons p ps =>
    cases qs with
    | nil =>
      exfalso
      obtain ⟨c, cs, rfl, hc⟩ := hp _ (List.mem_cons_self ..)
      rw [bodyTail_cons, body_cons] at h
      cases tr'
      · simp only [bodyTail, List.isEmpty_nil, ↓reduceIte, List.cons_append, List.cons.injEq, Bool.false_eq_true] at h
        exact hcl h.1.symm
      · simp only [bodyTail, List.isEmpty_nil, ↓reduceIte, List.cons_append, List.cons.injEq, true_and] at h
        rw [← h.1, hc] at hs; cases hs
    | cons q qs =>
      right
      rw [bodyTail_cons, bodyTail_cons] at h
      simp only [List.cons_append, List.cons.injEq, true_and] at h
      exact ⟨by simp, by simp, h⟩

theorem toksL_start (xs : List Syn) : ∀ p ∈ toksL xs, ∃ c cs, p = c :: cs ∧ c.starts = true := by
  induction xs with
  | nil => simp [toksL]
  | cons x xs ih =>
    rw [toksL, List.forall_mem_cons]
    exact ⟨toks_head x, ih⟩

theorem toksF_start (xs : List (List Byte × Syn)) : ∀ p ∈ toksF xs, ∃ c cs, p = c :: cs ∧ c.starts = true := by
  induction xs with
  | nil => simp [toksF]
  | cons x xs ih =>
    obtain ⟨k, x⟩ := x
    rw [toksF, List.forall_mem_cons]
    exact ⟨⟨_, _, rfl, rfl⟩, ih⟩

theorem uniq_elems (xs : List Syn) : ∀ (ys : List Syn) (tr tr' : Bool) (r r' : List Tok),
    (∀ x ∈ xs, Uniq x) → body (toksL xs) tr .rb ++ r = body (toksL ys) tr' .rb ++ r' →
    valL xs = valL ys ∧ depthL xs = depthL ys ∧ r = r' := by
  induction xs with
  | nil =>
    intro ys tr tr' r r' _ h
    cases ys with
    | nil => simpa [toksL, body_nil] using h
    | cons y ys =>
      exfalso
      obtain ⟨c, cs, e, hc⟩ := toks_head y
      rw [toksL, toksL, body_nil, body_cons, e] at h
      simp only [List.cons_append, List.cons.injEq] at h
      rw [← h.1] at hc; cases hc
  | cons x xs ih =>
    intro ys tr tr' r r' hu h
    cases ys with
    | nil =>
      exfalso
      obtain ⟨c, cs, e, hc⟩ := toks_head x
      rw [toksL, toksL, body_nil, body_cons, e] at h
      simp only [List.cons_append, List.cons.injEq] at h
      rw [h.1] at hc; cases hc
    | cons y ys =>
      rw [toksL, toksL, body_cons, body_cons, List.append_assoc, List.append_assoc] at h
      obtain ⟨hv, hd, ht⟩ := hu x (List.mem_cons_self ..) y _ _ h
      rw [valL, valL, depthL, depthL, hv, hd]
      rcases tails_eq (by simp) (toksL_start xs) (toksL_start ys) rfl ht with ⟨h1, h2, rfl⟩ | ⟨_, _, hb⟩
      · cases xs with
        | cons _ _ => simp [toksL] at h1
        | nil =>
          cases ys with
          | cons _ _ => simp [toksL] at h2
          | nil => simp
      · obtain ⟨h1, h2, h3⟩ := ih ys tr tr' r r' (fun z hz => hu z (List.mem_cons_of_mem _ hz)) hb
        rw [h1, h2]
        exact ⟨rfl, rfl, h3⟩

theorem uniq_fields (xs : List (List Byte × Syn)) : ∀ (ys : List (List Byte × Syn)) (tr tr' : Bool) (r r' : List Tok)
    (acc : List (List Byte × Val)),
    (∀ x ∈ xs, Uniq x.2) → body (toksF xs) tr .rc ++ r = body (toksF ys) tr' .rc ++ r' →
    valF xs acc = valF ys acc ∧ depthF xs = depthF ys ∧ r = r' := by
  induction xs with
  | nil =>
    intro ys tr tr' r r' acc _ h
    cases ys with
    | nil => simpa [toksF, body_nil] using h
    | cons y ys =>
      exfalso
      obtain ⟨ky, y⟩ := y
      rw [toksF, toksF, body_nil, body_cons] at h
      simp at h
  | cons x xs ih =>
    intro ys tr tr' r r' acc hu h
    obtain ⟨kx, x⟩ := x
    cases ys with
    | nil =>
      exfalso
      rw [toksF, toksF, body_nil, body_cons] at h
      simp at h
    | cons y ys =>
      obtain ⟨ky, y⟩ := y
      rw [toksF, toksF, body_cons, body_cons, List.append_assoc, List.append_assoc] at h
      simp only [List.cons_append, List.cons.injEq, Tok.str.injEq, true_and] at h
      obtain ⟨rfl, h⟩ := h
      obtain ⟨hv, hd, ht⟩ := hu (kx, x) (List.mem_cons_self ..) y _ _ h
      simp only at hv hd
      rw [valF, valF, depthF, depthF, hv, hd]
      rcases tails_eq (by simp) (toksF_start xs) (toksF_start ys) rfl ht with ⟨h1, h2, rfl⟩ | ⟨_, _, hb⟩
      · cases xs with
        | cons z _ => obtain ⟨kz, z⟩ := z; simp [toksF] at h1
        | nil =>
          cases ys with
          | cons z _ => obtain ⟨kz, z⟩ := z; simp [toksF] at h2
          | nil => simp
      · obtain ⟨h1, h2, h3⟩ := ih ys tr tr' r r' (insertKey kx y.val acc) (fun z hz => hu z (List.mem_cons_of_mem _ hz)) hb
        rw [h1, h2]
        exact ⟨rfl, rfl, h3⟩

theorem uniq (x : Syn) : Uniq x := by
  induction x using Syn.ind with
  | hs s =>
    intro y r r' h
    cases y <;> simp_all [Syn.toks, Syn.val, Syn.depth]
  | hl a =>
    intro y r r' h
    cases y <;> simp_all [Syn.toks, Syn.val, Syn.depth]
  | ha xs tr ih =>
    intro y r r' h
    cases y with
    | arr ys tr' =>
      simp only [Syn.toks, List.cons_append, List.cons.injEq, true_and] at h
      obtain ⟨h1, h2, h3⟩ := uniq_elems xs ys tr tr' r r' ih h
      simp only [Syn.val, Syn.depth, h1, h2, h3, and_self]
    | _ => simp [Syn.toks] at h
  | ho xs tr ih =>
    intro y r r' h
    cases y with
    | obj ys tr' =>
      simp only [Syn.toks, List.cons_append, List.cons.injEq, true_and] at h
      obtain ⟨h1, h2, h3⟩ := uniq_fields xs ys tr tr' r r' [] ih h
      simp only [Syn.val, Syn.depth, h1, h2, h3, and_self]
    | _ => simp [Syn.toks] at h

end Verif.Json

namespace Verif.Json.Props

open Verif.Json

/-! ## C37: exactly the documents are accepted, and nothing else has any effect but `EINVAL` -/

/-- For every list of tokens: `cee_json_parsex` without `force_eof` returns the value `v` and stops before
`rest` exactly when the tokens before `rest` are a document (values; arrays of values separated by commas;
objects of `string : value` separated by commas; a trailing comma after the last element) whose containers
are nested at most 511 deep, and `v` is its value (elements in order; of equal keys the last value in the
place of the first). -/
theorem C37_accepts (ts rest : List Tok) (v : Val) :
    (∃ n, parseWith listNext n false ts = .ok (some (.value (some v), rest))) ↔
    ∃ x : Syn, ts = x.toks ++ rest ∧ x.depth ≤ 511 ∧ x.val = v := by
  constructor
  · rintro ⟨n, h⟩
    obtain ⟨r, e1, e2⟩ := Res.bind_eq_ok.1 h
    cases r with
    | none => simp at e2
    | some r =>
      obtain ⟨s, t⟩ := r
      simp only [pfinish, Bool.false_eq_true, ↓reduceIte] at e2
      by_cases hd : s.st = .done
      · simp only [hd, ↓reduceIte, Res.map, Res.ok.injEq, Option.some.injEq, Prod.mk.injEq,
          PResult.value.injEq] at e2
        obtain ⟨e2, rfl⟩ := e2
        obtain ⟨x, hx, hdx, hv⟩ := prun_doc_inv e1 hd
        exact ⟨x, hx, hdx, by rw [hv] at e2; exact Option.some.inj e2⟩
      · simp [Res.map, hd] at e2
  · rintro ⟨x, rfl, hd, rfl⟩
    obtain ⟨key, e⟩ := prun_doc x hd 0 rest
    exact ⟨0 + x.toks.length, by rw [parseWith, e, Res.bind_ok]; simp [Res.map, pfinish]⟩

/-- With `force_eof` the document must be followed by the end of the input. -/
theorem C37_accepts_eof (ts : List Tok) (v : Val) :
    (∃ n rest, parseWith listNext n true ts = .ok (some (.value (some v), rest))) ↔
    ∃ (x : Syn) (rest : List Tok), ts = x.toks ++ rest ∧ (rest = [] ∨ rest.head? = some .eof) ∧ x.depth ≤ 511 ∧
      x.val = v := by
  constructor
  · rintro ⟨n, rest, h⟩
    obtain ⟨r, e1, e2⟩ := Res.bind_eq_ok.1 h
    cases r with
    | none => simp at e2
    | some r =>
      obtain ⟨s, t⟩ := r
      simp only [pfinish, ↓reduceIte] at e2
      by_cases hd : s.st = .done
      · obtain ⟨x, hx, hdx, hv⟩ := prun_doc_inv e1 hd
        refine ⟨x, t, hx, ?_, hdx, ?_⟩
        · cases t with
          | nil => exact .inl rfl
          | cons c t =>
            right
            by_cases hc : c = .eof
            · rw [hc]; rfl
            · simp [Res.map, hd, listNext, hc] at e2
        · cases t with
          | nil => simp [Res.map, hd, listNext, hv] at e2; exact e2.1
          | cons c t =>
            by_cases hc : c = .eof
            · simp [Res.map, hd, listNext, hv, hc] at e2; exact e2.1
            · simp [Res.map, hd, listNext, hc] at e2
      · simp [Res.map, hd] at e2
  · rintro ⟨x, rest, rfl, hr, hd, rfl⟩
    obtain ⟨key, e⟩ := prun_doc x hd 0 rest
    rcases hr with rfl | hr
    · exact ⟨0 + x.toks.length, [], by rw [parseWith, e, Res.bind_ok]; simp [Res.map, pfinish, listNext]⟩
    · cases rest with
      | nil => simp at hr
      | cons c rest =>
        simp only [List.head?_cons, Option.some.injEq] at hr
        subst hr
        exact ⟨0 + x.toks.length, rest, by rw [parseWith, e, Res.bind_ok]; simp [Res.map, pfinish, listNext]⟩

/-- the loop ends after as many tokens as there are, and one more for the end of the input -/
theorem prun_list_total (ts : List Tok) : ∀ s : PSt, PInv s → ∃ r, prun listNext (ts.length + 1) s ts = .ok (some r) := by
  induction ts with
  | nil =>
    intro s hi
    cases hg : s.goes with
    | false => exact ⟨_, prun_stop hg _ _⟩
    | true =>
      obtain ⟨h1, h2, h3, h4⟩ := goes_iff.1 hg
      obtain ⟨s1, e, hi1⟩ := pstep_inv hi h4 h1 .eof
      have he := pstep_eof (.inl rfl) h4 e
      refine ⟨(s1, []), ?_⟩
      rw [List.length_nil, prun_go hg, listNext, Res.bind_ok]
      simp only
      rw [e, Res.bind_ok]
      exact prun_stop (by cases hs : s1.goes with | false => rfl | true => exact absurd he (goes_iff.1 hs).2.2.1) _ _
  | cons c ts ih =>
    intro s hi
    cases hg : s.goes with
    | false => exact ⟨_, prun_stop hg _ _⟩
    | true =>
      obtain ⟨h1, h2, h3, h4⟩ := goes_iff.1 hg
      obtain ⟨s1, e, hi1⟩ := pstep_inv hi h4 h1 c
      obtain ⟨r, hr⟩ := ih s1 hi1
      exact ⟨r, by rw [List.length_cons, prun_tok hg e]; exact hr⟩

/-- Every list of tokens gets an answer (never undefined behaviour, never an endless loop): if it does not
start with a document of depth at most 511 — followed by the end of the input for `force_eof` — the answer is
`EINVAL`. -/
theorem C37_rejects (ts : List Tok) (forceEof : Bool)
    (hno : ∀ (x : Syn) (rest : List Tok), ts = x.toks ++ rest → x.depth ≤ 511 →
      forceEof = true ∧ rest ≠ [] ∧ rest.head? ≠ some .eof) :
    ∃ rest, parseWith listNext (ts.length + 1) forceEof ts = .ok (some (.einval, rest)) := by
  obtain ⟨⟨s, t⟩, h⟩ := prun_list_total ts pinit ⟨_, rfl, rfl⟩
  rw [parseWith, h, Res.bind_ok]
  simp only [pfinish]
  by_cases hd : s.st = .done
  · obtain ⟨x, hx, hdx, hv⟩ := prun_doc_inv h hd
    obtain ⟨rfl, h2, h3⟩ := hno x t hx hdx
    cases t with
    | nil => exact absurd rfl h2
    | cons c t =>
      have : c ≠ .eof := by simpa using h3
      exact ⟨t, by simp [Res.map, hd, listNext, this]⟩
  · exact ⟨t, by simp [Res.map, hd]⟩

/-- A document whose containers are nested deeper than 511 is rejected, whatever follows it. -/
theorem C37_too_deep (x : Syn) (rest : List Tok) (forceEof : Bool) (hd : 511 < x.depth) :
    ∃ rest', parseWith listNext ((x.toks ++ rest).length + 1) forceEof (x.toks ++ rest) =
      .ok (some (.einval, rest')) := by
  refine C37_rejects _ _ fun y r h hy => ?_
  have := (uniq x y rest r h).2.1
  omega

/-- arrays nested `n + 1` deep -/
def synNest : Nat → Syn
  | 0 => .arr [] false
  | n + 1 => .arr [synNest n] false

/-- there are such documents, right above the limit -/
example : (synNest 511).depth = 512 := by
  have h : ∀ n, (synNest n).depth = n + 1 := by
    intro n
    induction n with
    | zero => rfl
    | succ n ih => rw [synNest, Syn.depth, depthL, depthL, ih]; omega
  exact h 511

/-- a document with a repeated key, a nested container and a trailing comma -/
example : ∃ (x : Syn), x.toks = [.lc, .str [97], .colon, .lit (.i64 1), .comma, .str [98], .colon, .lb, .rb, .comma,
      .str [97], .colon, .lit .null, .comma, .rc] ∧ x.depth = 2 ∧
    x.val = .obj [([97], .atom .null), ([98], .arr [])] :=
  ⟨.obj [([97], .lit (.i64 1)), ([98], .arr [] false), ([97], .lit .null)] true, rfl, rfl, rfl⟩

/-- tokens that are rejected: the hypothesis of `C37_rejects` is met by `[1 2]` -/
example (forceEof : Bool) : ∀ (x : Syn) (rest : List Tok),
    [.lb, .lit (.i64 1), .lit (.i64 2), .rb] = x.toks ++ rest → x.depth ≤ 511 →
      forceEof = true ∧ rest ≠ [] ∧ rest.head? ≠ some .eof := by
  intro x rest h hd
  exfalso
  obtain ⟨n, e⟩ := (C37_accepts _ rest x.val).2 ⟨x, h, hd, rfl⟩
  match n with
  | 0 => cases e
  | 1 => cases e
  | 2 => cases e
  | n + 3 =>
    have h2 : parseWith listNext (n + 3) false [.lb, .lit (.i64 1), .lit (.i64 2), .rb] =
      .ok (some (.einval, [.rb])) := by cases n <;> rfl
    rw [h2] at e; cases e

end Verif.Json.Props
