import Verif.Base

/-!
# Linear search and queues (musl-lsearch.c, musl-insque.c) (C48, C72)
-/

namespace Verif.Search

/-! ## musl-lsearch.c

Unlike the functions of POSIX these work on an array of pointers.  A pointer is the number of an object, `none`
is anything that is no pointer to an object (NULL or a cell never written); objects are their bytes.  `compar` is
called with an element and the key. -/

abbrev Byte := UInt8

/-- the loop of both functions (musl-lsearch.c:17-19, 32-34) over the remaining cells and the remaining count -/
def scan (objs : List (List Byte)) (compar : List Byte → List Byte → Int) (key : List Byte) :
    List (Option Nat) → Nat → Res (Option Nat)
  | _, 0 => .ok none
  | [], _ + 1 => .ub
  | none :: _, _ + 1 => .ub
  | some o :: p, n + 1 =>
    match objs[o]? with
    | none => .ub
    | some b => if compar b key = 0 then .ok (some o) else scan objs compar key p n

/-- `musl_lfind` (musl-lsearch.c:25-36) -/
def lfind (objs : List (List Byte)) (compar : List Byte → List Byte → Int) (key : List Byte) (p : List (Option Nat))
    (n : Nat) : Res (Option Nat) := scan objs compar key p n

/-- `memcpy(objects[o], key, width)` -/
def copyTo (objs : List (List Byte)) (o : Nat) (key : List Byte) (width : Nat) : Res (List (List Byte)) :=
  match objs[o]? with
  | none => .ub
  | some b =>
    if b.length < width ∨ key.length < width then .ub
    else .ok (objs.set o (key.take width ++ b.drop width))

/-- `musl_lsearch` (musl-lsearch.c:10-23): the returned pointer, `*nelp` and the objects -/
def lsearch (objs : List (List Byte)) (compar : List Byte → List Byte → Int) (key : List Byte) (p : List (Option Nat))
    (n width : Nat) : Res (Nat × Nat × List (List Byte)) :=
  (scan objs compar key p n).bind fun r =>
  match r with
  | some o => .ok (o, n, objs)
  | none =>
    match p[n]? with
    | some (some o) => (copyTo objs o key width).map fun objs => (o, n + 1, objs)
    | _ => .ub

/-! ## musl-insque.c -/

/-- `struct S(node)` (musl-insque.c:9-12); `none` is NULL -/
structure Node where
  next : Option Nat
  prev : Option Nat
  deriving DecidableEq

/-- the memory: what is at an address -/
abbrev Mem := Nat → Option Node

def Mem.upd (m : Mem) (a : Nat) (n : Node) : Mem := fun x => if x = a then some n else m x

/-- reading `x->next` -/
def rdNext (m : Mem) (x : Nat) : Res (Option Nat) :=
  match m x with
  | none => .ub
  | some n => .ok n.next

/-- reading `x->prev` -/
def rdPrev (m : Mem) (x : Nat) : Res (Option Nat) :=
  match m x with
  | none => .ub
  | some n => .ok n.prev

/-- `x->next = v` -/
def wrNext (m : Mem) (x : Nat) (v : Option Nat) : Res Mem :=
  match m x with
  | none => .ub
  | some n => .ok (m.upd x { n with next := v })

/-- `x->prev = v` -/
def wrPrev (m : Mem) (x : Nat) (v : Option Nat) : Res Mem :=
  match m x with
  | none => .ub
  | some n => .ok (m.upd x { n with prev := v })

/-- `musl_insque` (musl-insque.c:14-28) -/
def insque (m : Mem) (e : Nat) (pred : Option Nat) : Res Mem :=
  match pred with
  | none => (wrPrev m e none).bind fun m => wrNext m e none
  | some p =>
    (rdNext m p).bind fun pn =>
    (wrNext m e pn).bind fun m =>
    (wrPrev m e (some p)).bind fun m =>
    (wrNext m p (some e)).bind fun m =>
    (rdNext m e).bind fun en =>
    match en with
    | none => .ok m
    | some x => wrPrev m x (some e)

/-- `musl_remque` (musl-insque.c:30-38) -/
def remque (m : Mem) (e : Nat) : Res Mem :=
  (rdNext m e).bind fun en =>
  (match en with
    | none => Res.ok m
    | some x => (rdPrev m e).bind fun ep => wrPrev m x ep).bind fun m =>
  (rdPrev m e).bind fun ep =>
  match ep with
  | none => .ok m
  | some y => (rdNext m e).bind fun en => wrNext m y en

end Verif.Search

namespace Verif.Search

/-! ## Lemmas -/

theorem scan_spec (objs : List (List Byte)) (compar : List Byte → List Byte → Int) (key : List Byte)
    (arr : List Nat) (h : ∀ o ∈ arr, o < objs.length) (rest : List (Option Nat)) :
    scan objs compar key (arr.map some ++ rest) arr.length =
      .ok (arr.find? fun o => decide (compar (objs[o]?.getD []) key = 0)) := by
  induction arr with
  | nil => simp [scan]
  | cons o arr ih =>
    have ho : o < objs.length := h o (by simp)
    simp only [List.map_cons, List.cons_append, List.length_cons, scan, List.getElem?_eq_getElem ho, List.find?_cons,
      Option.getD_some]
    by_cases hc : compar objs[o] key = 0
    · simp [hc]
    · simp only [hc, if_false, decide_false, ih (fun o h' => h o (by simp [h']))]

/-! ### Lists of nodes -/

/-- `l` is linked: the node before the first is `prev`, the last has no next -/
def LinkedFrom (m : Mem) (prev : Option Nat) : List Nat → Prop
  | [] => True
  | x :: l => m x = some ⟨l.head?, prev⟩ ∧ LinkedFrom m (some x) l

/-- `l` is a list linked in both directions with different nodes -/
def Linked (m : Mem) (l : List Nat) : Prop := l.Nodup ∧ LinkedFrom m none l

theorem LinkedFrom.congr {m m' : Mem} {l : List Nat} (h : ∀ x ∈ l, m' x = m x) : ∀ {prev}, LinkedFrom m prev l →
    LinkedFrom m' prev l := by
  induction l with
  | nil => intro _ _; trivial
  | cons x l ih =>
    intro prev hl
    exact ⟨by rw [h x (by simp)]; exact hl.1, ih (fun y hy => h y (by simp [hy])) hl.2⟩

@[simp] theorem upd_apply (m : Mem) (a : Nat) (n : Node) (x : Nat) : m.upd a n x = if x = a then some n else m x := rfl

/-- what `insque` does to every node -/
theorem insque_eq {m : Mem} {e p : Nat} {ne np : Node} (he : m e = some ne) (hp : m p = some np) (hep : e ≠ p)
    (hx : ∀ x, np.next = some x → x ≠ e ∧ ∃ nx, m x = some nx) :
    insque m e (some p) = .ok fun z => if z = e then some ⟨np.next, some p⟩ else
      (m z).map fun n => ⟨if z = p then some e else n.next, if np.next = some z then some e else n.prev⟩ := by
  have hpe : p ≠ e := fun h => hep h.symm
  simp only [insque, rdNext, hp, Res.bind_ok, wrNext, he, wrPrev, upd_apply, if_true, hpe, if_false, hep]
  cases hn : np.next with
  | none =>
    simp only [Res.ok.injEq]
    funext z
    by_cases h1 : z = e
    · subst h1; simp [hep]
    · by_cases h2 : z = p
      · subst h2; simp [h1, hp]
      · simp [h1, h2]
  | some x =>
    obtain ⟨hxe, nx, hx⟩ := hx x hn
    by_cases hxp : x = p
    · subst hxp
      simp only [if_true, Res.ok.injEq]
      funext z
      by_cases h1 : z = e
      · subst h1; simp [hep]
      · by_cases h2 : z = x
        · subst h2; simp [h1, hp]
        · have h3 : x ≠ z := fun h => h2 h.symm
          simp [h1, h2, h3]
    · simp only [hxp, hxe, if_false, hx, Res.ok.injEq]
      funext z
      by_cases h1 : z = e
      · have h2 : e ≠ x := fun h => hxe h.symm
        subst h1; simp [hep, h2]
      · by_cases h2 : z = p
        · have h3 : p ≠ x := fun h => hxp h.symm
          subst h2; simp [h1, hp, hxp, h3]
        · by_cases h3 : z = x
          · subst h3; simp [h1, h2, hx]
          · have h4 : x ≠ z := fun h => h3 h.symm
            simp [h1, h2, h3, h4]

/-- what `remque` does to every node -/
theorem remque_eq {m : Mem} {e : Nat} {ne : Node} (he : m e = some ne)
    (hn : ∀ x, ne.next = some x → ∃ nx, m x = some nx) (hp : ∀ y, ne.prev = some y → ∃ ny, m y = some ny) :
    remque m e = .ok fun z => (m z).map fun n =>
      ⟨if ne.prev = some z then ne.next else n.next, if ne.next = some z then ne.prev else n.prev⟩ := by
  obtain ⟨nn, npv⟩ := ne
  simp only [remque, rdNext, rdPrev, wrNext, wrPrev, he, Res.bind_ok]
  cases nn with
  | none =>
    simp only [he, Res.bind_ok]
    cases npv with
    | none => simp
    | some y =>
      obtain ⟨ny, hy⟩ := hp y rfl
      simp only [hy, upd_apply, Res.ok.injEq]
      funext z
      by_cases h : z = y
      · subst h; simp [hy]
      · have h' : y ≠ z := fun h' => h h'.symm
        simp [h, h']
  | some x =>
    obtain ⟨nx, hx⟩ := hn x rfl
    simp only [hx, upd_apply, Res.bind_ok]
    by_cases hex : e = x
    · subst hex
      rw [he, Option.some.injEq] at hx; subst hx
      simp only [if_true, Res.bind_ok]
      cases npv with
      | none =>
        simp only [Res.ok.injEq]
        funext z
        by_cases h : z = e
        · subst h; simp [he]
        · have h' : e ≠ z := fun h' => h h'.symm
          simp [h, h']
      | some y =>
        obtain ⟨ny, hy⟩ := hp y rfl
        by_cases hye : y = e
        · subst hye
          simp only [if_true, Res.ok.injEq]
          funext z
          by_cases h : z = y
          · subst h; simp [he]
          · have h' : y ≠ z := fun h' => h h'.symm
            simp [h, h']
        · simp only [hye, if_false, hy, Res.ok.injEq]
          funext z
          by_cases h : z = y
          · have hey : e ≠ y := fun h' => hye h'.symm
            subst h; simp [hy, hey]
          · have h' : y ≠ z := fun h' => h h'.symm
            by_cases h2 : z = e
            · subst h2; simp [h, h', he]
            · have h2' : e ≠ z := fun h' => h2 h'.symm
              simp [h, h', h2, h2']
    · simp only [hex, if_false, he, Res.bind_ok]
      cases npv with
      | none =>
        simp only [Res.ok.injEq]
        funext z
        by_cases h : z = x
        · subst h; simp [hx]
        · have h' : x ≠ z := fun h' => h h'.symm
          simp [h, h']
      | some y =>
        obtain ⟨ny, hy⟩ := hp y rfl
        by_cases hyx : y = x
        · subst hyx
          simp only [if_true, Res.ok.injEq]
          funext z
          by_cases h : z = y
          · subst h; simp [hx]
          · have h' : y ≠ z := fun h' => h h'.symm
            simp [h, h']
        · simp only [hyx, if_false, hy, Res.ok.injEq]
          funext z
          by_cases h : z = y
          · have hxy : x ≠ y := fun h' => hyx h'.symm
            subst h; simp [hy, hxy]
          · have h' : y ≠ z := fun h' => h h'.symm
            by_cases h2 : z = x
            · subst h2; simp [h, h', hx]
            · have h2' : x ≠ z := fun h' => h2 h'.symm
              simp [h, h', h2, h2']

theorem LinkedFrom.node {m : Mem} {l : List Nat} : ∀ {prev}, LinkedFrom m prev l → ∀ x ∈ l, ∃ n, m x = some n := by
  induction l with
  | nil => intro _ _ x hx; simp at hx
  | cons y l ih =>
    intro prev h x hx
    rcases List.mem_cons.1 hx with rfl | hx
    · exact ⟨_, h.1⟩
    · exact ih h.2 x hx

/-- the node at a place of a list -/
theorem LinkedFrom.at {m : Mem} {p : Nat} {b : List Nat} (a : List Nat) : ∀ {prev}, LinkedFrom m prev (a ++ p :: b) →
    m p = some ⟨b.head?, if a = [] then prev else a.getLast?⟩ := by
  induction a with
  | nil => intro prev h; exact h.1
  | cons x a ih =>
    intro prev h
    rw [ih h.2]
    cases a <;> simp

/-- the list after `insque` -/
theorem LinkedFrom.insert {m m' : Mem} {e p : Nat} {b : List Nat} (hpe : p ≠ e)
    (hm : ∀ z, m' z = if z = e then some ⟨b.head?, some p⟩ else
      (m z).map fun n => ⟨if z = p then some e else n.next, if b.head? = some z then some e else n.prev⟩)
    (a : List Nat) : ∀ {prev}, LinkedFrom m prev (a ++ p :: b) → (a ++ p :: b).Nodup → e ∉ a ++ p :: b →
      LinkedFrom m' prev (a ++ p :: e :: b) := by
  have hb : ∀ x, b.head? = some x → x ∈ b := fun x hx => List.mem_of_mem_head? hx
  induction a with
  | nil =>
    intro prev hl hnd he
    have hnd' := List.nodup_cons.1 hnd
    refine ⟨?_, by rw [hm, if_pos rfl], ?_⟩
    · have : b.head? ≠ some p := fun h => hnd'.1 (hb p h)
      rw [hm, if_neg hpe, hl.1]
      simp [this]
    · cases b with
      | nil => trivial
      | cons y b =>
        have hye : y ≠ e := fun h => he (by simp [h])
        have hyp : y ≠ p := fun h => hnd'.1 (by simp [h])
        refine ⟨by rw [hm, if_neg hye, hl.2.1]; simp [hyp], ?_⟩
        refine LinkedFrom.congr ?_ hl.2.2
        intro x hx
        have hxe : x ≠ e := fun h => he (by subst h; simp [hx])
        have hxp : x ≠ p := fun h => hnd'.1 (by subst h; simp [hx])
        have hxy : y ≠ x := fun h => (List.nodup_cons.1 hnd'.2).1 (by subst h; exact hx)
        rw [hm]
        simp only [hxe, hxp, List.head?_cons, Option.some.injEq, hxy, if_false]
        cases m x <;> rfl
  | cons x a ih =>
    intro prev hl hnd he
    have hnd' := List.nodup_cons.1 (by simpa using hnd : (x :: (a ++ p :: b)).Nodup)
    have hxe : x ≠ e := fun h => he (by simp [h])
    have hxp : x ≠ p := fun h => hnd'.1 (by simp [h])
    have hxb : b.head? ≠ some x := fun h => hnd'.1 (by have := hb x h; simp [this])
    refine ⟨?_, ih hl.2 hnd'.2 (fun h => he (List.mem_cons_of_mem _ h))⟩
    rw [hm, if_neg hxe, hl.1]
    simp only [Option.map_some, hxp, hxb, if_false]
    cases a <;> rfl

/-- the list after `remque` -/
theorem LinkedFrom.erase {m m' : Mem} {e : Nat} {b : List Nat} {q : Option Nat}
    (hm : ∀ z, m' z = (m z).map fun n => ⟨if q = some z then b.head? else n.next, if b.head? = some z then q else n.prev⟩)
    (a : List Nat) : ∀ {prev}, q = (if a = [] then prev else a.getLast?) → (∀ z, prev = some z → z ∉ a ++ e :: b) →
      LinkedFrom m prev (a ++ e :: b) → (a ++ e :: b).Nodup → LinkedFrom m' prev (a ++ b) := by
  have hb : ∀ x, b.head? = some x → x ∈ b := fun x hx => List.mem_of_mem_head? hx
  induction a with
  | nil =>
    intro prev hq hp hl hnd
    simp only [if_true] at hq
    subst hq
    cases b with
    | nil => trivial
    | cons y b =>
      have hnd' := (List.nodup_cons.1 (List.nodup_cons.1 hnd).2)
      have hqy : q ≠ some y := fun h => hp y h (by simp)
      refine ⟨by rw [hm, hl.2.1]; simp [hqy], LinkedFrom.congr ?_ hl.2.2⟩
      intro x hx
      have hqx : q ≠ some x := fun h => hp x h (by simp [hx])
      have hxy : y ≠ x := fun h => hnd'.1 (by subst h; exact hx)
      rw [hm]
      simp only [hqx, List.head?_cons, Option.some.injEq, hxy, if_false]
      cases m x <;> rfl
  | cons x a ih =>
    intro prev hq hp hl hnd
    have hnd' := List.nodup_cons.1 (by simpa using hnd : (x :: (a ++ e :: b)).Nodup)
    have hxb : b.head? ≠ some x := fun h => hnd'.1 (by have := hb x h; simp [this])
    refine ⟨?_, ih ?_ ?_ hl.2 hnd'.2⟩
    · rw [hm, hl.1]
      cases a with
      | nil =>
        have hqx : q = some x := by simpa using hq
        simp [hqx, hxb]
      | cons y a =>
        have hqx : q ≠ some x := by
          intro h
          have h2 : (y :: a).getLast? = some x := by rw [← h, hq]; simp
          exact hnd'.1 (by have := List.mem_of_getLast? h2; rw [List.mem_append]; exact .inl this)
        simp [hqx, hxb]
    · rw [hq]; cases a <;> simp
    · intro z hz; simp only [Option.some.injEq] at hz; subst hz; exact hnd'.1

end Verif.Search

namespace Verif.Search.Props

/-! ## Linear search -/

/-- **C48** (`musl_lfind`): the first of the elements that compares equal, NULL if there is none; only the first
`n` cells are looked at -/
theorem C48_lfind (objs : List (List Byte)) (compar : List Byte → List Byte → Int) (key : List Byte)
    (arr : List Nat) (h : ∀ o ∈ arr, o < objs.length) (rest : List (Option Nat)) :
    ∃ r, lfind objs compar key (arr.map some ++ rest) arr.length = .ok r ∧
      (∀ o, r = some o ↔ ∃ pre post, arr = pre ++ o :: post ∧ (∃ b, objs[o]? = some b ∧ compar b key = 0) ∧
        ∀ o' ∈ pre, ∃ b, objs[o']? = some b ∧ compar b key ≠ 0) ∧
      (r = none ↔ ∀ o ∈ arr, ∃ b, objs[o]? = some b ∧ compar b key ≠ 0) := by
  have val : ∀ o ∈ arr, ∃ b, objs[o]? = some b := fun o ho => ⟨_, List.getElem?_eq_getElem (h o ho)⟩
  refine ⟨_, scan_spec objs compar key arr h rest, fun o => ?_, ?_⟩
  · rw [List.find?_eq_some_iff_append]
    constructor
    · rintro ⟨h1, pre, post, rfl, h2⟩
      obtain ⟨b, hb⟩ := val o (by simp)
      refine ⟨pre, post, rfl, ⟨b, hb, by simpa [hb] using h1⟩, fun o' ho' => ?_⟩
      obtain ⟨b', hb'⟩ := val o' (by simp [ho'])
      exact ⟨b', hb', by simpa [hb'] using h2 o' ho'⟩
    · rintro ⟨pre, post, rfl, ⟨b, hb, hc⟩, h2⟩
      refine ⟨by simp [hb, hc], pre, post, rfl, fun o' ho' => ?_⟩
      obtain ⟨b', hb', hc'⟩ := h2 o' ho'
      simp [hb', hc']
  · rw [List.find?_eq_none]
    constructor
    · intro hn o ho
      obtain ⟨b, hb⟩ := val o ho
      exact ⟨b, hb, by simpa [hb] using hn o ho⟩
    · intro hn o ho
      obtain ⟨b, hb, hc⟩ := hn o ho
      simp [hb, hc]

/-- **C48** (`musl_lsearch`, present): the first equal element is returned and nothing is changed -/
theorem C48_lsearch_found (objs : List (List Byte)) (compar : List Byte → List Byte → Int) (key : List Byte)
    (pre post : List Nat) (o : Nat) (h : ∀ x ∈ pre ++ o :: post, x < objs.length) (b : List Byte)
    (hb : objs[o]? = some b) (hc : compar b key = 0)
    (hpre : ∀ x ∈ pre, ∃ b, objs[x]? = some b ∧ compar b key ≠ 0) (rest : List (Option Nat)) (width : Nat) :
    lsearch objs compar key ((pre ++ o :: post).map some ++ rest) (pre ++ o :: post).length width =
      .ok (o, (pre ++ o :: post).length, objs) := by
  obtain ⟨r, h1, h2, -⟩ := C48_lfind objs compar key (pre ++ o :: post) h rest
  have : r = some o := (h2 o).2 ⟨pre, post, rfl, ⟨b, hb, hc⟩, hpre⟩
  subst this
  rw [lsearch, show scan _ _ _ _ _ = _ from h1, Res.bind_ok]

/-- **C48 is false** for `musl_lsearch`: an absent key is not put into the array but copied to where the next
cell, which nothing has set, points. -/
theorem C48_lsearch_false (objs : List (List Byte)) (compar : List Byte → List Byte → Int) (key : List Byte)
    (arr : List Nat) (h : ∀ o ∈ arr, o < objs.length) (hn : ∀ o ∈ arr, ∃ b, objs[o]? = some b ∧ compar b key ≠ 0)
    (spare : Nat) (width : Nat) :
    lsearch objs compar key (arr.map some ++ List.replicate spare none) arr.length width = .ub := by
  obtain ⟨r, h1, -, h2⟩ := C48_lfind objs compar key arr h (List.replicate spare none)
  rw [lsearch, show scan _ _ _ _ _ = _ from h1, h2.2 hn, Res.bind_ok]
  simp only
  rw [List.getElem?_append_right (by simp), List.length_map, Nat.sub_self]
  cases spare with
  | zero => rfl
  | succ n => simp [List.replicate_succ]

/-- the part that holds when the key is absent: if the next cell points to a further object with room, that
becomes the last element, with the bytes of the key; all other objects are unchanged -/
theorem C48_lsearch_partial (objs : List (List Byte)) (compar : List Byte → List Byte → Int) (key : List Byte)
    (arr : List Nat) (h : ∀ o ∈ arr, o < objs.length) (hn : ∀ o ∈ arr, ∃ b, objs[o]? = some b ∧ compar b key ≠ 0)
    (o : Nat) (rest : List (Option Nat)) (b : List Byte) (hb : objs[o]? = some b) (width : Nat)
    (hw : width ≤ b.length) (hk : width ≤ key.length) :
    ∃ objs', lsearch objs compar key (arr.map some ++ some o :: rest) arr.length width =
        .ok (o, arr.length + 1, objs') ∧
      objs'[o]? = some (key.take width ++ b.drop width) ∧ ∀ x, x ≠ o → objs'[x]? = objs[x]? := by
  obtain ⟨r, h1, -, h2⟩ := C48_lfind objs compar key arr h (some o :: rest)
  have hlen : o < objs.length := by
    by_cases hl : o < objs.length
    · exact hl
    · rw [List.getElem?_eq_none (by omega)] at hb; simp at hb
  refine ⟨objs.set o (key.take width ++ b.drop width), ?_, by simp [hlen], fun x hx => ?_⟩
  · rw [lsearch, show scan _ _ _ _ _ = _ from h1, h2.2 hn, Res.bind_ok]
    simp only
    rw [List.getElem?_append_right (by simp), List.length_map, Nat.sub_self]
    simp only [List.getElem?_cons_zero, copyTo, hb]
    rw [if_neg (by omega), Res.map_ok']
  · rw [List.getElem?_set_ne (fun h => hx h.symm)]

/-- three objects; the array has the first two, the third is spare -/
example : let c : List Byte → List Byte → Int := fun a b => if a = b then 0 else 1
    lfind [[1], [2], [9]] c [2] [some 0, some 1, some 2] 2 = .ok (some 1) ∧
    lfind [[1], [2], [9]] c [9] [some 0, some 1, some 2] 2 = .ok none ∧
    lsearch [[1], [2], [9]] c [3] [some 0, some 1, some 2] 2 1 = .ok (2, 3, [[1], [2], [3]]) ∧
    lsearch [[1], [2], [9]] c [3] [some 0, some 1, none] 2 1 = .ub := by
  refine ⟨?_, ?_, ?_, ?_⟩ <;> decide

/-! ## Queues -/

/-- every pointer of a node in `S` leads to a node of `S`, and next and prev are inverse to each other -/
structure Consistent (m : Mem) (S : Nat → Prop) : Prop where
  next : ∀ x, S x → ∃ n, m x = some n ∧ ∀ y, n.next = some y → S y ∧ ∃ n', m y = some n' ∧ n'.prev = some x
  prev : ∀ x, S x → ∃ n, m x = some n ∧ ∀ y, n.prev = some y → S y ∧ ∃ n', m y = some n' ∧ n'.next = some x

/-- **C48** (`musl_insque`): in any consistent structure (straight lists and rings alike) the new node stands
between `p` and what followed `p`; the structure stays consistent and nothing else is changed -/
theorem C48_insque (m : Mem) (S : Nat → Prop) (hc : Consistent m S) (e p : Nat) (hp : S p) (he : ¬ S e) (ne np : Node)
    (hne : m e = some ne) (hnp : m p = some np) :
    ∃ m', insque m e (some p) = .ok m' ∧ Consistent m' (fun x => x = e ∨ S x) ∧
      m' e = some ⟨np.next, some p⟩ ∧
      (∀ x n, S x → m x = some n → ∃ n', m' x = some n' ∧ (n'.next = if x = p then some e else n.next) ∧
        (n'.prev = if np.next = some x then some e else n.prev)) ∧
      ∀ x, x ≠ e → ¬ S x → m' x = m x := by
  have hpe : e ≠ p := fun h => he (h ▸ hp)
  have hnx : ∀ x, np.next = some x → S x ∧ ∃ n', m x = some n' ∧ n'.prev = some p := by
    obtain ⟨n, h1, h2⟩ := hc.next p hp
    rw [hnp, Option.some.injEq] at h1; subst h1; exact h2
  have step := insque_eq hne hnp hpe (fun x hx => ⟨fun h => he (h ▸ (hnx x hx).1), by
    obtain ⟨-, n', h, -⟩ := hnx x hx; exact ⟨n', h⟩⟩)
  have ne_of : ∀ {x}, S x → x ≠ e := fun hx h => he (h ▸ hx)
  refine ⟨_, step, ⟨?_, ?_⟩, by simp, ?_, ?_⟩
  · intro x hx
    rcases hx with rfl | hx
    · refine ⟨_, if_pos rfl, fun y hy => ?_⟩
      obtain ⟨h1, n', h2, h3⟩ := hnx y hy
      refine ⟨.inr h1, _, by rw [if_neg (ne_of h1), h2]; rfl, by simp only at hy; simp [hy]⟩
    · obtain ⟨n, h1, h2⟩ := hc.next x hx
      refine ⟨_, by rw [if_neg (ne_of hx), h1]; rfl, fun y hy => ?_⟩
      by_cases hxp : x = p
      · subst hxp
        simp only [if_true, Option.some.injEq] at hy
        subst hy
        exact ⟨.inl rfl, _, if_pos rfl, rfl⟩
      · simp only [hxp, if_false] at hy
        obtain ⟨hy1, n', hy2, hy3⟩ := h2 y hy
        refine ⟨.inr hy1, _, by rw [if_neg (ne_of hy1), hy2]; rfl, ?_⟩
        have : np.next ≠ some y := by
          intro h
          obtain ⟨-, n2, h4, h5⟩ := hnx y h
          rw [hy2, Option.some.injEq] at h4; subst h4
          rw [hy3, Option.some.injEq] at h5; exact hxp h5
        simp [this, hy3]
  · intro x hx
    rcases hx with rfl | hx
    · refine ⟨_, if_pos rfl, fun y hy => ?_⟩
      simp only [Option.some.injEq] at hy; subst hy
      refine ⟨.inr hp, _, by rw [if_neg (ne_of hp), hnp]; rfl, by simp⟩
    · obtain ⟨n, h1, h2⟩ := hc.prev x hx
      refine ⟨_, by rw [if_neg (ne_of hx), h1]; rfl, fun y hy => ?_⟩
      by_cases hxp : np.next = some x
      · simp only [hxp, if_true, Option.some.injEq] at hy
        subst hy
        exact ⟨.inl rfl, _, if_pos rfl, hxp⟩
      · simp only [hxp, if_false] at hy
        obtain ⟨hy1, n', hy2, hy3⟩ := h2 y hy
        refine ⟨.inr hy1, _, by rw [if_neg (ne_of hy1), hy2]; rfl, ?_⟩
        have : y ≠ p := by
          intro h; subst h
          rw [hnp, Option.some.injEq] at hy2; subst hy2
          exact hxp hy3
        simp [this, hy3]
  · intro x n hx h1
    exact ⟨_, by rw [if_neg (ne_of hx), h1]; rfl, rfl, rfl⟩
  · intro x hx hs
    have h1 : x ≠ p := fun h => hs (h ▸ hp)
    have h2 : np.next ≠ some x := fun h => hs (hnx x h).1
    simp only [hx, h1, h2, if_false]
    cases m x <;> rfl

/-- **C48** (`musl_insque` without predecessor): the node stands alone -/
theorem C48_insque_null (m : Mem) (e : Nat) (ne : Node) (hne : m e = some ne) :
    ∃ m', insque m e none = .ok m' ∧ m' e = some ⟨none, none⟩ ∧ ∀ x, x ≠ e → m' x = m x := by
  refine ⟨(m.upd e ⟨ne.next, none⟩).upd e ⟨none, none⟩, by simp [insque, wrPrev, wrNext, hne, Res.bind], by simp, ?_⟩
  intro x hx; simp [hx]

/-- **C48** (`musl_remque`): the neighbours of the node are joined, the rest stays consistent, and nothing else
is changed -/
theorem C48_remque (m : Mem) (S : Nat → Prop) (hc : Consistent m S) (e : Nat) (he : S e) (ne : Node)
    (hne : m e = some ne) :
    ∃ m', remque m e = .ok m' ∧ Consistent m' (fun x => x ≠ e ∧ S x) ∧
      (∀ x n, S x → x ≠ e → m x = some n → ∃ n', m' x = some n' ∧
        (n'.next = if n.next = some e then ne.next else n.next) ∧
        (n'.prev = if n.prev = some e then ne.prev else n.prev)) ∧
      ∀ x, ¬ S x → m' x = m x := by
  have hnx : ∀ x, ne.next = some x → S x ∧ ∃ n', m x = some n' ∧ n'.prev = some e := by
    obtain ⟨n, h1, h2⟩ := hc.next e he
    rw [hne, Option.some.injEq] at h1; subst h1; exact h2
  have hpv : ∀ x, ne.prev = some x → S x ∧ ∃ n', m x = some n' ∧ n'.next = some e := by
    obtain ⟨n, h1, h2⟩ := hc.prev e he
    rw [hne, Option.some.injEq] at h1; subst h1; exact h2
  have n_iff : ∀ x n, S x → m x = some n → (n.next = some e ↔ ne.prev = some x) := by
    intro x n hx hm
    constructor
    · intro h
      obtain ⟨n1, h1, h2⟩ := hc.next x hx
      rw [hm, Option.some.injEq] at h1; subst h1
      obtain ⟨-, n', h3, h4⟩ := h2 e h
      rw [hne, Option.some.injEq] at h3; subst h3; exact h4
    · intro h
      obtain ⟨-, n', h3, h4⟩ := hpv x h
      rw [hm, Option.some.injEq] at h3; subst h3; exact h4
  have p_iff : ∀ x n, S x → m x = some n → (n.prev = some e ↔ ne.next = some x) := by
    intro x n hx hm
    constructor
    · intro h
      obtain ⟨n1, h1, h2⟩ := hc.prev x hx
      rw [hm, Option.some.injEq] at h1; subst h1
      obtain ⟨-, n', h3, h4⟩ := h2 e h
      rw [hne, Option.some.injEq] at h3; subst h3; exact h4
    · intro h
      obtain ⟨-, n', h3, h4⟩ := hnx x h
      rw [hm, Option.some.injEq] at h3; subst h3; exact h4
  have step := remque_eq hne (fun x hx => by obtain ⟨-, n', h, -⟩ := hnx x hx; exact ⟨n', h⟩)
    (fun x hx => by obtain ⟨-, n', h, -⟩ := hpv x hx; exact ⟨n', h⟩)
  refine ⟨_, step, ⟨?_, ?_⟩, ?_, ?_⟩
  · rintro x ⟨hxe, hx⟩
    obtain ⟨n, h1, h2⟩ := hc.next x hx
    refine ⟨_, by rw [h1]; rfl, fun y hy => ?_⟩
    by_cases hpx : ne.prev = some x
    · simp only [hpx, if_true] at hy
      obtain ⟨hy1, n', hy2, hy3⟩ := hnx y hy
      refine ⟨⟨?_, hy1⟩, _, by rw [hy2]; rfl, by simp [hy, hpx]⟩
      rintro rfl
      rw [hne, Option.some.injEq] at hy2; subst hy2
      rw [hpx, Option.some.injEq] at hy3; exact hxe hy3
    · simp only [hpx, if_false] at hy
      obtain ⟨hy1, n', hy2, hy3⟩ := h2 y hy
      have hye : y ≠ e := by rintro rfl; exact hpx ((n_iff x n hx h1).1 hy)
      refine ⟨⟨hye, hy1⟩, _, by rw [hy2]; rfl, ?_⟩
      have : ne.next ≠ some y := by
        intro h
        have := (p_iff y n' hy1 hy2).2 h
        rw [hy3, Option.some.injEq] at this; exact hxe this
      simp [this, hy3]
  · rintro x ⟨hxe, hx⟩
    obtain ⟨n, h1, h2⟩ := hc.prev x hx
    refine ⟨_, by rw [h1]; rfl, fun y hy => ?_⟩
    by_cases hnx' : ne.next = some x
    · simp only [hnx', if_true] at hy
      obtain ⟨hy1, n', hy2, hy3⟩ := hpv y hy
      refine ⟨⟨?_, hy1⟩, _, by rw [hy2]; rfl, by simp [hy, hnx']⟩
      rintro rfl
      rw [hne, Option.some.injEq] at hy2; subst hy2
      rw [hnx', Option.some.injEq] at hy3; exact hxe hy3
    · simp only [hnx', if_false] at hy
      obtain ⟨hy1, n', hy2, hy3⟩ := h2 y hy
      have hye : y ≠ e := by rintro rfl; exact hnx' ((p_iff x n hx h1).1 hy)
      refine ⟨⟨hye, hy1⟩, _, by rw [hy2]; rfl, ?_⟩
      have : ne.prev ≠ some y := by
        intro h
        have := (n_iff y n' hy1 hy2).2 h
        rw [hy3, Option.some.injEq] at this; exact hxe this
      simp [this, hy3]
  · intro x n hx hxe h1
    refine ⟨_, by rw [h1]; rfl, ?_, ?_⟩
    · simp only [n_iff x n hx h1]
    · simp only [p_iff x n hx h1]
  · intro x hs
    have h1 : ne.prev ≠ some x := fun h => hs (hpv x h).1
    have h2 : ne.next ≠ some x := fun h => hs (hnx x h).1
    simp only [h1, h2, if_false]
    cases m x <;> rfl

/-- a ring of two nodes, and a third node whose fields were never set to anything meaningful -/
def ring : Mem := fun x => if x = 1 then some ⟨some 2, some 2⟩ else if x = 2 then some ⟨some 1, some 1⟩
  else if x = 3 then some ⟨some 77, some 78⟩ else none

theorem ring_ok : Consistent ring (fun x => x = 1 ∨ x = 2) := by
  constructor <;> rintro x (rfl | rfl) <;> refine ⟨_, rfl, ?_⟩ <;> intro y hy <;> simp at hy <;> subst hy <;>
    simp [ring]

example : ∃ m', insque ring 3 (some 1) = .ok m' ∧ m' 1 = some ⟨some 3, some 2⟩ ∧ m' 3 = some ⟨some 2, some 1⟩ ∧
    m' 2 = some ⟨some 1, some 3⟩ ∧ ∃ m'', remque m' 3 = .ok m'' ∧ m'' 1 = ring 1 ∧ m'' 2 = ring 2 := by
  obtain ⟨m', h, hc, he, hx, -⟩ := C48_insque ring _ ring_ok 3 1 (.inl rfl) (by decide) _ _ rfl rfl
  obtain ⟨⟨a, b⟩, h1, h2, h3⟩ := hx 1 _ (.inl rfl) rfl
  obtain ⟨⟨c, d⟩, h4, h5, h6⟩ := hx 2 _ (.inr rfl) rfl
  simp at h2 h3 h5 h6
  subst h2 h3 h5 h6
  obtain ⟨m'', k, -, kx, -⟩ := C48_remque m' _ hc 3 (.inl rfl) _ he
  obtain ⟨⟨a, b⟩, k1, k2, k3⟩ := kx 1 _ (.inr (.inl rfl)) (by decide) h1
  obtain ⟨⟨c, d⟩, k4, k5, k6⟩ := kx 2 _ (.inr (.inr rfl)) (by decide) h4
  simp at k2 k3 k5 k6
  subst k2 k3 k5 k6
  exact ⟨m', h, h1, he, h4, m'', k, k1, k4⟩

/-- **C48** on straight lists: the new element stands behind `p` -/
theorem C48_insque_list (m : Mem) (a b : List Nat) (p e : Nat) (hl : Linked m (a ++ p :: b)) (he : e ∉ a ++ p :: b)
    (ne : Node) (hne : m e = some ne) :
    ∃ m', insque m e (some p) = .ok m' ∧ Linked m' (a ++ p :: e :: b) ∧ ∀ x, x ∉ a ++ p :: e :: b → m' x = m x := by
  have hp := hl.2.at a
  have hnd := hl.1
  have hpe : e ≠ p := fun h => he (by simp [h])
  have hb : ∀ x, b.head? = some x → x ∈ b := fun x hx => List.mem_of_mem_head? hx
  have step := insque_eq hne hp hpe (fun x hx => by
    have hxb := hb x hx
    exact ⟨fun h => he (by subst h; simp [hxb]), hl.2.node x (by simp [hxb])⟩)
  refine ⟨_, step, ⟨?_, LinkedFrom.insert (fun h => hpe h.symm) (fun _ => rfl) a hl.2 hnd he⟩, ?_⟩
  · rw [List.nodup_append] at hnd ⊢
    simp only [List.nodup_cons, List.mem_append, List.mem_cons, not_or] at hnd he ⊢
    obtain ⟨h1, ⟨h2, h3⟩, h4⟩ := hnd
    refine ⟨h1, ⟨⟨fun h => hpe h.symm, h2⟩, he.2.2, h3⟩, ?_⟩
    rintro x hx y (rfl | rfl | hy)
    · exact h4 x hx _ (.inl rfl)
    · rintro rfl; exact he.1 hx
    · exact h4 x hx _ (.inr hy)
  · intro x hx
    have h1 : x ≠ e := fun h => hx (by simp [h])
    have h2 : x ≠ p := fun h => hx (by simp [h])
    have h3 : b.head? ≠ some x := fun h => hx (by have := hb x h; simp [this])
    simp only [h1, h2, h3, if_false]
    cases m x <;> rfl

/-- **C48** on straight lists: the element is taken out -/
theorem C48_remque_list (m : Mem) (a b : List Nat) (e : Nat) (hl : Linked m (a ++ e :: b)) :
    ∃ m', remque m e = .ok m' ∧ Linked m' (a ++ b) ∧ ∀ x, x ∉ a ++ b → m' x = m x := by
  have he := hl.2.at a
  have hb : ∀ x, b.head? = some x → x ∈ b := fun x hx => List.mem_of_mem_head? hx
  have hqa : ∀ y, (if a = [] then none else a.getLast?) = some y → y ∈ a := fun y hy => by
    split at hy
    · simp at hy
    · exact List.mem_of_getLast? hy
  have step := remque_eq he (fun x hx => hl.2.node x (by simp [hb x hx])) (fun y hy => hl.2.node y (by simp [hqa y hy]))
  refine ⟨_, step, ⟨?_, LinkedFrom.erase (fun _ => rfl) a rfl (by simp) hl.2 hl.1⟩, ?_⟩
  · exact hl.1.sublist (List.Sublist.append (List.Sublist.refl a) (List.sublist_cons_self e b))
  · intro x hx
    have h1 : (if a = [] then none else a.getLast?) ≠ some x := fun h => hx (by simp [hqa x h])
    have h2 : b.head? ≠ some x := fun h => hx (by simp [hb x h])
    simp only [h1, h2, if_false]
    cases m x <;> rfl

/-- the straight list 1, 2 and a further node -/
example : ∃ m : Mem, Linked m ([1] ++ 2 :: []) ∧ 3 ∉ [1] ++ 2 :: [] ∧ ∃ n, m 3 = some n :=
  ⟨fun x => if x = 1 then some ⟨some 2, none⟩ else if x = 2 then some ⟨none, some 1⟩ else some ⟨none, none⟩,
    ⟨by decide, by simp [LinkedFrom]⟩, by decide, _, rfl⟩

end Verif.Search.Props
