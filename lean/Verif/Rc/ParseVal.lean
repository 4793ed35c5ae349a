import Verif.Rc.ParseInv
import Verif.Json.ParseProps

/-!
# The value that is in memory (definitions and lemmas for C106)
-/

namespace Verif.Rc.ParseProps
open Verif.Chain (upd)
open Verif.Json (Byte Tok Atom PState PFrame PSt Val insertKey)
open Verif.Rc.Props Verif.Rc.MapProps Verif.Rc.JsonProps

/-- the blocks of an array -/
structure ArrAt (X : JS) (j b : Nat) (vs : List Nat) : Prop where
  tag : X.kind j = .json .array
  held : X.x.s.kids j = [(.rc, some b)]
  kind : X.kind b = .list
  kids : X.x.s.kids b = vs.map fun v => (.rc, some v)

/-- the blocks of an object -/
structure ObjAt (X : JS) (j m : Nat) (ps : List (Nat × Nat)) : Prop where
  tag : X.kind j = .json .object
  held : X.x.s.kids j = [(.rc, some m)]
  kind : X.kind m = .map
  pairs : (X.x.maps m).pairs = ps.map fun p => (p.1, some p.2)
  order : (X.x.maps m).order = ps.map Prod.fst

/-- the block of a value without parts; the parser makes no others than these -/
def atomAt (E : PEnv) (X : JS) (j : Nat) : Atom → Prop
  | .bool true => j = E.yes
  | .bool false => j = E.no
  | .null => j = E.null
  | .str t => X.kind j = .json .string ∧ ∃ b, X.x.s.kids j = [(.rc, some b)] ∧ E.txt b = t
  | .undef => False
  | .strn _ => False
  | .blob _ => False
  | a => X.kind j = .json .number ∧ ∃ b, X.x.s.kids j = [(.rc, some b)] ∧ E.txt b = numName a

mutual
/-- memory has the value at `j`; its lists and maps were made before `hi` -/
def holds (E : PEnv) (X : JS) (idx : Nat → Nat) (hi : Nat) : Val → Nat → Prop
  | .atom a, j => atomAt E X j a
  | .arr xs, j => ∃ b vs, idx b < hi ∧ ArrAt X j b vs ∧ holdsL E X idx hi xs vs
  | .obj kvs, j => ∃ m ps, idx m < hi ∧ ObjAt X j m ps ∧ holdsF E X idx hi kvs ps
/-- the elements of an array -/
def holdsL (E : PEnv) (X : JS) (idx : Nat → Nat) (hi : Nat) : List Val → List Nat → Prop
  | [], [] => True
  | x :: xs, v :: vs => holds E X idx hi x v ∧ holdsL E X idx hi xs vs
  | _, _ => False
/-- the entries of an object -/
def holdsF (E : PEnv) (X : JS) (idx : Nat → Nat) (hi : Nat) : List (List Byte × Val) → List (Nat × Nat) → Prop
  | [], [] => True
  | (k, x) :: xs, p :: ps => E.txt p.1 = k ∧ holds E X idx hi x p.2 ∧ holdsF E X idx hi xs ps
  | _, _ => False
end

section
variable {sg oth : Nat → Bool} {eqv : Nat → Nat → Bool} {E : PEnv} {X X' : JS} {idx idx' : Nat → Nat} {hi hi' c : Nat}

theorem ArrAt.mem {H : JHeap} (J : JG sg eqv oth X H) {j b : Nat} {vs : List Nat} (a : ArrAt X j b vs) (hj : j ∈ X.x.s.D) :
    b ∈ X.x.s.D ∧ ∀ v ∈ vs, v ∈ X.x.s.D ∧ ∃ t, X.kind v = .json t := by
  obtain ⟨A, G, -⟩ := J.mem
  have hb : b ∈ X.x.s.D := Good.tgt G hj (by rw [a.held]; simp)
  refine ⟨hb, fun v hv => ?_⟩
  have he : (Policy.rc, some v) ∈ X.x.s.kids b := by rw [a.kids]; exact List.mem_map.2 ⟨v, hv, rfl⟩
  obtain ⟨w, t, h1, h2⟩ := J.elems hb a.kind _ he
  cases h1
  exact ⟨Good.tgt G hb he, t, h2⟩

theorem ObjAt.mem {H : JHeap} (J : JG sg eqv oth X H) {j m : Nat} {ps : List (Nat × Nat)} (a : ObjAt X j m ps)
    (hj : j ∈ X.x.s.D) : m ∈ X.x.s.D ∧ ∀ p ∈ ps, p.1 ∈ X.x.s.D ∧ p.2 ∈ X.x.s.D ∧ ∃ t, X.kind p.2 = .json t := by
  obtain ⟨A, G, -⟩ := J.mem
  have hm : m ∈ X.x.s.D := Good.tgt G hj (by rw [a.held]; simp)
  refine ⟨hm, fun p hp => ?_⟩
  obtain ⟨hM, ord, prs, hc⟩ := J.map hm a.kind
  have hp' : (p.1, some p.2) ∈ (X.x.maps m).pairs := by rw [a.pairs]; exact List.mem_map.2 ⟨p, hp, rfl⟩
  obtain ⟨h1, h2⟩ := Good.pair G hm hM (by rw [hc]) (by rw [hc]) hp'
  have sh := J.typed.shape m hm
  rw [a.kind] at sh
  obtain ⟨-, v, t, h3, h4⟩ := sh.2.2 _ hp'
  cases h3
  exact ⟨h1, h2 _ rfl, t, h4⟩

theorem ArrAt.same {H : JHeap} (J : JG sg eqv oth X H) {j b : Nat} {vs : List Nat} (a : ArrAt X j b vs) (hj : j ∈ X.x.s.D)
    (s : SameBut X X' idx idx' c) (hc : b ≠ c) (hjc : j ≠ c) : ArrAt X' j b vs := by
  have hb := (a.mem J hj).1
  exact ⟨by rw [s.kind j hj]; exact a.tag, by rw [s.kids j hj hjc]; exact a.held, by rw [s.kind b hb]; exact a.kind,
    by rw [s.kids b hb hc]; exact a.kids⟩

theorem ObjAt.same {H : JHeap} (J : JG sg eqv oth X H) {j b : Nat} {ps : List (Nat × Nat)} (a : ObjAt X j b ps) (hj : j ∈ X.x.s.D)
    (s : SameBut X X' idx idx' c) (hc : b ≠ c) (hjc : j ≠ c) : ObjAt X' j b ps := by
  have hb := (a.mem J hj).1
  exact ⟨by rw [s.kind j hj]; exact a.tag, by rw [s.kids j hj hjc]; exact a.held, by rw [s.kind b hb]; exact a.kind,
    by rw [s.maps b hb hc]; exact a.pairs, by rw [s.maps b hb hc]; exact a.order⟩

/-- the block that changes is a list or a map that was made after what is looked at, or a new one -/
structure Late (X : JS) (idx : Nat → Nat) (hi c : Nat) : Prop where
  kind : c ∈ X.x.s.D → ∀ t, X.kind c ≠ .json t
  idx : c ∈ X.x.s.D → hi ≤ idx c

theorem Late.ne {j : Nat} {t : Tag} (h : Late X idx hi c) (hj : j ∈ X.x.s.D) (hk : X.kind j = .json t) : j ≠ c := by
  rintro rfl; exact h.kind hj t hk

theorem holds_same {H : JHeap} (J : JG sg eqv oth X H) (s : SameBut X X' idx idx' c) (hc : Late X idx hi c) (hle : hi ≤ hi')
    (v : Val) : ∀ j ∈ X.x.s.D, holds E X idx hi v j → holds E X' idx' hi' v j := by
  induction v using Val.ind with
  | h0 a =>
    intro j hj h
    rw [holds] at h ⊢
    cases a with
    | str t =>
      obtain ⟨h1, b, h2, h3⟩ := h
      exact ⟨by rw [s.kind j hj]; exact h1, b, by rw [s.kids j hj (hc.ne hj h1)]; exact h2, h3⟩
    | bool b => cases b <;> exact h
    | null => exact h
    | undef => exact h
    | strn t => exact h
    | blob t => exact h
    | _ =>
      obtain ⟨h1, b, h2, h3⟩ := h
      exact ⟨by rw [s.kind j hj]; exact h1, b, by rw [s.kids j hj (hc.ne hj h1)]; exact h2, h3⟩
  | ha xs ih =>
    intro j hj h
    rw [holds] at h ⊢
    obtain ⟨b, vs, h1, h2, h3⟩ := h
    obtain ⟨hb, hvs⟩ := h2.mem J hj
    refine ⟨b, vs, by rw [s.idx b hb]; omega, h2.same J hj s (by rintro rfl; have := hc.idx hb; omega) (hc.ne hj h2.tag), ?_⟩
    clear h2 h1
    induction xs generalizing vs with
    | nil => cases vs with
      | nil => rw [holdsL]; trivial
      | cons v vs => simp [holdsL] at h3
    | cons x xs ihx => cases vs with
      | nil => simp [holdsL] at h3
      | cons v vs =>
        rw [holdsL] at h3 ⊢
        exact ⟨ih x (by simp) v (hvs v (by simp)).1 h3.1,
          ihx (fun y hy => ih y (List.mem_cons_of_mem _ hy)) vs h3.2 (fun w hw => hvs w (List.mem_cons_of_mem _ hw))⟩
  | ho xs ih =>
    intro j hj h
    rw [holds] at h ⊢
    obtain ⟨b, vs, h1, h2, h3⟩ := h
    obtain ⟨hb, hvs⟩ := h2.mem J hj
    refine ⟨b, vs, by rw [s.idx b hb]; omega, h2.same J hj s (by rintro rfl; have := hc.idx hb; omega) (hc.ne hj h2.tag), ?_⟩
    clear h2 h1
    induction xs generalizing vs with
    | nil => cases vs with
      | nil => rw [holdsF]; trivial
      | cons v vs => simp [holdsF] at h3
    | cons x xs ihx => cases vs with
      | nil => simp [holdsF] at h3
      | cons v vs =>
        obtain ⟨k, x⟩ := x
        rw [holdsF] at h3 ⊢
        exact ⟨h3.1, ih (k, x) (by simp) v.2 (hvs v (by simp)).2.1 h3.2.1,
          ihx (fun y hy => ih y (List.mem_cons_of_mem _ hy)) vs h3.2.2 (fun w hw => hvs w (List.mem_cons_of_mem _ hw))⟩

theorem holdsL_same {H : JHeap} (J : JG sg eqv oth X H) (s : SameBut X X' idx idx' c) (hc : Late X idx hi c) (hle : hi ≤ hi')
    (xs : List Val) : ∀ vs : List Nat, (∀ v ∈ vs, v ∈ X.x.s.D) → holdsL E X idx hi xs vs → holdsL E X' idx' hi' xs vs := by
  induction xs with
  | nil => intro vs _ h; cases vs with
    | nil => rw [holdsL]; trivial
    | cons v vs => simp [holdsL] at h
  | cons x xs ih => intro vs hv h; cases vs with
    | nil => simp [holdsL] at h
    | cons v vs =>
      rw [holdsL] at h ⊢
      exact ⟨holds_same J s hc hle x v (hv v (by simp)) h.1, ih vs (fun w hw => hv w (List.mem_cons_of_mem _ hw)) h.2⟩

theorem holdsF_same {H : JHeap} (J : JG sg eqv oth X H) (s : SameBut X X' idx idx' c) (hc : Late X idx hi c) (hle : hi ≤ hi')
    (xs : List (List Byte × Val)) : ∀ vs : List (Nat × Nat), (∀ v ∈ vs, v.2 ∈ X.x.s.D) → holdsF E X idx hi xs vs →
      holdsF E X' idx' hi' xs vs := by
  induction xs with
  | nil => intro vs _ h; cases vs with
    | nil => rw [holdsF]; trivial
    | cons v vs => simp [holdsF] at h
  | cons x xs ih => intro vs hv h; cases vs with
    | nil => simp [holdsF] at h
    | cons v vs =>
      obtain ⟨k, x⟩ := x
      rw [holdsF] at h ⊢
      exact ⟨h.1, holds_same J s hc hle x v.2 (hv v (by simp)) h.2.1, ih vs (fun w hw => hv w (List.mem_cons_of_mem _ hw)) h.2.2⟩

theorem holdsL_append {x : Val} {v : Nat} (h : holds E X idx hi x v) (xs : List Val) : ∀ vs : List Nat,
    holdsL E X idx hi xs vs → holdsL E X idx hi (xs ++ [x]) (vs ++ [v]) := by
  induction xs with
  | nil => intro vs hv; cases vs with
    | nil => simp only [List.nil_append, holdsL]; exact ⟨h, trivial⟩
    | cons w vs => simp [holdsL] at hv
  | cons y xs ih => intro vs hv; cases vs with
    | nil => simp [holdsL] at hv
    | cons w vs =>
      simp only [List.cons_append, holdsL] at hv ⊢
      exact ⟨hv.1, ih vs hv.2⟩

/-- `cee_map_add` on the pairs -/
def insQ (E : PEnv) (k v : Nat) : List (Nat × Nat) → List (Nat × Nat)
  | [] => [(k, v)]
  | p :: l => if E.eqv k p.1 then (p.1, v) :: l else p :: insQ E k v l

theorem insQ_map (E : PEnv) (k v : Nat) (l : List (Nat × Nat)) :
    (insQ E k v l).map (fun p => (p.1, some p.2)) = insP E.eqv k (some v) (l.map fun p => (p.1, some p.2)) := by
  induction l with
  | nil => rfl
  | cons p l ih =>
    simp only [insQ, List.map_cons, insP]
    split
    · rfl
    · rw [List.map_cons, ih]

theorem insQ_fst (E : PEnv) (k v : Nat) (l : List (Nat × Nat)) :
    (insQ E k v l).map Prod.fst = (insP E.eqv k (some v) (l.map fun p => (p.1, some p.2))).map Prod.fst := by
  rw [← insQ_map, List.map_map]
  rfl

theorem holdsF_ins {x : Val} {v k : Nat} (h : holds E X idx hi x v) (xs : List (List Byte × Val)) : ∀ vs : List (Nat × Nat),
    holdsF E X idx hi xs vs → holdsF E X idx hi (insertKey (E.txt k) x xs) (insQ E k v vs) := by
  induction xs with
  | nil => intro vs hv; cases vs with
    | nil => simp [insertKey, insQ, holdsF, h]
    | cons w vs => simp [holdsF] at hv
  | cons y xs ih => intro vs hv; cases vs with
    | nil => simp [holdsF] at hv
    | cons w vs =>
      obtain ⟨k', y⟩ := y
      rw [holdsF] at hv
      obtain ⟨h1, h2, h3⟩ := hv
      simp only [insertKey, insQ, PEnv.eqv, h1]
      by_cases hk : k' = E.txt k
      · rw [if_pos hk, if_pos (by simpa using hk.symm), holdsF]
        exact ⟨h1, h, h3⟩
      · rw [if_neg hk, if_neg (by simpa using fun e => hk e.symm), holdsF]
        exact ⟨h1, h2, ih vs h3⟩

/-- whether the key is there -/
theorem holdsF_look {k : Nat} (xs : List (List Byte × Val)) : ∀ vs : List (Nat × Nat),
    holdsF E X idx hi xs vs → (((vs.map fun p => (p.1, some p.2)).find? (fun p : Nat × Ptr => E.eqv k p.1)).isSome =
      xs.any (fun p => p.1 == E.txt k)) := by
  induction xs with
  | nil => intro vs hv; cases vs with
    | nil => rfl
    | cons w vs => simp [holdsF] at hv
  | cons y xs ih => intro vs hv; cases vs with
    | nil => simp [holdsF] at hv
    | cons w vs =>
      obtain ⟨k', y⟩ := y
      rw [holdsF] at hv
      obtain ⟨h1, h2, h3⟩ := hv
      rw [List.map_cons, List.find?_cons, List.any_cons, ← ih vs h3]
      simp only [PEnv.eqv, h1]
      by_cases hk : k' = E.txt k
      · simp [hk]
      · have e1 : (E.txt k == k') = false := by simpa using fun e => hk e.symm
        have e2 : (k' == E.txt k) = false := by simpa using hk
        rw [e1, e2, Bool.false_or]

/-! ## the containers that are open -/

/-- the container at `j` with the block `b` has what `v` has -/
def cont (E : PEnv) (X : JS) (idx : Nat → Nat) (hi : Nat) (v : Val) (j b : Nat) : Prop :=
  match v with
  | .atom _ => False
  | .arr xs => ∃ vs, ArrAt X j b vs ∧ holdsL E X idx hi xs vs
  | .obj kvs => ∃ ps, ObjAt X j b ps ∧ holdsF E X idx hi kvs ps

theorem cont.holds {v : Val} {j b : Nat} (h : cont E X idx hi v j b) (hb : idx b < hi) : holds E X idx hi v j := by
  cases v with
  | atom a => exact h.elim
  | arr xs => obtain ⟨vs, h1, h2⟩ := h; rw [ParseProps.holds]; exact ⟨b, vs, hb, h1, h2⟩
  | obj kvs => obtain ⟨vs, h1, h2⟩ := h; rw [ParseProps.holds]; exact ⟨b, vs, hb, h1, h2⟩

/-- the container at `j` with the block `b` has what `v` has, and the value `x` that is not complete, with the key `key` -/
def hole (E : PEnv) (X : JS) (idx : Nat → Nat) (hi : Nat) (v : Val) (j b x : Nat) (key : List Byte) : Prop :=
  match v with
  | .atom _ => False
  | .arr xs => ∃ vs, ArrAt X j b (vs ++ [x]) ∧ holdsL E X idx hi xs vs
  | .obj kvs => ∃ ps k, E.txt k = key ∧ ObjAt X j b (insQ E k x ps) ∧ holdsF E X idx hi kvs ps ∧
      ∀ p ∈ ps, p.2 ∈ X.x.s.D ∧ ∃ t, X.kind p.2 = .json t

theorem hole.fill {v w : Val} {j b x : Nat} {key : List Byte} (h : hole E X idx hi v j b x key) (hw : holds E X idx hi w x) :
    ∃ v', Verif.Json.attach (some v) key w = .ok v' ∧ cont E X idx hi v' j b := by
  cases v with
  | atom a => exact h.elim
  | arr xs =>
    obtain ⟨vs, h1, h2⟩ := h
    exact ⟨_, rfl, vs ++ [x], h1, holdsL_append hw xs vs h2⟩
  | obj kvs =>
    obtain ⟨ps, k, rfl, h1, h2, -⟩ := h
    exact ⟨_, rfl, _, h1, holdsF_ins hw kvs ps h2⟩

theorem cont.same {H : JHeap} (J : JG sg eqv oth X H) (s : SameBut X X' idx idx' c) (hc : Late X idx hi c) (hle : hi ≤ hi')
    {v : Val} {j b : Nat} (hj : j ∈ X.x.s.D) (h : cont E X idx hi v j b) (hb : b ≠ c) : cont E X' idx' hi' v j b := by
  cases v with
  | atom a => exact h.elim
  | arr xs =>
    obtain ⟨vs, h1, h2⟩ := h
    exact ⟨vs, h1.same J hj s hb (hc.ne hj h1.tag), holdsL_same J s hc hle xs vs (fun v hv => ((h1.mem J hj).2 v hv).1) h2⟩
  | obj xs =>
    obtain ⟨vs, h1, h2⟩ := h
    exact ⟨vs, h1.same J hj s hb (hc.ne hj h1.tag), holdsF_same J s hc hle xs vs (fun v hv => ((h1.mem J hj).2 v hv).2.1) h2⟩

theorem hole.same {H : JHeap} (J : JG sg eqv oth X H) (s : SameBut X X' idx idx' c) (hc : Late X idx hi c) (hle : hi ≤ hi')
    {v : Val} {j b x : Nat} {key : List Byte} (hj : j ∈ X.x.s.D) (h : hole E X idx hi v j b x key) (hb : b ≠ c) :
    hole E X' idx' hi' v j b x key := by
  cases v with
  | atom a => exact h.elim
  | arr xs =>
    obtain ⟨vs, h1, h2⟩ := h
    refine ⟨vs, h1.same J hj s hb (hc.ne hj h1.tag), holdsL_same J s hc hle xs vs (fun v hv => ?_) h2⟩
    exact ((h1.mem J hj).2 v (List.mem_append_left _ hv)).1
  | obj xs =>
    obtain ⟨vs, k, h0, h1, h2, h3⟩ := h
    refine ⟨vs, k, h0, h1.same J hj s hb (hc.ne hj h1.tag), holdsF_same J s hc hle xs vs (fun v hv => (h3 v hv).1) h2,
      fun p hp => ?_⟩
    obtain ⟨h4, t, h5⟩ := h3 p hp
    exact ⟨s.keep _ h4 (by rw [h5]; simp), t, by rw [s.kind _ h4]; exact h5⟩

theorem cont.part {H : JHeap} (J : JG sg eqv oth X H) {v : Val} {j b : Nat} (hj : j ∈ X.x.s.D) (h : cont E X idx hi v j b) :
    b ∈ X.x.s.D ∧ (∀ t, X.kind b ≠ .json t) ∧ ∃ t, X.kind j = .json t := by
  cases v with
  | atom a => exact h.elim
  | arr xs =>
    obtain ⟨vs, h1, h2⟩ := h
    exact ⟨(h1.mem J hj).1, by rw [h1.kind]; simp, _, h1.tag⟩
  | obj xs =>
    obtain ⟨vs, h1, h2⟩ := h
    exact ⟨(h1.mem J hj).1, by rw [h1.kind]; simp, _, h1.tag⟩

theorem hole.part {H : JHeap} (J : JG sg eqv oth X H) {v : Val} {j b x : Nat} {key : List Byte} (hj : j ∈ X.x.s.D)
    (h : hole E X idx hi v j b x key) : b ∈ X.x.s.D ∧ (∀ t, X.kind b ≠ .json t) ∧ ∃ t, X.kind j = .json t := by
  cases v with
  | atom a => exact h.elim
  | arr xs =>
    obtain ⟨vs, h1, h2⟩ := h
    exact ⟨(h1.mem J hj).1, by rw [h1.kind]; simp, _, h1.tag⟩
  | obj xs =>
    obtain ⟨vs, k, -, h1, h2, -⟩ := h
    exact ⟨(h1.mem J hj).1, by rw [h1.kind]; simp, _, h1.tag⟩

/-- the open containers below the one at `x` with the block `cx` and the key `key` -/
def below (E : PEnv) (X0 X : JS) (idx : Nat → Nat) : Nat → Nat → List Byte → List MFrame → List PFrame → Prop
  | _, _, _, [], [] => True
  | x, cx, key, f :: fs, g :: gs => ∃ j v b, f.j = some j ∧ g.j = some v ∧ f.ret = g.ret ∧ j ∈ X.x.s.D ∧ b ∉ X0.x.s.D ∧
      idx b + 2 ≤ idx cx ∧ hole E X idx (idx cx) v j b x key ∧ below E X0 X idx j b g.key fs gs
  | _, _, _, _, _ => False

/-- the open containers -/
def frames (E : PEnv) (X0 X : JS) (idx : Nat → Nat) (n : Nat) : List MFrame → List PFrame → Prop
  | f :: fs, g :: gs => ∃ j v b, f.j = some j ∧ g.j = some v ∧ f.ret = g.ret ∧ j ∈ X.x.s.D ∧ b ∉ X0.x.s.D ∧ idx b + 2 ≤ n ∧
      cont E X idx n v j b ∧ below E X0 X idx j b g.key fs gs
  | _, _ => False

theorem below_same {H : JHeap} {X0 : JS} (J : JG sg eqv oth X H) (s : SameBut X X' idx idx' c) (fs : List MFrame) :
    ∀ (gs : List PFrame) (x cx : Nat) (key : List Byte), cx ∈ X.x.s.D → Late X idx (idx cx) c →
      below E X0 X idx x cx key fs gs → below E X0 X' idx' x cx key fs gs := by
  induction fs with
  | nil => intro gs x cx key _ _ h; cases gs with
    | nil => simp only [below]
    | cons g gs => simp [below] at h
  | cons f fs ih => intro gs x cx key hcx hc h; cases gs with
    | nil => simp [below] at h
    | cons g gs =>
      simp only [below] at h ⊢
      obtain ⟨j, v, b, h1, h2, h3, h4, h5, h6, h7, h8⟩ := h
      obtain ⟨hb, -, t, ht⟩ := h7.part J h4
      have hbc : b ≠ c := by rintro rfl; have := hc.idx hb; omega
      refine ⟨j, v, b, h1, h2, h3, s.keep j h4 (by rw [ht]; simp), h5, by rw [s.idx b hb, s.idx cx hcx]; exact h6,
        h7.same J s hc (by rw [s.idx cx hcx]; exact Nat.le_refl _) h4 hbc,
        ih gs j b _ hb ⟨hc.kind, fun h => by have := hc.idx h; omega⟩ h8⟩

/-- something elsewhere has changed -/
theorem frames_same {H : JHeap} {X0 : JS} {n n' : Nat} (J : JG sg eqv oth X H) (s : SameBut X X' idx idx' c) (hc : c ∉ X.x.s.D)
    (hn : n ≤ n') {fs : List MFrame} {gs : List PFrame} (h : frames E X0 X idx n fs gs) : frames E X0 X' idx' n' fs gs := by
  cases fs with
  | nil => simp [frames] at h
  | cons f fs => cases gs with
    | nil => simp [frames] at h
    | cons g gs =>
      obtain ⟨j, v, b, h1, h2, h3, h4, h5, h6, h7, h8⟩ := h
      obtain ⟨hb, -, t, ht⟩ := h7.part J h4
      have hl : ∀ hi, Late X idx hi c := fun hi => ⟨fun h => absurd h hc, fun h => absurd h hc⟩
      exact ⟨j, v, b, h1, h2, h3, s.keep j h4 (by rw [ht]; simp), h5, by rw [s.idx b hb]; omega,
        h7.same J s (hl _) hn h4 (by rintro rfl; exact hc hb), below_same J s fs gs j b g.key hb (hl _) h8⟩

end

end Verif.Rc.ParseProps
