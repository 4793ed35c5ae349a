import Verif.Rc.JsonSim

/-!
# C105: JSON values count their parts
-/

namespace Verif.Rc.JsonProps
open Verif.Chain (upd)
open Verif.Rc.Props Verif.Rc.MapProps

/-! ## the specification -/

/-- what a block is: a string, number or blob; a list; a map; a JSON value -/
inductive Kind where
  | raw | list | map | json (t : Tag)
  deriving DecidableEq

def Kind.tag : Kind → Option Tag
  | .json t => some t
  | _ => none

/-- what a JSON value refers to -/
def part : Tag → Option Kind
  | .object => some .map
  | .array => some .list
  | .number => some .raw
  | .string => some .raw
  | .blob => some .raw
  | _ => none

/-- a graph of blocks with the references of the program, the contents of maps, and what the blocks are -/
structure JS where
  x : SM
  kind : Nat → Kind

/-- what the JSON value `j` refers to -/
def JS.held (X : JS) (j : Nat) : Nat :=
  match X.x.s.kids j with
  | [(_, some p)] => p
  | _ => 0

inductive JOp where
  /-- `cee_json_true`, … -/
  | static (s : Nat)
  /-- a number, string or blob -/
  | scalar (b j : Nat) (t : Tag)
  | strn (j : Nat)
  | array (l j : Nat)
  | object (m j : Nat)
  | set (j k v : Nat)
  | setScalar (j k b v : Nat) (t : Tag)
  | setStatic (j k s : Nat)
  | remove (j k : Nat)
  | rename (j k k' : Nat)
  | append (j v : Nat)
  | appendStatic (j s : Nat)
  | appendScalar (j b v : Nat) (t : Tag)
  | insert (j i v : Nat)
  | removeAt (j i : Nat)
  | concat (d s : Nat)
  /-- the program takes a reference -/
  | take (v : Nat)
  | delRef (v : Nat)
  | del (v : Nat)

/-- a new block without pointers -/
noncomputable def stepNew (eqv : Nat → Nat → Bool) (X : JS) (b : Nat) (kd : Kind) : JS :=
  { x := mstep eqv X.x (.plain (.mk b)), kind := upd X.kind b kd }

/-- a new JSON value that refers to `p` -/
noncomputable def stepTag (eqv : Nat → Nat → Bool) (X : JS) (j : Nat) (t : Tag) (p : Nat) : JS :=
  { x := mstep eqv X.x (.plain (.mkTuple j [(.rc, some p)])), kind := upd X.kind j (.json t) }

/-- a new map -/
noncomputable def stepMap (eqv : Nat → Nat → Bool) (X : JS) (m : Nat) : JS :=
  { x := mstep eqv X.x (.mkMap m .rc .rc), kind := upd X.kind m .map }

/-- a change of the graph only -/
noncomputable def stepM (eqv : Nat → Nat → Bool) (X : JS) (op : MOp) : JS := { X with x := mstep eqv X.x op }

/-- the program's reference to `v` goes, or, if there is none, `v` -/
noncomputable def stepDrop (X : JS) (v : Nat) : JS := { X with x := { X.x with s := X.x.s.drop v } }

/-- the effect of an operation: static blocks are not looked after -/
noncomputable def jstep (sg : Nat → Bool) (eqv : Nat → Nat → Bool) (X : JS) : JOp → JS
  | .static _ => X
  | .scalar b j t => stepTag eqv (stepNew eqv X b .raw) j t b
  | .strn j => stepNew eqv X j (.json .strn)
  | .array l j => stepTag eqv (stepNew eqv X l .list) j .array l
  | .object m j => stepTag eqv (stepMap eqv X m) j .object m
  | .set j k v => stepM eqv (stepNew eqv X k .raw) (.add (X.held j) k (some v))
  | .setScalar j k b v t =>
    stepM eqv (stepTag eqv (stepNew eqv (stepNew eqv X k .raw) b .raw) v t b) (.add (X.held j) k (some v))
  | .setStatic j k s => stepM eqv (stepNew eqv X k .raw) (.add (X.held j) k (some s))
  | .remove j k => stepM eqv X (.remove (X.held j) k)
  | .rename j k k' =>
    stepDrop (stepM eqv (stepNew eqv (stepNew eqv X k .raw) k' .raw) (.rename (X.held j) k k')) k
  | .append j v => stepM eqv X (.plain (.append (X.held j) (.rc, some v)))
  | .appendStatic j s => stepM eqv X (.plain (.append (X.held j) (.rc, some s)))
  | .appendScalar j b v t =>
    stepM eqv (stepTag eqv (stepNew eqv X b .raw) v t b) (.plain (.append (X.held j) (.rc, some v)))
  | .insert j i v =>
    let l := X.held j
    { X with x := { X.x with s := { X.x.s with
        kids := upd X.x.s.kids l ((X.x.s.kids l).take i ++ (.rc, some v) :: (X.x.s.kids l).drop i) } } }
  | .removeAt j i => stepM eqv X (.plain (.remove (X.held j) i))
  | .concat d s =>
    { X with x := { X.x with s := { X.x.s with
        kids := upd X.x.s.kids (X.held d) (X.x.s.kids (X.held d) ++ X.x.s.kids (X.held s)) } } }
  | .take v => if sg v then X else stepM eqv X (.plain (.incr (some v)))
  | .delRef v => if sg v then X else stepDrop X v
  | .del v => if sg v then X else stepDrop X v

/-- `v` may be referred to `n` times more: it is static, or the counter is wide enough -/
def Few (sg : Nat → Bool) (X : JS) (v n : Nat) : Prop := sg v = true ∨ X.x.s.rc v + n < 65536

/-- a JSON value that may be referred to `n` times more -/
def OkVal (sg : Nat → Bool) (X : JS) (v n : Nat) : Prop := v ∈ X.x.s.D ∧ (∃ t, X.kind v = .json t) ∧ Few sg X v n

/-- `j` is a JSON value of the type `t` -/
def IsA (X : JS) (j : Nat) (t : Tag) : Prop := j ∈ X.x.s.D ∧ X.kind j = .json t

/-- what a program may do.  New blocks are at free addresses; what is stored are JSON values, static ones or with fewer than
65535 references; the value that a key has is not given for this key again, unless it is static. -/
def JOk (sg : Nat → Bool) (eqv : Nat → Nat → Bool) (other : Nat → Bool) (X : JS) : JOp → Prop
  | .static s => sg s = true
  | .scalar b j t => b ∉ X.x.s.D ∧ j ∉ X.x.s.D ∧ b ≠ j ∧ part t = some .raw
  | .strn j => j ∉ X.x.s.D
  | .array l j => l ∉ X.x.s.D ∧ j ∉ X.x.s.D ∧ l ≠ j
  | .object m j => m ∉ X.x.s.D ∧ j ∉ X.x.s.D ∧ m ≠ j
  | .set j k v => IsA X j .object ∧ k ∉ X.x.s.D ∧ OkVal sg X v 1 ∧
    (look eqv (X.x.maps (X.held j)) k = some (some v) → sg v = true)
  | .setScalar j k b v t => IsA X j .object ∧ k ∉ X.x.s.D ∧ b ∉ X.x.s.D ∧ v ∉ X.x.s.D ∧ k ≠ b ∧ k ≠ v ∧ b ≠ v ∧
    part t = some .raw
  | .setStatic j k s => IsA X j .object ∧ k ∉ X.x.s.D ∧ sg s = true
  | .remove j k => IsA X j .object ∧ (k ∈ X.x.s.D ∨ other k = true)
  | .rename j k k' => IsA X j .object ∧ k ∉ X.x.s.D ∧ k' ∉ X.x.s.D ∧ k ≠ k' ∧
    (∀ v, look eqv (X.x.maps (X.held j)) k = some (some v) → Few sg X v 1 ∧ (eqv k k' = false →
      look eqv (X.x.maps (X.held j)) k' = some (some v) → sg v = true))
  | .append j v => IsA X j .array ∧ OkVal sg X v 1
  | .appendStatic j s => IsA X j .array ∧ sg s = true
  | .appendScalar j b v t => IsA X j .array ∧ b ∉ X.x.s.D ∧ v ∉ X.x.s.D ∧ b ≠ v ∧ part t = some .raw
  | .insert j i v => IsA X j .array ∧ OkVal sg X v 1 ∧ i ≤ (X.x.s.kids (X.held j)).length
  | .removeAt j _ => IsA X j .array
  | .concat d s => IsA X d .array ∧ IsA X s .array ∧ X.held d ≠ X.held s ∧
    ∀ v, v ∈ X.x.s.D → Few sg X v ((X.x.s.kids (X.held s)).count (.rc, some v))
  | .take v => OkVal sg X v 1
  | .delRef v => v ∈ X.x.s.D ∧ (sg v = true ∨ 0 < X.x.s.ext v ∨ X.x.s.rc v = 0)
  | .del v => v ∈ X.x.s.D ∧ (sg v = true ∨ X.x.s.rc v = 0)

def JLegal (sg : Nat → Bool) (eqv : Nat → Nat → Bool) (other : Nat → Bool) (X : JS) : List JOp → Prop
  | [] => True
  | op :: ops => JOk sg eqv other X op ∧ JLegal sg eqv other (jstep sg eqv X op) ops

noncomputable def jrun (sg : Nat → Bool) (eqv : Nat → Nat → Bool) (X : JS) : List JOp → JS
  | [] => X
  | op :: ops => jrun sg eqv (jstep sg eqv X op) ops

/-- execution on the model -/
def jexec (eqv : Nat → Nat → Bool) (fuel : Nat) (H : JHeap) : JOp → Res (Option JHeap)
  | .static s => .ok (some (singleton H s))
  | .scalar b j t => (scalarMk H b j t).map some
  | .strn j => .ok (some (strnMk H j))
  | .array l j => (arrayMk H l j).map some
  | .object m j => (objectMk H m j).map some
  | .set j k v => objectSet eqv fuel H j k (some v)
  | .setScalar j k b v t => objectSetScalar eqv fuel H j k b v t
  | .setStatic j k s => objectSetSingle eqv fuel H j k s
  | .remove j k => (objectRemove eqv H j k).map some
  | .rename j k k' => (objectRename eqv fuel H j k k').map fun r => r.map (·.1)
  | .append j v => (arrayAppend H j (some v)).map some
  | .appendStatic j s => (arrayAppendSingle H j s).map some
  | .appendScalar j b v t => (arrayAppendScalar H j b v t).map some
  | .insert j i v => (arrayInsert H j i (some v)).map some
  | .removeAt j i => (arrayRemove H j i).map some
  | .concat d s => arrayConcat (H.m.h.kids ((H.held s).getD 0)).length H d s
  | .take v => (jsonTake H (some v)).map some
  | .delRef v => jsonDelRef fuel H (some v)
  | .del v => jsonDel fuel H (some v)

def jexecAll (eqv : Nat → Nat → Bool) (fuel : Nat) (H : JHeap) : List JOp → Res (Option JHeap)
  | [] => .ok (some H)
  | op :: ops =>
    match jexec eqv fuel H op with
    | .ok (some H) => jexecAll eqv fuel H ops
    | .ok none => .ok none
    | .ub => .ub
    | .segv => .segv

/-! ## the invariant -/

/-- what a block of a kind holds -/
def Shape (kind : Nat → Kind) (K : List Edge) (c : MapC) : Kind → Prop
  | .raw => K = []
  | .list => ∀ e ∈ K, ∃ v t, e = (.rc, some v) ∧ kind v = .json t
  | .map => c.kp = .rc ∧ c.vp = .rc ∧ ∀ p ∈ c.pairs, kind p.1 = .raw ∧ ∃ v t, p.2 = some v ∧ kind v = .json t
  | .json t =>
    match part t with
    | none => K = []
    | some kd => ∃ p, K = [(.rc, some p)] ∧ kind p = kd

structure Typed (sg : Nat → Bool) (X : JS) : Prop where
  shape : ∀ y ∈ X.x.s.D, Shape X.kind (X.x.s.kids y) (X.x.maps y) (X.kind y)
  isMap : ∀ y ∈ X.x.s.D, X.x.isMap y = true ↔ X.kind y = .map
  static : ∀ s, sg s = true → 0 < X.x.s.ext s ∧ ∃ t, X.kind s = .json t ∧ part t = none

structure JG (sg : Nat → Bool) (eqv : Nat → Nat → Bool) (oth : Nat → Bool) (X : JS) (C : JHeap) : Prop where
  typed : Typed sg X
  mem : ∃ A, Good eqv X.x A ∧ SimM sg A C.m
  tag : ∀ x ∈ X.x.s.D, C.tag x = (X.kind x).tag
  single : C.single = sg
  foreign : C.m.other = oth

section
variable {sg oth : Nat → Bool} {eqv : Nat → Nat → Bool}

theorem flat_mem {c : MapC} {e : Edge} (hkp : c.kp = .rc) (hvp : c.vp = .rc) (hp : (c.pairs.map (·.1)).Perm c.order)
    (h : e ∈ c.flat) : ∃ p ∈ c.pairs, e = (.rc, some p.1) ∨ e = (.rc, p.2) := by
  rw [MapC.flat, List.mem_append] at h
  rcases h with h | h
  · obtain ⟨k, hk, rfl⟩ := List.mem_map.1 h
    obtain ⟨p, hp', rfl⟩ := List.mem_map.1 (hp.mem_iff.2 hk)
    exact ⟨p, hp', .inl rfl⟩
  · obtain ⟨p, hp', he⟩ := List.mem_flatMap.1 h
    rw [hkp, hvp] at he
    simp only [List.mem_cons, List.not_mem_nil, or_false] at he
    exact ⟨p, hp', he⟩

/-- every pointer is counted -/
theorem Typed.edges {X : JS} (T : Typed sg X) {A : MHeap} (G : Good eqv X.x A) {y : Nat} (hy : y ∈ X.x.s.D) {e : Edge}
    (he : e ∈ X.x.s.kids y) : ∃ v, e = (.rc, some v) := by
  have sh := T.shape y hy
  cases hk : X.kind y with
  | raw => rw [hk] at sh; rw [sh] at he; cases he
  | list =>
    rw [hk] at sh
    obtain ⟨v, t, h, -⟩ := sh e he
    exact ⟨v, h⟩
  | map =>
    rw [hk] at sh
    have wf := G.wf y hy ((T.isMap y hy).2 hk)
    rw [wf.kids] at he
    obtain ⟨p, hp, h | h⟩ := flat_mem sh.1 sh.2.1 wf.perm he
    · exact ⟨_, h⟩
    · obtain ⟨-, v, t, hv, -⟩ := sh.2.2 p hp
      exact ⟨v, by rw [h, hv]⟩
  | json t =>
    rw [hk] at sh
    simp only [Shape] at sh
    split at sh
    · rw [sh] at he; cases he
    · obtain ⟨p, h, -⟩ := sh
      rw [h] at he
      exact ⟨p, by simpa using he⟩

theorem Typed.own {X : JS} (T : Typed sg X) {A : MHeap} (G : Good eqv X.x A) (z : Nat) : X.x.s.own z = 0 := by
  rw [Spec.own]
  have : ∀ D : List Nat, (∀ y ∈ D, y ∈ X.x.s.D) → refs X.x.s.kids D .del z = 0 := by
    intro D
    induction D with
    | nil => intro _; rfl
    | cons d D ih =>
      intro hD
      have h1 : (X.x.s.kids d).count (.del, some z) = 0 := by
        refine List.count_eq_zero.2 fun hm => ?_
        obtain ⟨v, hv⟩ := T.edges G (hD d (by simp)) hm
        cases hv
      have h2 := ih (fun y hy => hD y (List.mem_cons_of_mem _ hy))
      simp only [refs, List.map_cons, List.sum_cons] at h2 ⊢
      omega
  exact this _ fun _ h => h

/-- pointers go to blocks -/
theorem Good.tgt {X : SM} {A : MHeap} (G : Good eqv X A) {y v : Nat} (hy : y ∈ X.s.D) (h : (Policy.rc, some v) ∈ X.s.kids y) :
    v ∈ X.s.D := G.rel.tgt y hy v ⟨.rc, by simp, h⟩

theorem Good.pair {X : SM} {A : MHeap} (G : Good eqv X A) {m : Nat} (hm : m ∈ X.s.D) (hM : X.isMap m = true)
    (hkp : (X.maps m).kp = .rc) (hvp : (X.maps m).vp = .rc) {p : Nat × Ptr} (hp : p ∈ (X.maps m).pairs) :
    p.1 ∈ X.s.D ∧ ∀ v, p.2 = some v → v ∈ X.s.D := by
  have wf := G.wf m hm hM
  have h : ∀ e ∈ [(Policy.rc, some p.1), (Policy.rc, p.2)], e ∈ X.s.kids m := by
    intro e he
    rw [wf.kids, MapC.flat]
    refine List.mem_append_right _ (List.mem_flatMap.2 ⟨p, hp, ?_⟩)
    rw [hkp, hvp]; exact he
  exact ⟨Good.tgt G hm (h _ (by simp)), fun v hv => Good.tgt G hm (h _ (by simp [hv]))⟩

/-- a block that is not touched, when kinds change elsewhere -/
theorem Shape.frame {kind kind' : Nat → Kind} {K : List Edge} {c : MapC} {kd : Kind} {D : List Nat}
    (h : Shape kind K c kd) (hK : ∀ v, (Policy.rc, some v) ∈ K → v ∈ D)
    (hc : kd = .map → ∀ p ∈ c.pairs, p.1 ∈ D ∧ ∀ v, p.2 = some v → v ∈ D) (hkind : ∀ v ∈ D, kind' v = kind v) :
    Shape kind' K c kd := by
  cases kd with
  | raw => exact h
  | list =>
    intro e he
    obtain ⟨v, t, rfl, hv⟩ := h e he
    exact ⟨v, t, rfl, by rw [hkind v (hK v he)]; exact hv⟩
  | map =>
    refine ⟨h.1, h.2.1, fun p hp => ?_⟩
    obtain ⟨h1, v, t, h2, h3⟩ := h.2.2 p hp
    obtain ⟨h4, h5⟩ := hc rfl p hp
    exact ⟨by rw [hkind _ h4]; exact h1, v, t, h2, by rw [hkind _ (h5 v h2)]; exact h3⟩
  | json t =>
    simp only [Shape] at h ⊢
    split at h
    · exact h
    · obtain ⟨p, h1, h2⟩ := h
      exact ⟨p, h1, by rw [hkind p (hK p (by rw [h1]; simp))]; exact h2⟩

theorem JG.kindFrame {X : JS} {C : JHeap} (J : JG sg eqv oth X C) {x : Nat} (hx : x ∉ X.x.s.D) (kd : Kind) {y : Nat}
    (hy : y ∈ X.x.s.D) : Shape (upd X.kind x kd) (X.x.s.kids y) (X.x.maps y) (X.kind y) := by
  obtain ⟨A, G, -⟩ := J.mem
  have sh := J.typed.shape y hy
  refine sh.frame (D := X.x.s.D) (fun v hv => Good.tgt G hy hv) (fun hk p hp => ?_) (fun v hv => ?_)
  · rw [hk] at sh
    exact Good.pair G hy ((J.typed.isMap y hy).2 hk) sh.1 sh.2.1 hp
  · simp only [upd]; rw [if_neg (by rintro rfl; exact hx hv)]

theorem JG.staticIn {X : JS} {C : JHeap} (J : JG sg eqv oth X C) {s : Nat} (hs : sg s = true) : s ∈ X.x.s.D := by
  obtain ⟨A, G, -⟩ := J.mem
  exact G.rel.ext s (J.typed.static s hs).1

theorem JG.live {X : JS} {C : JHeap} (J : JG sg eqv oth X C) (x : Nat) : C.m.h.live x = true ↔ x ∈ X.x.s.D := by
  obtain ⟨A, G, S⟩ := J.mem
  rw [S.h.live]; exact G.rel.live x

theorem JG.kids {X : JS} {C : JHeap} (J : JG sg eqv oth X C) : C.m.h.kids = X.x.s.kids := by
  obtain ⟨A, G, S⟩ := J.mem
  rw [S.h.kids]; exact G.rel.kids

/-- new blocks are not referred to -/
theorem new_rc {s : Spec} {h : RHeap} (R : Rel s h) {x : Nat} (hx : x ∉ s.D) (z : Nat) :
    (mkBlock s x).rc z = s.rc z ∧ s.rc x = 0 := by
  have hx0 : s.rc x = 0 := by
    have h1 : refs s.kids s.D .rc x = 0 := refs_eq_zero_of (by simp) fun y hy hp => hx (R.tgt y hy x hp)
    have h2 : s.ext x = 0 := by
      cases h : s.ext x with
      | zero => rfl
      | succ n => exact absurd (R.ext x (by omega)) hx
    rw [Spec.rc, h1, h2]
  refine ⟨?_, hx0⟩
  have hr : refs (upd s.kids x []) (s.D ++ [x]) .rc z = refs s.kids s.D .rc z := by
    unfold refs
    rw [List.map_append, List.sum_append]
    simp only [List.map_cons, List.map_nil, List.sum_cons, List.sum_nil, upd, if_true, List.count_nil, Nat.add_zero]
    congr 1
    apply List.map_congr_left
    intro w hw
    have : w ≠ x := by rintro rfl; exact hx hw
    simp [this]
  show refs (upd s.kids x []) (s.D ++ [x]) .rc z + s.ext z = _
  rw [hr]; rfl

variable (E : Eqv eqv)

include E in
/-- a new block without pointers -/
theorem new_ok {X : JS} {C : JHeap} (J : JG sg eqv oth X C) {b : Nat} (hb : b ∉ X.x.s.D) {kd : Kind}
    (hkd : kd = .raw ∨ kd = .list ∨ kd = .json .strn) :
    JG sg eqv oth (stepNew eqv X b kd)
      { C with m := { C.m with h := newBlock C.m.h b [] }, tag := upd C.tag b kd.tag } := by
  obtain ⟨A, G, S⟩ := J.mem
  obtain ⟨A', e, G'⟩ := mexec_spec E G (.plain (.mk b)) ⟨hb, trivial⟩ (Nat.le_refl _)
  cases e
  have hne : ∀ z ∈ X.x.s.D, z ≠ b := by rintro z hz rfl; exact hb hz
  refine ⟨⟨fun y hy => ?_, fun y hy => ?_, fun s hs => ?_⟩, ⟨_, G', S.h.new b [], S.maps, S.other⟩, fun y hy => ?_, J.single, J.foreign⟩
  · have hy : y ∈ X.x.s.D ++ [b] := hy
    rw [List.mem_append] at hy
    rcases hy with hy | hy
    · have := J.kindFrame hb kd hy
      simpa [stepNew, mstep, specStep, mkBlock, upd, hne y hy] using this
    · simp only [List.mem_singleton] at hy
      subst hy
      have h1 : (stepNew eqv X y kd).x.s.kids y = [] := by simp [stepNew, mstep, specStep, mkBlock, upd]
      have h2 : (stepNew eqv X y kd).kind y = kd := by simp [stepNew, upd]
      rw [h1, h2]
      rcases hkd with rfl | rfl | rfl
      · rfl
      · intro e he; cases he
      · rfl
  · have hy : y ∈ X.x.s.D ++ [b] := hy
    rw [List.mem_append] at hy
    rcases hy with hy | hy
    · have := J.typed.isMap y hy
      simpa [stepNew, mstep, upd, hne y hy] using this
    · simp only [List.mem_singleton] at hy
      subst hy
      rcases hkd with rfl | rfl | rfl <;> simp [stepNew, mstep, upd]
  · have h := J.typed.static s hs
    refine ⟨h.1, ?_⟩
    have : s ≠ b := hne s (J.staticIn hs)
    simpa [stepNew, upd, this] using h.2
  · have hy : y ∈ X.x.s.D ++ [b] := hy
    rw [List.mem_append] at hy
    rcases hy with hy | hy
    · have := J.tag y hy
      simpa [stepNew, upd, hne y hy] using this
    · simp only [List.mem_singleton] at hy
      subst hy
      simp [stepNew, upd]

/-! ### changes of the graph -/

/-- fewer blocks -/
theorem Typed.sub {X X' : JS} (T : Typed sg X) (hk : X'.kind = X.kind) (hK : X'.x.s.kids = X.x.s.kids)
    (hm : X'.x.maps = X.x.maps) (hM : X'.x.isMap = X.x.isMap) (hD : ∀ y ∈ X'.x.s.D, y ∈ X.x.s.D)
    (hs : ∀ s, sg s = true → 0 < X'.x.s.ext s) : Typed sg X' := by
  refine ⟨fun y hy => ?_, fun y hy => ?_, fun s h => ⟨hs s h, ?_⟩⟩
  · rw [hk, hK, hm]; exact T.shape y (hD y hy)
  · rw [hM, hk]; exact T.isMap y (hD y hy)
  · rw [hk]; exact (T.static s h).2

/-- other contents of a map -/
theorem Typed.put {X : JS} (T : Typed sg X) {m : Nat} (hm : X.kind m = .map) {c : MapC}
    (hc : Shape X.kind [] c .map) : Typed sg { X with x := X.x.put m c } := by
  refine ⟨fun y hy => ?_, T.isMap, T.static⟩
  by_cases h : y = m
  · subst h
    show Shape X.kind _ (upd X.x.maps y c y) (X.kind y)
    rw [hm]
    simpa [upd, Shape] using hc
  · have := T.shape y hy
    simpa [SM.put, upd, h] using this

/-- other contents of a list -/
theorem Typed.putList {X : JS} (T : Typed sg X) {l : Nat} (hl : X.kind l = .list) {K : List Edge}
    (hK : ∀ e ∈ K, ∃ v t, e = (.rc, some v) ∧ X.kind v = .json t) :
    Typed sg { X with x := { X.x with s := { X.x.s with kids := upd X.x.s.kids l K } } } := by
  refine ⟨fun y hy => ?_, T.isMap, T.static⟩
  by_cases h : y = l
  · subst h
    show Shape X.kind (upd X.x.s.kids y K y) _ (X.kind y)
    rw [hl]
    simpa [upd, Shape] using hK
  · have := T.shape y hy
    simpa [upd, h] using this

/-- the map or the list of a JSON value -/
theorem JG.held {X : JS} {C : JHeap} (J : JG sg eqv oth X C) {j : Nat} {t : Tag} (hj : IsA X j t) {kd : Kind}
    (ht : part t = some kd) : toPart C j t = .ok (X.held j) ∧ C.held j = some (X.held j) ∧ X.held j ∈ X.x.s.D ∧
      X.kind (X.held j) = kd ∧ C.m.h.live (X.held j) = true := by
  obtain ⟨A, G, S⟩ := J.mem
  have sh := J.typed.shape j hj.1
  rw [hj.2] at sh
  simp only [Shape, ht] at sh
  obtain ⟨p, hp, hk⟩ := sh
  have h1 : X.held j = p := by simp only [JS.held, hp]
  have h2 : C.held j = some p := by simp only [JHeap.held, J.kids, hp]
  have h3 : p ∈ X.x.s.D := Good.tgt G hj.1 (by rw [hp]; simp)
  rw [h1]
  refine ⟨?_, h2, h3, hk, (J.live p).2 h3⟩
  rw [toPart, if_pos ((J.live j).2 hj.1), if_pos (by rw [J.tag j hj.1, hj.2]; rfl), h2]

theorem JG.map {X : JS} {C : JHeap} (J : JG sg eqv oth X C) {m : Nat} (hm : m ∈ X.x.s.D) (hk : X.kind m = .map) :
    X.x.isMap m = true ∧ ∃ ord prs, X.x.maps m = ⟨.rc, .rc, ord, prs⟩ := by
  have sh := J.typed.shape m hm
  rw [hk] at sh
  refine ⟨(J.typed.isMap m hm).2 hk, (X.x.maps m).order, (X.x.maps m).pairs, ?_⟩
  obtain ⟨h1, h2, -⟩ := sh
  cases hc : X.x.maps m
  rw [hc] at h1 h2
  simp only at h1 h2
  subst h1 h2
  rfl

include E in
/-- a new JSON value -/
theorem tag_ok {X : JS} {C : JHeap} (J : JG sg eqv oth X C) {j p : Nat} {t : Tag} {kd : Kind} (hj : j ∉ X.x.s.D)
    (hp : p ∈ X.x.s.D) (ht : part t = some kd) (hk : X.kind p = kd) (hrc : X.x.s.rc p + 1 < 65536) :
    ∃ C', jsonMk C j t p = .ok C' ∧ JG sg eqv oth (stepTag eqv X j t p) C' := by
  obtain ⟨A, G, S⟩ := J.mem
  have hpj : p ≠ j := by rintro rfl; exact hj hp
  have hok : MOk eqv X.x (.plain (.mkTuple j [(.rc, some p)])) := by
    refine ⟨⟨hj, ⟨by simp [mkBlock, hp], ?_, ?_⟩, trivial⟩, trivial⟩
    · have := J.typed.own G p
      have h := (mk_spec G.rel hj)
      have e : (mkBlock X.x.s j).own p = X.x.s.own p := by
        rw [Spec.own, Spec.own]
        unfold refs
        simp only [mkBlock, List.map_append, List.sum_append, List.map_cons, List.map_nil, List.sum_cons, List.sum_nil,
          upd, if_true, List.count_nil, Nat.add_zero]
        congr 1
        apply List.map_congr_left
        intro w hw
        have : w ≠ j := by rintro rfl; exact hj hw
        simp [this]
      rw [e]; exact this
    · rw [(new_rc G.rel hj p).1]; exact hrc
  obtain ⟨A', e, G'⟩ := mexec_spec E G _ hok (Nat.le_refl _)
  simp only [mexec, exec] at e
  obtain ⟨r, e1, e2⟩ := map_ok.1 e
  obtain ⟨a, e3, rfl⟩ := map_ok.1 e1
  cases e2
  rw [tupleMk, incrAll] at e3
  obtain ⟨a', e4, e5⟩ := Res.bind_eq_ok.1 e3
  cases e5
  obtain ⟨c, f, S'⟩ := (S.h.new j [(.rc, some p)]).incr e4
  refine ⟨{ C with m := { C.m with h := c }, tag := upd C.tag j (some t) }, ?_, ?_⟩
  · simp only [jsonMk, taggedMk, f, Res.map_ok']
  have hne : ∀ z ∈ X.x.s.D, z ≠ j := by rintro z hz rfl; exact hj hz
  have hD : (stepTag eqv X j t p).x.s.D = X.x.s.D ++ [j] := rfl
  refine ⟨⟨fun y hy => ?_, fun y hy => ?_, fun s hs => ?_⟩, ⟨_, G', S', S.maps, S.other⟩, fun y hy => ?_, J.single, J.foreign⟩
  · rw [hD, List.mem_append] at hy
    rcases hy with hy | hy
    · have := J.kindFrame hj (.json t) hy
      simpa [stepTag, mstep, specStep, addEdges, addEdge, mkBlock, upd, hne y hy] using this
    · simp only [List.mem_singleton] at hy
      subst hy
      have h1 : (stepTag eqv X y t p).x.s.kids y = [(.rc, some p)] := by
        simp [stepTag, mstep, specStep, addEdges, addEdge, mkBlock, upd]
      have h2 : (stepTag eqv X y t p).kind y = .json t := by simp [stepTag, upd]
      rw [h1, h2]
      simp only [Shape, ht]
      exact ⟨p, rfl, by simp [stepTag, upd, hpj, hk]⟩
  · rw [hD, List.mem_append] at hy
    rcases hy with hy | hy
    · have := J.typed.isMap y hy
      simpa [stepTag, mstep, upd, hne y hy] using this
    · simp only [List.mem_singleton] at hy
      subst hy
      simp [stepTag, mstep, upd]
  · have h := J.typed.static s hs
    refine ⟨h.1, ?_⟩
    have : s ≠ j := hne s (J.staticIn hs)
    simpa [stepTag, upd, this] using h.2
  · rw [hD, List.mem_append] at hy
    rcases hy with hy | hy
    · have := J.tag y hy
      simpa [stepTag, upd, hne y hy] using this
    · simp only [List.mem_singleton] at hy
      subst hy
      simp [stepTag, upd, Kind.tag]

include E in
/-- a new map -/
theorem newMap_ok {X : JS} {C : JHeap} (J : JG sg eqv oth X C) {m : Nat} (hm : m ∉ X.x.s.D) :
    JG sg eqv oth (stepMap eqv X m) { C with m := mapMk C.m m .rc .rc, tag := upd C.tag m none } := by
  obtain ⟨A, G, S⟩ := J.mem
  obtain ⟨A', e, G'⟩ := mexec_spec E G (.mkMap m .rc .rc) ⟨hm, by simp⟩ (Nat.le_refl _)
  cases e
  have hne : ∀ z ∈ X.x.s.D, z ≠ m := by rintro z hz rfl; exact hm hz
  have hD : (stepMap eqv X m).x.s.D = X.x.s.D ++ [m] := rfl
  refine ⟨⟨fun y hy => ?_, fun y hy => ?_, fun s hs => ?_⟩,
    ⟨_, G', S.h.new m [], by simp only [mapMk, S.maps], S.other⟩, fun y hy => ?_, J.single, J.foreign⟩
  · rw [hD, List.mem_append] at hy
    rcases hy with hy | hy
    · have := J.kindFrame hm .map hy
      simpa [stepMap, mstep, mkBlock, upd, hne y hy] using this
    · simp only [List.mem_singleton] at hy
      subst hy
      have h2 : (stepMap eqv X y).kind y = .map := by simp [stepMap, upd]
      have h3 : (stepMap eqv X y).x.maps y = ⟨.rc, .rc, [], []⟩ := by simp [stepMap, mstep, upd]
      rw [h2, h3]
      exact ⟨rfl, rfl, by simp⟩
  · rw [hD, List.mem_append] at hy
    rcases hy with hy | hy
    · have := J.typed.isMap y hy
      simpa [stepMap, mstep, upd, hne y hy] using this
    · simp only [List.mem_singleton] at hy
      subst hy
      simp [stepMap, mstep, upd]
  · have h := J.typed.static s hs
    refine ⟨h.1, ?_⟩
    have : s ≠ m := hne s (J.staticIn hs)
    simpa [stepMap, upd, this] using h.2
  · rw [hD, List.mem_append] at hy
    rcases hy with hy | hy
    · have := J.tag y hy
      simpa [stepMap, upd, hne y hy] using this
    · simp only [List.mem_singleton] at hy
      subst hy
      simp [stepMap, upd, Kind.tag]

/-- deletion -/
theorem drop_ok {X : JS} {C : JHeap} (J : JG sg eqv oth X C) {v : Nat} (hv : v ∈ X.x.s.D) (hs : sg v = false)
    {fuel : Nat} (hf : X.x.s.D.length ≤ fuel) :
    ((0 < X.x.s.ext v ∨ X.x.s.rc v = 0) → ∃ h, delRefWith (traceS sg fuel) C.m.h (some v) = .ok (some h) ∧
      JG sg eqv oth (stepDrop X v) (C.on h)) ∧
    (X.x.s.rc v = 0 → ∃ h, delWith (traceS sg fuel) C.m.h (some v) = .ok (some h) ∧
      JG sg eqv oth (stepDrop X v) (C.on h)) := by
  obtain ⟨A, G, S⟩ := J.mem
  obtain ⟨d1, d2⟩ := drop_spec G.rel hv hf
  have own := J.typed.own G v
  have hex : ∀ s, sg s = true → 0 < (X.x.s.drop v).ext s := by
    intro s h
    have : s ≠ v := by rintro rfl; rw [hs] at h; cases h
    simp only [Spec.drop, upd, this, if_false]
    exact (J.typed.static s h).1
  have fin : ∀ a c, Rel (X.x.s.drop v) a → Sim sg a c → JG sg eqv oth (stepDrop X v) (C.on c) := by
    intro a c R S'
    have hD : ∀ y ∈ (X.x.s.drop v).D, y ∈ X.x.s.D := fun y hy => (List.mem_filter.1 hy).1
    exact ⟨J.typed.sub rfl rfl rfl rfl hD hex,
      ⟨{ A with h := a }, ⟨R, G.maps, fun y hy hM => (G.wf y (hD y hy) hM).frame rfl⟩, S', S.maps, S.other⟩,
      fun y hy => J.tag y (hD y hy), J.single, J.foreign⟩
  have lv : ∀ a, Rel (X.x.s.drop v) a → ∀ s, sg s = true → a.live s = true := fun a R s h =>
    (R.live s).2 (R.ext s (hex s h))
  have dl : X.x.s.rc v = 0 → ∃ a, del fuel A.h (some v) = .ok (some a) ∧ Rel (X.x.s.drop v) a ∧
      delRef fuel A.h (some v) = del fuel A.h (some v) := by
    intro h
    obtain ⟨⟨a, e, R⟩, e2⟩ := d2 ⟨h, own⟩
    exact ⟨a, e, R, e2⟩
  refine ⟨fun h => ?_, fun h => ?_⟩
  · have : ∃ a, delRef fuel A.h (some v) = .ok (some a) ∧ Rel (X.x.s.drop v) a := by
      rcases h with h | h
      · exact d1 h
      · obtain ⟨a, e, R, e2⟩ := dl h
        exact ⟨a, by rw [e2, e], R⟩
    obtain ⟨a, e, R⟩ := this
    obtain ⟨c, f, S'⟩ := S.h.delRef (traceOk sg fuel) e (lv a R)
    exact ⟨c, f, fin a c R S'⟩
  · obtain ⟨a, e, R, -⟩ := dl h
    obtain ⟨c, f, S'⟩ := S.h.delE (ed := (.del, some v)) (traceOk sg fuel) e (lv a R)
    exact ⟨c, f, fin a c R S'⟩

/-! ### static blocks, and references of the program -/

theorem JG.onSim {X : JS} {C : JHeap} (J : JG sg eqv oth X C) {c : RHeap}
    (h : ∀ A, Sim sg A C.m.h → Sim sg A c) : JG sg eqv oth X (C.on c) := by
  obtain ⟨A, G, S⟩ := J.mem
  exact ⟨J.typed, ⟨A, G, h _ S.h, S.maps, S.other⟩, J.tag, J.single, J.foreign⟩

theorem single_ok {X : JS} {C : JHeap} (J : JG sg eqv oth X C) {s : Nat} (hs : sg s = true) :
    JG sg eqv oth X (Verif.Rc.singleton C s) := J.onSim fun _ S => S.static hs 0 false

theorem takeStatic_ok {X : JS} {C : JHeap} (J : JG sg eqv oth X C) {s : Nat} (hs : sg s = true) :
    ∃ c, incrIndegree C.m.h (.rc, some s) = .ok c ∧ JG sg eqv oth X (C.on c) := by
  have hl := (J.live s).2 (J.staticIn hs)
  simp only [incrIndegree, incrRc, hl, if_true]
  split
  · exact ⟨_, rfl, J.onSim fun _ S => S⟩
  · exact ⟨_, rfl, J.onSim fun _ S => S.right hs _⟩

theorem dropStatic_ok {X : JS} {C : JHeap} (J : JG sg eqv oth X C) {s : Nat} (hs : sg s = true) (fuel : Nat) :
    (∃ c, delRefWith (traceS sg fuel) C.m.h (some s) = .ok (some c) ∧ JG sg eqv oth X (C.on c)) ∧
    (∃ c, delWith (traceS sg fuel) C.m.h (some s) = .ok (some c) ∧ JG sg eqv oth X (C.on c)) := by
  have hl := (J.live s).2 (J.staticIn hs)
  refine ⟨?_, ?_⟩
  · have h : ∀ A, Sim sg A C.m.h →
        Sim sg A (if C.m.h.deg s ≠ 0 then { C.m.h with deg := upd C.m.h.deg s (C.m.h.deg s - 1) } else C.m.h) := by
      intro A S
      split
      · exact S.right hs _
      · exact S
    refine ⟨_, ?_, J.onSim h⟩
    simp only [delRefWith, hl, if_true, traceS_static hs]
    generalize (if C.m.h.deg s ≠ 0 then { C.m.h with deg := upd C.m.h.deg s (C.m.h.deg s - 1) } else C.m.h) = c
    split
    · rfl
    · split <;> rfl
  · exact ⟨_, by rw [delWith, if_pos hl, traceS_static hs], J.onSim fun _ S => S⟩

/-- counting without a bound -/
theorem wide_count {s : Spec} {h : RHeap} (w : W s h) {y : Nat} (hy : y ∈ s.D) {b : Nat} (hb : b ∈ s.D) (ho : s.own b = 0) :
    W (addEdge s y (.rc, some b)) { h with deg := upd h.deg b (h.deg b + 1) } := by
  have hre := addEdge_refs w.nodup hy (.rc, some b)
  have hrb : h.ret b = false := by
    have := w.own b hb
    rw [ho] at this
    cases hr : h.ret b with
    | false => rfl
    | true => simp [hr] at this
  refine ⟨rfl, w.nodup, w.live, fun z hz x hx => ?_, w.ext, fun x hx => ?_, fun x hx => ?_, fun x hx hr => ?_⟩
  · obtain ⟨pol, hn, hm⟩ := hx
    simp only [addEdge, upd] at hm
    split at hm
    · rename_i hzy
      rw [List.mem_append, List.mem_singleton] at hm
      rcases hm with hm | hm
      · exact w.tgt z hz x ⟨pol, hn, hzy ▸ hm⟩
      · have : x = b := by simpa using congrArg (·.2) hm
        rw [this]; exact hb
    · exact w.tgt z hz x ⟨pol, hn, hm⟩
  · have h1 := hre .rc x
    have h2 : h.deg x = s.rc x := w.deg x hx
    show upd h.deg b (h.deg b + 1) x = refs (addEdge s y (.rc, some b)).kids s.D .rc x + s.ext x
    rw [h1]
    by_cases hxb : x = b
    · subst hxb; simp only [upd, if_true, h2, Spec.rc]; omega
    · simp only [upd, hxb, if_false, h2, Spec.rc]
      rw [if_neg (by simpa using fun e => hxb e.symm)]; rfl
  · have h1 := hre .del x
    rw [if_neg (by simp)] at h1
    show refs (addEdge s y (.rc, some b)).kids s.D .del x = _
    rw [h1]; exact w.own x hx
  · have h1 := hre .rc x
    have hxb : x ≠ b := by rintro rfl; have : h.ret x = true := hr; rw [hrb] at this; cases this
    rw [if_neg (by simpa using fun e => hxb e.symm)] at h1
    show refs (addEdge s y (.rc, some b)).kids s.D .rc x + s.ext x = 0
    rw [h1]; exact w.excl x hx hr

/-- a new pointer to a static block or to one that may have one more -/
theorem count_ok {s : Spec} {a c : RHeap} (w : W s a) (S : Sim sg a c) {y : Nat} (hy : y ∈ s.D) {b : Nat} (hb : b ∈ s.D)
    (ho : s.own b = 0) (hlt : sg b = true ∨ s.rc b + 1 < 65536) :
    ∃ a' c', incrIndegree c (.rc, some b) = .ok c' ∧ W (addEdge s y (.rc, some b)) a' ∧ Sim sg a' c' ∧
      a'.kids = a.kids ∧ a'.live = a.live := by
  rcases hlt with hs | hlt
  · have w' := wide_count w hy hb ho
    have hl : c.live b = true := by rw [S.live]; exact (w.live b).2 hb
    have S' := S.left hs (a.deg b + 1)
    simp only [incrIndegree, incrRc, hl, if_true]
    split
    · exact ⟨_, _, rfl, w', S', rfl, rfl⟩
    · exact ⟨_, _, rfl, w', S'.right hs _, rfl, rfl⟩
  · obtain ⟨a', e, w'⟩ := w.incr hy (e := (.rc, some b)) ⟨hb, ho, hlt⟩
    obtain ⟨c', f, S'⟩ := S.incr e
    exact ⟨a', c', f, w', S', (incr_frame e).1, (incr_frame e).2⟩

theorem take_ok {X : JS} {C : JHeap} (J : JG sg eqv oth X C) {v : Nat} (hs : sg v = false) (h : OkVal sg X v 1) :
    ∃ c, incrIndegree C.m.h (.rc, some v) = .ok c ∧ JG sg eqv oth (stepM eqv X (.plain (.incr (some v)))) (C.on c) := by
  obtain ⟨A, G, S⟩ := J.mem
  obtain ⟨a, e, R⟩ := incr_spec G.rel h.1 (J.typed.own G v) (h.2.2.resolve_left (by simp [hs]))
  obtain ⟨c, f, S'⟩ := S.h.incr e
  refine ⟨c, f, J.typed.sub rfl rfl rfl rfl (fun y hy => hy) (fun s hs => ?_),
    ⟨{ A with h := a }, ⟨R, G.maps, fun y hy hM => (G.wf y hy hM).frame rfl⟩, S', S.maps, S.other⟩, J.tag, J.single,
    J.foreign⟩
  have := (J.typed.static s hs).1
  simp only [stepM, mstep, specStep, upd]
  split
  · omega
  · exact this

/-! ### arrays -/

/-- memory after a change of a list -/
theorem JG.list {X : JS} {C : JHeap} (J : JG sg eqv oth X C) {l : Nat} (hl : l ∈ X.x.s.D) (hk : X.kind l = .list)
    {K : List Edge} (hK : ∀ e ∈ K, ∃ v t, e = (.rc, some v) ∧ X.kind v = .json t) {A : MHeap} (G : Good eqv X.x A)
    (S : SimM sg A C.m) {a c : RHeap} (R : Rel { X.x.s with kids := upd X.x.s.kids l K } a) (S' : Sim sg a c) :
    JG sg eqv oth { X with x := { X.x with s := { X.x.s with kids := upd X.x.s.kids l K } } } (C.on c) := by
  refine ⟨J.typed.putList hk hK, ⟨{ A with h := a }, ⟨R, G.maps, fun y hy hM => ?_⟩, S', S.maps, S.other⟩, J.tag,
    J.single, J.foreign⟩
  refine (G.wf y hy hM).frame ?_
  have : y ≠ l := by
    rintro rfl
    rw [(J.typed.isMap y hl).1 hM] at hk; cases hk
  simp [upd, this]

theorem JG.elems {X : JS} {C : JHeap} (J : JG sg eqv oth X C) {l : Nat} (hl : l ∈ X.x.s.D) (hk : X.kind l = .list) :
    ∀ e ∈ X.x.s.kids l, ∃ v t, e = (.rc, some v) ∧ X.kind v = .json t := by
  have sh := J.typed.shape l hl
  rw [hk] at sh
  exact sh

theorem append_ok {X : JS} {C : JHeap} (J : JG sg eqv oth X C) {l v : Nat} (hl : l ∈ X.x.s.D) (hk : X.kind l = .list)
    (hv : OkVal sg X v 1) : ∃ c, listAppend C.m.h l (.rc, some v) = .ok c ∧
      JG sg eqv oth (stepM eqv X (.plain (.append l (.rc, some v)))) (C.on c) := by
  obtain ⟨A, G, S⟩ := J.mem
  obtain ⟨a, c, f, w, S', -, -⟩ := count_ok (W.of G.rel) S.h hl hv.1 (J.typed.own G v) hv.2.2
  have f' := incrIndegree_kids f (upd X.x.s.kids l (X.x.s.kids l ++ [(.rc, some v)]))
  refine ⟨_, ?_, J.list hl hk (fun e he => ?_) G S w (S'.put _)⟩
  · rw [listAppend, if_pos ((J.live l).2 hl), J.kids]; exact f'
  · rcases List.mem_append.1 he with he | he
    · exact J.elems hl hk e he
    · obtain ⟨t, ht⟩ := hv.2.1
      exact ⟨v, t, by simpa using he, ht⟩

theorem insert_ok {X : JS} {C : JHeap} (J : JG sg eqv oth X C) {l v i : Nat} (hl : l ∈ X.x.s.D) (hk : X.kind l = .list)
    (hv : OkVal sg X v 1) : ∃ c, listInsert C.m.h l i (.rc, some v) = .ok c ∧
      JG sg eqv oth { X with x := { X.x with s := { X.x.s with
        kids := upd X.x.s.kids l ((X.x.s.kids l).take i ++ (.rc, some v) :: (X.x.s.kids l).drop i) } } } (C.on c) := by
  obtain ⟨A, G, S⟩ := J.mem
  obtain ⟨a, c, f, w, S', -, -⟩ := count_ok (W.of G.rel) S.h hl hv.1 (J.typed.own G v) hv.2.2
  have hp : ((addEdge X.x.s l (.rc, some v)).kids l).Perm
      ((X.x.s.kids l).take i ++ (.rc, some v) :: (X.x.s.kids l).drop i) := by
    simp only [addEdge, upd, if_true]
    refine List.Perm.trans ?_ List.perm_middle.symm
    rw [List.take_append_drop]
    exact List.perm_append_singleton _ _
  have R := w.perm hp
  have hkk : upd (addEdge X.x.s l (.rc, some v)).kids l
      ((X.x.s.kids l).take i ++ (.rc, some v) :: (X.x.s.kids l).drop i) =
      upd X.x.s.kids l ((X.x.s.kids l).take i ++ (.rc, some v) :: (X.x.s.kids l).drop i) := by
    simp only [addEdge, upd_upd]
  simp only [W, hkk] at R
  have f' := incrIndegree_kids f (upd X.x.s.kids l ((X.x.s.kids l).take i ++ (.rc, some v) :: (X.x.s.kids l).drop i))
  refine ⟨_, ?_, J.list hl hk (fun e he => ?_) G S R (S'.put _)⟩
  · rw [listInsert, if_pos ((J.live l).2 hl), J.kids]; exact f'
  · rcases List.mem_append.1 he with he | he
    · exact J.elems hl hk e (List.mem_of_mem_take he)
    · rcases List.mem_cons.1 he with he | he
      · obtain ⟨t, ht⟩ := hv.2.1
        exact ⟨v, t, he, ht⟩
      · exact J.elems hl hk e (List.mem_of_mem_drop he)

theorem removeAt_ok {X : JS} {C : JHeap} (J : JG sg eqv oth X C) {l i : Nat} (hl : l ∈ X.x.s.D) (hk : X.kind l = .list) :
    ∃ c, listRemove C.m.h l i = .ok c ∧ JG sg eqv oth (stepM eqv X (.plain (.remove l i))) (C.on c) := by
  obtain ⟨A, G, S⟩ := J.mem
  cases hi : (X.x.s.kids l)[i]? with
  | none =>
    have hlen : (X.x.s.kids l).length ≤ i := List.getElem?_eq_none_iff.1 hi
    refine ⟨C.m.h, ?_, ?_⟩
    · simp only [listRemove, (J.live l).2 hl, if_true, J.kids, hi]
    · have : stepM eqv X (.plain (.remove l i)) = X := by
        simp only [stepM, mstep, specStep, List.eraseIdx_of_length_le hlen, upd_self]
      rw [this]; exact J.onSim fun _ S => S
  | some e =>
    obtain ⟨v, t, rfl, -⟩ := J.elems hl hk e (List.mem_of_getElem? hi)
    obtain ⟨a, e, R⟩ := remove_spec G.rel hl hi (.inr (by simp))
    rw [listRemove, if_pos ((G.rel.live l).2 hl), G.rel.kids, hi] at e
    obtain ⟨c, f, S'⟩ := (S.h.put _).decr e
    refine ⟨c, ?_, J.list hl hk (fun e he => J.elems hl hk e (List.mem_of_mem_eraseIdx he)) G S R S'⟩
    simp only [listRemove, (J.live l).2 hl, if_true, J.kids, hi]
    exact f

theorem concat_ok (d s : Nat) (K : List Edge) : ∀ (n i : Nat) {X : JS} {C : JHeap}, JG sg eqv oth X C →
    d ∈ X.x.s.D → s ∈ X.x.s.D → X.kind d = .list → X.kind s = .list → d ≠ s → X.x.s.kids s = K → K.length ≤ i + n →
    (∀ v ∈ X.x.s.D, Few sg X v ((K.drop i).count (.rc, some v))) →
    ∃ c, concatLoop d s n C.m.h i = .ok (some c) ∧
      JG sg eqv oth { X with x := { X.x with s := { X.x.s with
        kids := upd X.x.s.kids d (X.x.s.kids d ++ K.drop i) } } } (C.on c) := by
  intro n
  induction n with
  | zero =>
    intro i X C J hd hs kd ks hne hK hlen hrc
    have hi : K[i]? = none := List.getElem?_eq_none_iff.2 (by omega)
    refine ⟨C.m.h, ?_, ?_⟩
    · rw [concatLoop, if_pos ((J.live s).2 hs), J.kids, hK, hi]
    · rw [List.drop_eq_nil_of_le (by omega), List.append_nil, upd_self]
      exact J.onSim fun _ S => S
  | succ n ih =>
    intro i X C J hd hs kd ks hne hK hlen hrc
    cases hi : K[i]? with
    | none =>
      have hl : K.length ≤ i := List.getElem?_eq_none_iff.1 hi
      refine ⟨C.m.h, ?_, ?_⟩
      · rw [concatLoop, if_pos ((J.live s).2 hs), J.kids, hK, hi]
      · rw [List.drop_eq_nil_of_le hl, List.append_nil, upd_self]
        exact J.onSim fun _ S => S
    | some e =>
      have hm : e ∈ X.x.s.kids s := by rw [hK]; exact List.mem_of_getElem? hi
      obtain ⟨v, t, rfl, hv⟩ := J.elems hs ks e hm
      obtain ⟨A, G, S⟩ := J.mem
      have hvD := Good.tgt G hs hm
      obtain ⟨hlt, hei⟩ := List.getElem?_eq_some_iff.1 hi
      have hdrop : K.drop i = (.rc, some v) :: K.drop (i + 1) := by rw [List.drop_eq_getElem_cons hlt, hei]
      have hr := hrc v hvD
      rw [hdrop, List.count_cons_self] at hr
      obtain ⟨c, f, J'⟩ := append_ok J hd kd (v := v) ⟨hvD, ⟨t, hv⟩, hr.imp_right fun h => by omega⟩
      have hrc' : ∀ w ∈ X.x.s.D, Few sg (stepM eqv X (.plain (.append d (.rc, some v)))) w ((K.drop (i + 1)).count (.rc, some w)) := by
        intro w hw
        refine (hrc w hw).imp_right fun h1 => ?_
        have h2 := addEdge_refs G.rel.nodup hd (.rc, some v) .rc w
        rw [hdrop, List.count_cons] at h1
        simp only [Spec.rc] at h1
        show refs (addEdge X.x.s d (.rc, some v)).kids X.x.s.D .rc w + X.x.s.ext w + _ < _
        rw [h2]
        by_cases hvw : v = w
        · subst hvw; simp at h1 ⊢; omega
        · simp [hvw] at h1 ⊢; omega
      have hK' : (stepM eqv X (.plain (.append d (.rc, some v)))).x.s.kids s = K := by
        simp only [stepM, mstep, specStep, addEdge, upd]
        rw [if_neg (fun h => hne h.symm)]; exact hK
      obtain ⟨c', f', J''⟩ := ih (i + 1) J' hd hs kd ks hne hK' (by omega) hrc'
      refine ⟨c', ?_, ?_⟩
      · rw [concatLoop, if_pos ((J.live s).2 hs), J.kids, hK, hi]
        simp only [f, Res.bind_ok]
        exact f'
      · have e : upd (stepM eqv X (.plain (.append d (.rc, some v)))).x.s.kids d
            ((stepM eqv X (.plain (.append d (.rc, some v)))).x.s.kids d ++ K.drop (i + 1)) =
            upd X.x.s.kids d (X.x.s.kids d ++ K.drop i) := by
          simp only [stepM, mstep, specStep, addEdge, upd_upd]
          congr 1
          rw [hdrop]; simp [upd]
        rw [e] at J''
        exact J''

/-! ### objects -/

theorem stepAdd_frame (X : SM) (m k : Nat) (v : Ptr) : (stepAdd eqv X m k v).s.ext = X.s.ext ∧
    (stepAdd eqv X m k v).isMap = X.isMap ∧ ∀ y ∈ (stepAdd eqv X m k v).s.D, y ∈ X.s.D := by
  unfold stepAdd
  dsimp only
  split
  · split
    · exact ⟨rfl, rfl, fun y hy => (List.mem_filter.1 hy).1⟩
    · exact ⟨rfl, rfl, fun y hy => hy⟩
  · exact ⟨rfl, rfl, fun y hy => hy⟩

theorem Typed.add {X : JS} (T : Typed sg X) {m k v : Nat} {t : Tag} (hmD : m ∈ X.x.s.D) (hm : X.kind m = .map)
    (hk : X.kind k = .raw) (hv : X.kind v = .json t) : Typed sg { X with x := stepAdd eqv X.x m k (some v) } := by
  have sh := T.shape m hmD
  rw [hm] at sh
  obtain ⟨h1, h2, h3⟩ := sh
  unfold stepAdd
  dsimp only
  split
  · have T1 : Typed sg { X with x := X.x.put m { X.x.maps m with
        pairs := (X.x.maps m).pairs.map (fun p => if eqv k p.1 then (p.1, some v) else p) } } := by
      refine T.put hm ⟨h1, h2, fun p hp => ?_⟩
      obtain ⟨q, hq, rfl⟩ := List.mem_map.1 hp
      split
      · exact ⟨(h3 q hq).1, v, t, rfl, hv⟩
      · exact h3 q hq
    exact T1.sub rfl rfl rfl rfl (fun y hy => (List.mem_filter.1 hy).1) (fun s hs => (T.static s hs).1)
  · refine T.put hm ⟨h1, h2, fun p hp => ?_⟩
    rcases List.mem_append.1 hp with hp | hp
    · exact h3 p hp
    · simp only [List.mem_singleton] at hp
      subst hp
      exact ⟨hk, v, t, rfl, hv⟩

theorem look_mem (E : Eqv eqv) {k : Nat} {l : List (Nat × Ptr)} (hd : l.Pairwise (fun p q => eqv p.1 q.1 = false))
    {p : Nat × Ptr} (hp : p ∈ l) (he : eqv k p.1 = true) : l.find? (fun p => eqv k p.1) = some p := by
  induction l with
  | nil => cases hp
  | cons q l ih =>
    rw [List.pairwise_cons] at hd
    rcases List.mem_cons.1 hp with rfl | hp
    · simp [List.find?_cons, he]
    · have : ¬ eqv k q.1 = true := by
        intro h
        have := E.trans _ _ _ (E.symm _ _ h) he
        rw [hd.1 p hp] at this; cases this
      simp only [List.find?_cons, this]
      exact ih hd.2 hp

theorem mapAddS_other {tr : RHeap → Nat → Res (Option RHeap)} {H H' : MHeap} {m k : Nat} {v r : Ptr}
    (e : mapAddS tr eqv H m k v = .ok (some (H', r))) : H'.other = H.other := by
  simp only [mapAddS] at e
  split at e
  · obtain ⟨a, -, e⟩ := Res.bind_eq_ok.1 e
    obtain ⟨b, -, e⟩ := Res.bind_eq_ok.1 e
    simp only [mapPutS] at e
    split at e
    · split at e
      · obtain ⟨h, -, e⟩ := map_ok.1 e
        cases e; rfl
      · simp only [mapOverS] at e
        obtain ⟨B, e1, e⟩ := Res.bind_eq_ok.1 e
        have hB : B.other = H.other := by
          split at e1
          · obtain ⟨h, -, e⟩ := map_ok.1 e1
            cases e; rfl
          · cases e1; rfl
        split at e
        · cases e; exact hB
        · cases e
        · cases e
        · cases e
    · cases e
  · cases e

include E in
/-- `cee_map_add` of a new string -/
theorem put_ok {X : JS} {C : JHeap} (J : JG sg eqv oth X C) {m k v : Nat} (hm : m ∈ X.x.s.D) (hkm : X.kind m = .map)
    (hk : k ∈ X.x.s.D) (hkk : X.kind k = .raw) (hk0 : X.x.s.rc k = 0) (hv : OkVal sg X v 1)
    (hsame : look eqv (X.x.maps m) k = some (some v) → sg v = true) {fuel : Nat} (hf : X.x.s.D.length ≤ fuel) :
    ∃ C', putIn eqv fuel C m k v = .ok (some C') ∧ JG sg eqv oth { X with x := stepAdd eqv X.x m k (some v) } C' := by
  obtain ⟨A, G, S⟩ := J.mem
  obtain ⟨hM, ord, prs, hc⟩ := J.map hm hkm
  obtain ⟨hvD, ⟨t, ht⟩, hvr⟩ := hv
  have hvk : v ≠ k := by rintro rfl; rw [hkk] at ht; cases ht
  have hown := J.typed.own G
  have hcA : A.maps m = ⟨.rc, .rc, ord, prs⟩ := by rw [G.maps]; exact hc
  obtain ⟨fx, fm, fD⟩ := stepAdd_frame (eqv := eqv) X.x m k (some v)
  have T' : Typed sg { X with x := stepAdd eqv X.x m k (some v) } := J.typed.add hm hkm hkk ht
  have fin : ∀ A' C', Good eqv (stepAdd eqv X.x m k (some v)) A' → SimM sg A' C' → C'.other = C.m.other →
      JG sg eqv oth { X with x := stepAdd eqv X.x m k (some v) } { C with m := C' } := fun A' C' G' S' ho =>
    ⟨T', ⟨A', G', S'⟩, fun y hy => J.tag y (fD y hy), J.single, by rw [← J.foreign]; exact ho⟩
  have lv : ∀ a, Rel (stepAdd eqv X.x m k (some v)).s a → ∀ s, sg s = true → a.live s = true := fun a R s hs =>
    (R.live s).2 (R.ext s (by rw [fx]; exact (J.typed.static s hs).1))
  have wf := G.wf m hm hM
  by_cases hl : look eqv (X.x.maps m) k = some (some v)
  · -- the value that is there, a static block
    have hs := hsame hl
    obtain ⟨ak, e1, w1⟩ := (W.of G.rel).hold hk (hown k) (by omega)
    have fr1 := incr_frame e1
    obtain ⟨ck, f1, S1⟩ := S.h.incr e1
    obtain ⟨a, p, b, hfp, hp2⟩ := look_some E hl
    obtain ⟨hsplit, hkp, -, -⟩ := findPair_some hfp
    have hpairs : (X.x.maps m).pairs.map (fun p => if eqv k p.1 then (p.1, some v) else p) = (X.x.maps m).pairs := by
      refine (List.map_congr_left fun q hq => ?_).trans (List.map_id _)
      by_cases hq' : eqv k q.1 = true
      · have h1 := look_mem E wf.dist hq hq'
        rw [look, h1] at hl
        have : q.2 = some v := by simpa using hl
        rw [if_pos hq', ← this]; rfl
      · rw [if_neg hq']; rfl
    have hput : X.x.put m (X.x.maps m) = X.x := by
      simp only [SM.put, ← wf.kids, upd_self]
    have hstep : stepAdd eqv X.x m k (some v) = { X.x with s := letGo X.x.s k } := by
      have hkp' : (X.x.maps m).kp = .rc := by rw [hc]
      have hput' : X.x.put m { X.x.maps m with pairs := (X.x.maps m).pairs } = X.x := hput
      unfold stepAdd
      dsimp only
      rw [if_pos (by rw [hl]; rfl), if_pos hkp', hpairs, hput']
    obtain ⟨a', e2, R2⟩ := letGo_spec E w1 hk (by rw [fr1.1]; exact G.rel.kids) hf
    have hcv : ∃ cv, incrIndegree ck (.rc, some v) = .ok cv ∧ Sim sg ak cv := by
      have hlv : ck.live v = true := by rw [S1.live, fr1.2]; exact (G.rel.live v).2 hvD
      simp only [incrIndegree, incrRc, hlv, if_true]
      split
      · exact ⟨_, rfl, S1⟩
      · exact ⟨_, rfl, S1.right hs _⟩
    obtain ⟨cv, f2, S2⟩ := hcv
    obtain ⟨c', f3, S3⟩ := S2.delRef (traceOk sg fuel) e2 (lv a' (by rw [hstep]; exact R2))
    refine ⟨{ C with m := { C.m with h := c' } }, ?_, ?_⟩
    · have hcC : C.m.maps m = ⟨.rc, .rc, ord, prs⟩ := by rw [S.maps, hcA]
      have hfp' : findPair eqv k prs = some (a, p, b) := by rw [hc] at hfp; exact hfp
      have hrd : readable { C.m with h := cv } m k = true := by
        have h1 : readable { A with h := ak } m k = true :=
          readable_of (h := ak) wf G.maps G.rel fr1.2 hm hk
        rw [← h1]
        simp only [readable, S2.live, S.maps, S.other]
      simp only [putIn, J.single, mapAddS, mapPutS, (J.live m).2 hm, if_true, hcC, f1, Res.bind_ok, f2, hrd, hfp', mapOverS, hp2,
        ne_eq, not_true_eq_false, if_false, delE, f3, Res.map_ok', Option.map_some]
    · refine fin { A with h := a' } _ ?_ ⟨S3, S.maps, S.other⟩ rfl
      rw [hstep]
      exact ⟨R2, G.maps, fun y hy hM' => (G.wf y (List.mem_filter.1 hy).1 hM').frame rfl⟩
  · have hcC : C.m.maps m = ⟨.rc, .rc, ord, prs⟩ := by rw [S.maps, hcA]
    have g1 := fun z => addEdge_own G.rel.nodup hm (e := (.rc, some k)) (by simp) z
    have key : ∀ (s1 : Spec) (a1 c1 : RHeap), W s1 a1 → Sim sg a1 c1 → incrIndegree C.m.h (.rc, some k) = .ok c1 →
        a1.kids = A.h.kids → a1.live = A.h.live → s1.D = X.x.s.D → s1.own v = 0 → s1.rc v = X.x.s.rc v →
        (∀ a2, W (addEdge s1 m (.rc, some v)) a2 → a2.kids = A.h.kids → a2.live = A.h.live →
          ∃ A' r, mapPut eqv fuel { A with h := a2 } m k (some v) none = .ok (some (A', r)) ∧
            Good eqv (stepAdd eqv X.x m k (some v)) A') →
        ∃ C', putIn eqv fuel C m k v = .ok (some C') ∧ JG sg eqv oth { X with x := stepAdd eqv X.x m k (some v) } C' := by
      intro s1 a1 c1 w1 S1 f1 hK1 hL1 hD1 ho1 hr1 next
      obtain ⟨a2, c2, f2, w2, S2, hK2, hL2⟩ := count_ok w1 S1 (y := m) (by rw [hD1]; exact hm) (b := v)
        (by rw [hD1]; exact hvD) ho1 (by rw [hr1]; exact hvr)
      obtain ⟨A', r, e, G'⟩ := next a2 w2 (hK2.trans hK1) (hL2.trans hL1)
      obtain ⟨C', f, S'⟩ := SimM.tail (A := { A with h := a2 }) (C := { C.m with h := c2 }) ⟨S2, S.maps, S.other⟩ hcA e
        (lv A'.h G'.rel)
      have fa : mapAddS (traceS sg fuel) eqv C.m m k (some v) = .ok (some (C', r)) := by
        simp only [mapAddS, (J.live m).2 hm, if_true, hcC, f1, Res.bind_ok, f2]
        exact f
      refine ⟨{ C with m := C' }, ?_, fin A' C' G' S' (mapAddS_other fa)⟩
      simp only [putIn, J.single, fa, Res.map_ok', Option.map_some]
    cases hn : look eqv (X.x.maps m) k with
    | none =>
      obtain ⟨a1, c1, f1, w1, S1, hK1, hL1⟩ := count_ok (W.of G.rel) S.h hm hk (hown k) (.inr (by omega))
      have hv1 : (addEdge X.x.s m (.rc, some k)).rc v = X.x.s.rc v := by
        have := addEdge_refs G.rel.nodup hm (.rc, some k) .rc v
        rw [if_neg (by simpa using fun h => hvk h.symm)] at this
        simp only [Spec.rc]
        show refs (addEdge X.x.s m (.rc, some k)).kids X.x.s.D .rc v + X.x.s.ext v = _
        rw [this]; rfl
      refine key _ a1 c1 w1 S1 f1 hK1 hL1 rfl (by rw [(g1 v).1]; exact hown v) hv1 fun a2 w2 hK2 hL2 => ?_
      have hm1 : m ∈ (addEdge X.x.s m (.rc, some k)).D := hm
      have g2 := fun z => addEdge_own (s := addEdge X.x.s m (.rc, some k)) G.rel.nodup hm1 (e := (.rc, some v)) (by simp) z
      have o3 : OkEdge (addEdge (addEdge X.x.s m (.rc, some k)) m (.rc, some v)) (.rc, some k) := by
        refine ⟨hk, ?_, ?_⟩
        · rw [(g2 k).1, (g1 k).1]; exact hown k
        · have := (g2 k).2; have := (g1 k).2; omega
      obtain ⟨A', e, G'⟩ := put_fresh E G hm hM hk hn (v := some v) (.inr (by simp)) (h2 := a2) (by rw [hc]; exact w2) (by rw [hc]; exact o3)
        hK2 hL2 fuel none
      exact ⟨A', _, e, G'⟩
    | some v0 =>
      have hheld : MapProps.held X.x m k = { X.x.s with ext := upd X.x.s.ext k (X.x.s.ext k + 1) } := by
        rw [MapProps.held, hc, if_pos rfl]
      obtain ⟨a1, e1, w1⟩ := (W.of G.rel).hold hk (hown k) (by omega)
      obtain ⟨c1, f1, S1⟩ := S.h.incr e1
      have fr := incr_frame e1
      refine key _ a1 c1 w1 S1 f1 fr.1 fr.2 rfl (hown v) ?_ fun a2 w2 hK2 hL2 => ?_
      · simp only [Spec.rc, upd, hvk, if_false]
      · obtain ⟨A', e, G'⟩ := put_over E G hm hM hk hn (v := some v) (.inr (by simp)) (h2 := a2)
          (by rw [hheld, hc]; exact w2) (fun h => absurd (hn.trans (by rw [h])) hl) hK2 hL2 hf
        exact ⟨A', _, e, G'⟩

theorem findPair_congr {k k' : Nat} (h : eqv k = eqv k') (l : List (Nat × Ptr)) :
    findPair eqv k l = findPair eqv k' l := by
  induction l with
  | nil => rfl
  | cons p l ih => rw [findPair, findPair, h, ih]

theorem findKey_congr {k k' : Nat} (h : eqv k = eqv k') (l : List Nat) : findKey eqv k l = findKey eqv k' l := by
  induction l with
  | nil => rfl
  | cons p l ih => rw [findKey, findKey, h, ih]

theorem mapRemove_other {H H' : MHeap} {m : Nat} {k r : Ptr} (e : mapRemove eqv H m k = .ok (H', r)) :
    H'.other = H.other := by
  cases k with
  | none => cases e; rfl
  | some k =>
    simp only [mapRemove] at e
    split at e
    · split at e
      · cases e; rfl
      · obtain ⟨a, -, e⟩ := Res.bind_eq_ok.1 e
        obtain ⟨b, -, e⟩ := Res.bind_eq_ok.1 e
        split at e
        · cases e
        · obtain ⟨h, -, e⟩ := map_ok.1 e
          cases e; rfl
    · cases e

include E in
/-- `cee_map_remove` by a live string or by a C string -/
theorem rem_ok {X : JS} {C : JHeap} (J : JG sg eqv oth X C) {m k : Nat} (hm : m ∈ X.x.s.D) (hkm : X.kind m = .map)
    (hk : k ∈ X.x.s.D ∨ oth k = true) :
    ∃ C', mapRemove eqv C.m m (some k) = .ok (C', (look eqv (X.x.maps m) k).getD none) ∧
      JG sg eqv oth { X with x := stepRemove eqv X.x m k } { C with m := C' } := by
  obtain ⟨A, G, S⟩ := J.mem
  obtain ⟨hM, ord, prs, hc⟩ := J.map hm hkm
  have hcA : A.maps m = ⟨.rc, .rc, ord, prs⟩ := by rw [G.maps]; exact hc
  have wf := G.wf m hm hM
  have sh := J.typed.shape m hm
  rw [hkm] at sh
  have habs : ∃ A', mapRemove eqv A m (some k) = .ok (A', (look eqv (X.x.maps m) k).getD none) ∧
      Good eqv (stepRemove eqv X.x m k) A' := by
    by_cases hkD : k ∈ X.x.s.D
    · exact rem_spec E G ⟨hm, hM, hkD⟩
    · have ho : A.other k = true := by
        rw [← S.other, J.foreign]
        exact hk.resolve_left hkD
      have hrd0 : readable A m m = true := readable_of (h := A.h) wf G.maps G.rel rfl hm hm
      have hrd : readable A m k = true := by
        simp only [readable, Bool.and_eq_true] at hrd0 ⊢
        exact ⟨⟨⟨hrd0.1.1.1, by simp [ho]⟩, hrd0.1.2⟩, hrd0.2⟩
      cases hn : look eqv (X.x.maps m) k with
      | none =>
        have hf : findPair eqv k (X.x.maps m).pairs = none := by
          rw [findPair_none]; simpa [look] using hn
        refine ⟨A, ?_, by simpa [stepRemove, hn] using G⟩
        simp only [mapRemove, hrd, if_true, G.maps, hf]
        rfl
      | some v0 =>
        obtain ⟨a, p, b, hfp, hp2⟩ := look_some E hn
        obtain ⟨hsplit, hkp, -, -⟩ := findPair_some hfp
        have hp : p ∈ (X.x.maps m).pairs := by rw [hsplit]; simp
        have hpD := (Good.pair G hm hM sh.1 sh.2.1 hp).1
        have hfun : eqv k = eqv p.1 := by
          funext z
          apply Bool.eq_iff_iff.2
          exact ⟨fun h => E.trans _ _ _ (E.symm _ _ hkp) h, fun h => E.trans _ _ _ hkp h⟩
        have hrd' : readable A m p.1 = true := readable_of (h := A.h) wf G.maps G.rel rfl hm hpD
        obtain ⟨A', e, G'⟩ := rem_spec E G (m := m) (k := p.1) ⟨hm, hM, hpD⟩
        have hlook : look eqv (X.x.maps m) p.1 = some v0 := by rw [← hn, look, look, hfun]
        rw [hlook] at e
        refine ⟨A', ?_, ?_⟩
        · rw [← e]
          simp only [mapRemove, hrd, hrd', if_true, findPair_congr hfun, findKey_congr hfun]
        · have : stepRemove eqv X.x m k = stepRemove eqv X.x m p.1 := by
            unfold stepRemove
            simp only [hn, hlook, hfun]
          rw [this]; exact G'
  obtain ⟨A', e, G'⟩ := habs
  obtain ⟨C', f, S'⟩ := S.remove hcA e
  have hD : (stepRemove eqv X.x m k).s.D = X.x.s.D := stepRemove_D E X.x m k
  refine ⟨C', f, ?_, ⟨A', G', S'⟩, fun y hy => J.tag y (hD ▸ hy), J.single, ?_⟩
  · unfold stepRemove
    dsimp only
    split
    · exact J.typed.put hkm ⟨sh.1, sh.2.1, fun p hp => sh.2.2 p (List.mem_filter.1 hp).1⟩
    · exact J.typed
  · rw [← J.foreign]; exact mapRemove_other f

/-! ### which blocks are referred to -/

/-- no references -/
theorem rc_zero {s : Spec} {z : Nat} : s.rc z = 0 ↔ s.ext z = 0 ∧ ∀ y ∈ s.D, (Policy.rc, some z) ∉ s.kids y := by
  constructor
  · intro h
    rw [Spec.rc] at h
    refine ⟨by omega, fun y hy hm => ?_⟩
    have := refs_pos hy hm
    omega
  · rintro ⟨h1, h2⟩
    have : refs s.kids s.D .rc z = 0 := by
      unfold refs
      apply List.sum_eq_zero
      intro n hn
      obtain ⟨y, hy, rfl⟩ := List.mem_map.1 hn
      exact List.count_eq_zero.2 (h2 y hy)
    rw [Spec.rc, this, h1]

/-- a block that is not referred to, after a removal -/
theorem rem_rc {X : SM} {m k z : Nat} (hK : X.s.kids m = (X.maps m).flat) (h : X.s.rc z = 0) :
    (stepRemove eqv X m k).s.rc z = 0 := by
  unfold stepRemove
  dsimp only
  split
  · obtain ⟨h1, h2⟩ := rc_zero.1 h
    refine rc_zero.2 ⟨h1, fun y hy hm => ?_⟩
    by_cases hym : y = m
    · subst hym
      refine h2 y hy ?_
      rw [hK]
      simp only [SM.put, upd, if_true, MapC.flat, List.mem_append, List.mem_map, List.mem_flatMap, List.mem_filter] at hm ⊢
      rcases hm with ⟨q, hq, e⟩ | ⟨q, hq, e⟩
      · exact .inl ⟨q, hq.1, e⟩
      · exact .inr ⟨q, hq.1, e⟩
    · simp only [SM.put, upd, hym, if_false] at hm
      exact h2 y hy hm
  · exact h

theorem flatMap_sub {α β : Type} (f : α → List β) {l l' : List α} (h : l.Sublist l') :
    (l.flatMap f).Sublist (l'.flatMap f) := by
  induction h with
  | slnil => exact List.Sublist.refl _
  | cons a _ ih => rw [List.flatMap_cons]; exact ih.trans (List.sublist_append_right _ _)
  | cons_cons a _ ih =>
    rw [List.flatMap_cons, List.flatMap_cons]
    exact List.Sublist.append (List.Sublist.refl _) ih

/-- a removal makes no references -/
theorem rem_rc_le {X : SM} (hnd : X.s.D.Nodup) {m k : Nat} (hm : m ∈ X.s.D) (hK : X.s.kids m = (X.maps m).flat)
    (z : Nat) : (stepRemove eqv X m k).s.rc z ≤ X.s.rc z := by
  unfold stepRemove
  dsimp only
  split
  · generalize hc' : (⟨(X.maps m).kp, (X.maps m).vp, (X.maps m).order.filter (fun q => !eqv k q),
      (X.maps m).pairs.filter (fun p => !eqv k p.1)⟩ : MapC) = c'
    have hsub : c'.flat.Sublist (X.s.kids m) := by
      rw [hK, ← hc', MapC.flat, MapC.flat]
      exact List.Sublist.append (List.filter_sublist.map _) (flatMap_sub _ List.filter_sublist)
    have h := refs_upd (kids := X.s.kids) hnd hm c'.flat .rc z
    have := hsub.count_le (Policy.rc, some z)
    show refs (upd X.s.kids m c'.flat) X.s.D .rc z + X.s.ext z ≤ refs X.s.kids X.s.D .rc z + X.s.ext z
    omega
  · exact Nat.le_refl _

/-- a block that is not referred to, after something else is put into a map -/
theorem add_rc {X : SM} {A : MHeap} (G : Good eqv X A) {m k v z : Nat} (hm : m ∈ X.s.D) (hM : X.isMap m = true)
    (hz : z ∈ X.s.D) (h : X.s.rc z = 0) (ho : X.s.own z = 0) (hzk : z ≠ k) (hzv : z ≠ v) :
    z ∈ (stepAdd eqv X m k (some v)).s.D ∧ (stepAdd eqv X m k (some v)).s.rc z = 0 := by
  obtain ⟨h1, h2⟩ := rc_zero.1 h
  have none : ∀ y ∈ X.s.D, ∀ pol, pol ≠ Policy.noop → (pol, some z) ∉ X.s.kids y := by
    intro y hy pol hn hm
    cases pol with
    | rc => exact h2 y hy hm
    | del =>
      have := refs_pos hy hm
      rw [Spec.own] at ho
      omega
    | noop => exact hn rfl
  have wf := G.wf m hm hM
  have hflat : ∀ c' : MapC, c'.kp = (X.maps m).kp → c'.vp = (X.maps m).vp →
      (∀ q ∈ c'.order, q ∈ (X.maps m).order ∨ q = k) →
      (∀ p ∈ c'.pairs, (p.1 = k ∨ ∃ q ∈ (X.maps m).pairs, q.1 = p.1) ∧ (p.2 = some v ∨ ∃ q ∈ (X.maps m).pairs, q.2 = p.2)) →
      ∀ pol, (pol, some z) ∈ c'.flat → (pol, some z) ∈ (X.maps m).flat := by
    intro c' e1 e2 hor hp pol hmem
    simp only [MapC.flat, List.mem_append, List.mem_map, List.mem_flatMap, List.mem_cons, List.not_mem_nil, or_false,
      Prod.mk.injEq, e1, e2] at hmem ⊢
    rcases hmem with ⟨q, hq, e, eq⟩ | ⟨p, hpm, ⟨e, eq⟩ | ⟨e, eq⟩⟩
    · simp only [Option.some.injEq] at eq
      subst eq
      exact .inl ⟨q, (hor q hq).resolve_right hzk, e, rfl⟩
    · simp only [Option.some.injEq] at eq
      obtain ⟨q, hq, e3⟩ := (hp p hpm).1.resolve_left (by rw [← eq]; exact hzk)
      exact .inr ⟨q, hq, .inl ⟨e, by rw [e3, eq]⟩⟩
    · obtain ⟨q, hq, e3⟩ := (hp p hpm).2.resolve_left (by rw [← eq]; simpa using hzv)
      exact .inr ⟨q, hq, .inr ⟨e, by rw [e3, eq]⟩⟩
  have hput : ∀ c' : MapC, (∀ pol, (pol, some z) ∈ c'.flat → (pol, some z) ∈ (X.maps m).flat) →
      ∀ y ∈ X.s.D, ∀ pol, (pol, some z) ∈ (X.put m c').s.kids y → (pol, some z) ∈ X.s.kids y := by
    intro c' hc y hy pol hmem
    by_cases hym : y = m
    · subst hym
      rw [wf.kids]
      simp only [SM.put, upd, if_true] at hmem
      exact hc pol hmem
    · simpa [SM.put, upd, hym] using hmem
  unfold stepAdd
  dsimp only
  split
  · have hc := hput { X.maps m with pairs := (X.maps m).pairs.map (fun p => if eqv k p.1 then (p.1, some v) else p) }
      (hflat _ rfl rfl (fun q hq => .inl hq) (fun p hp => by
        obtain ⟨q, hq, rfl⟩ := List.mem_map.1 hp
        split
        · exact ⟨.inr ⟨q, hq, rfl⟩, .inl rfl⟩
        · exact ⟨.inr ⟨q, hq, rfl⟩, .inr ⟨q, hq, rfl⟩⟩))
    split
    · refine ⟨?_, ?_⟩
      · refine List.mem_filter.2 ⟨hz, ?_⟩
        simp only [decide_eq_true_eq]
        intro hu
        cases hu with
        | intro _ _ _ h3 h4 =>
          rcases h3 with rfl | ⟨y, hy, pol, hn, hm'⟩
          · exact hzk rfl
          · exact none y hy pol hn (hc y hy pol hm')
      · exact rc_zero.2 ⟨h1, fun y hy hm' => h2 y (List.mem_filter.1 hy).1 (hc y (List.mem_filter.1 hy).1 .rc hm')⟩
    · exact ⟨hz, rc_zero.2 ⟨h1, fun y hy hm' => h2 y hy (hc y hy .rc hm')⟩⟩
  · have hc := hput { X.maps m with order := (X.maps m).order ++ [k], pairs := (X.maps m).pairs ++ [(k, some v)] }
      (hflat _ rfl rfl (fun q hq => by simpa using hq) (fun p hp => by
        rcases List.mem_append.1 hp with hp | hp
        · exact ⟨.inr ⟨p, hp, rfl⟩, .inr ⟨p, hp, rfl⟩⟩
        · simp only [List.mem_singleton] at hp
          subst hp
          exact ⟨.inl rfl, .inl rfl⟩))
    exact ⟨hz, rc_zero.2 ⟨h1, fun y hy hm' => h2 y hy (hc y hy .rc hm')⟩⟩

/-! ### the operations -/

theorem own_new {X : JS} {b : Nat} {kd : Kind} {C : JHeap} (J : JG sg eqv oth (stepNew eqv X b kd) C) (z : Nat) :
    (stepNew eqv X b kd).x.s.own z = 0 := by
  obtain ⟨A, G, -⟩ := J.mem
  exact J.typed.own G z

/-- the counts after a new block -/
theorem newRc {X : JS} {C : JHeap} (J : JG sg eqv oth X C) {b : Nat} (hb : b ∉ X.x.s.D) (kd : Kind) :
    (∀ z, (stepNew eqv X b kd).x.s.rc z = X.x.s.rc z) ∧ X.x.s.rc b = 0 := by
  obtain ⟨A, G, -⟩ := J.mem
  exact ⟨fun z => (new_rc G.rel hb z).1, (new_rc G.rel hb b).2⟩

/-- the counts after a new JSON value -/
theorem tagRc {X : JS} {C : JHeap} (J : JG sg eqv oth X C) {j p : Nat} {t : Tag} (hj : j ∉ X.x.s.D) :
    (∀ z, z ≠ p → (stepTag eqv X j t p).x.s.rc z = X.x.s.rc z) ∧ X.x.s.rc j = 0 := by
  obtain ⟨A, G, -⟩ := J.mem
  refine ⟨fun z hz => ?_, (new_rc G.rel hj j).2⟩
  have R1 := mk_spec G.rel hj
  have h := addEdge_refs (s := mkBlock X.x.s j) R1.nodup (y := j) (by simp [mkBlock]) (.rc, some p) .rc z
  rw [if_neg (by simpa using fun e => hz e.symm)] at h
  rw [← (new_rc G.rel hj z).1]
  show refs (addEdge (mkBlock X.x.s j) j (.rc, some p)).kids (mkBlock X.x.s j).D .rc z + X.x.s.ext z = _
  rw [h]; rfl

include E in
/-- a new number, string or blob -/
theorem scalar_ok {X : JS} {C : JHeap} (J : JG sg eqv oth X C) {b j : Nat} {t : Tag} (hb : b ∉ X.x.s.D)
    (hj : j ∉ X.x.s.D) (hbj : b ≠ j) (ht : part t = some .raw) :
    ∃ C', scalarMk C b j t = .ok C' ∧ JG sg eqv oth (stepTag eqv (stepNew eqv X b .raw) j t b) C' := by
  have J1 := new_ok E J hb (kd := .raw) (.inl rfl)
  have hD : (stepNew eqv X b .raw).x.s.D = X.x.s.D ++ [b] := rfl
  obtain ⟨h1, h2⟩ := newRc J hb .raw
  exact tag_ok E J1 (by rw [hD]; simp [hj, hbj.symm]) (by rw [hD]; simp) ht (by simp [stepNew, upd])
    (by rw [h1, h2]; omega)

theorem rename_look (E : Eqv eqv) {X : SM} {m k k' v : Nat}
    (hd : (X.maps m).pairs.Pairwise (fun p q => eqv p.1 q.1 = false)) (hs : (look eqv (X.maps m) k).isSome = true)
    (h : look eqv ((stepRemove eqv X m k).maps m) k' = some (some v)) :
    eqv k k' = false ∧ look eqv (X.maps m) k' = some (some v) := by
  have hmaps : ((stepRemove eqv X m k).maps m).pairs = (X.maps m).pairs.filter (fun p => !eqv k p.1) := by
    simp [stepRemove, hs, SM.put, upd]
  rw [look, hmaps] at h
  obtain ⟨p, hp, hp2⟩ := Option.map_eq_some_iff.1 h
  have h1 := List.find?_some hp
  have h2 := List.mem_filter.1 (List.mem_of_find?_eq_some hp)
  have h3 : eqv k p.1 = false := by simpa using h2.2
  refine ⟨?_, ?_⟩
  · cases hk : eqv k k' with
    | false => rfl
    | true => rw [E.trans _ _ _ hk h1] at h3; cases h3
  · rw [look, look_mem E hd h2.1 h1]; simp [hp2]

include E in
theorem rename_ok {X : JS} {C : JHeap} (J : JG sg eqv oth X C) {j k k' : Nat} (ok : JOk sg eqv oth X (.rename j k k'))
    {fuel : Nat} (hf : X.x.s.D.length + 2 ≤ fuel) : ∃ C' b, objectRename eqv fuel C j k k' = .ok (some (C', b)) ∧
      b = (look eqv (X.x.maps (X.held j)) k).isSome ∧ JG sg eqv oth (jstep sg eqv X (.rename j k k')) C' := by
  obtain ⟨hj, hk, hk', hkk, hv⟩ := ok
  obtain ⟨-, hheld, hm, hkm, hlm⟩ := J.held hj (kd := .map) rfl
  generalize X.held j = m at *
  have J1 := new_ok E J hk (kd := .raw) (.inl rfl)
  have hD1 : (stepNew eqv X k .raw).x.s.D = X.x.s.D ++ [k] := rfl
  have hk1 : k' ∉ (stepNew eqv X k .raw).x.s.D := by rw [hD1]; simp [hk', hkk.symm]
  have J2 := new_ok E J1 hk1 (kd := .raw) (.inl rfl)
  obtain ⟨r1, r2⟩ := newRc J hk .raw
  obtain ⟨r3, r4⟩ := newRc J1 hk1 .raw
  have hmk : m ≠ k := by rintro rfl; exact hk hm
  have hmk' : m ≠ k' := by rintro rfl; exact hk' hm
  have hjstep : jstep sg eqv X (.rename j k k') =
      stepDrop (stepM eqv (stepNew eqv (stepNew eqv X k .raw) k' .raw) (.rename (X.held j) k k')) k := rfl
  have hheldX : X.held j = m := by
    have h := (J.held hj (kd := .map) rfl).2.1
    rw [hheld] at h; exact (Option.some.inj h).symm
  rw [hjstep, hheldX]
  have rc2 : ∀ z, (stepNew eqv (stepNew eqv X k .raw) k' .raw).x.s.rc z = X.x.s.rc z := fun z => by rw [r3, r1]
  have hkind2 : ∀ z ∈ X.x.s.D, (stepNew eqv (stepNew eqv X k .raw) k' .raw).kind z = X.kind z := by
    intro z hz
    have h1 : z ≠ k := by rintro rfl; exact hk hz
    have h2 : z ≠ k' := by rintro rfl; exact hk' hz
    simp [stepNew, upd, h1, h2]
  have hkindk : (stepNew eqv (stepNew eqv X k .raw) k' .raw).kind k = .raw := by simp [stepNew, upd]
  have hkindk' : (stepNew eqv (stepNew eqv X k .raw) k' .raw).kind k' = .raw := by simp [stepNew, upd]
  have hmaps2 : (stepNew eqv (stepNew eqv X k .raw) k' .raw).x.maps = X.x.maps := rfl
  have hD2 : (stepNew eqv (stepNew eqv X k .raw) k' .raw).x.s.D = X.x.s.D ++ [k] ++ [k'] := rfl
  generalize hX2 : stepNew eqv (stepNew eqv X k .raw) k' .raw = X2 at *
  have J2' : JG sg eqv oth X2 (rawMk (rawMk C k) k') := J2
  have hm2 : m ∈ X2.x.s.D := by rw [hD2]; simp [hm]
  have hkm2 : X2.kind m = .map := by rw [hkind2 m hm]; exact hkm
  have hkD2 : k ∈ X2.x.s.D := by rw [hD2]; simp
  have hkD2' : k' ∈ X2.x.s.D := by rw [hD2]; simp
  obtain ⟨A2, G2, S2⟩ := J2'.mem
  have hM2 := (J2'.map hm2 hkm2).1
  have wf2 := G2.wf m hm2 hM2
  obtain ⟨C3, e3, J3⟩ := rem_ok E J2' hm2 hkm2 (.inl hkD2)
  have hD3 : (stepRemove eqv X2.x m k).s.D = X2.x.s.D := stepRemove_D E X2.x m k
  have rk3 : (stepRemove eqv X2.x m k).s.rc k = 0 := rem_rc wf2.kids (by rw [rc2, r2])
  have nsk : sg k = false := by
    cases h : sg k with
    | false => rfl
    | true => exact absurd (J.staticIn h) hk
  have hlen : X2.x.s.D.length ≤ fuel := by rw [hD2]; simp; omega
  have hC2s : (rawMk (rawMk C k) k').single = sg := J2'.single
  rw [objectRename, if_pos ((J.live j).2 hj.1), if_pos (by rw [J.tag j hj.1, hj.2]; rfl), hheld]
  simp only [hC2s] at J3
  simp only [hlm, if_true, mapRenameS, e3, Res.bind_ok, hC2s]
  have hlk : look eqv (X2.x.maps m) k = look eqv (X.x.maps m) k := by rw [hmaps2]
  rw [hlk]
  cases hn : look eqv (X.x.maps m) k with
  | none =>
    obtain ⟨c, f, J4⟩ := (drop_ok J3 (v := k) (by rw [hD3]; exact hkD2) nsk (by rw [hD3]; exact hlen)).2 rk3
    refine ⟨{ m := { C3 with h := c }, tag := (rawMk (rawMk C k) k').tag, single := sg }, false, ?_, rfl, ?_⟩
    · simp only [Option.getD_none]
      simp only [f, Res.map_ok', Option.map_some]
    · have : stepM eqv X2 (.rename m k k') = { X2 with x := stepRemove eqv X2.x m k } := by
        simp only [stepM, mstep, hlk, hn]
      rw [this]; exact J4
  | some v0 =>
    have sh := J2'.typed.shape m hm2
    rw [hkm2] at sh
    obtain ⟨a, p, b, hfp, hp2⟩ := look_some E (hlk.trans hn)
    have hp : p ∈ (X2.x.maps m).pairs := by rw [(findPair_some hfp).1]; simp
    obtain ⟨-, v, t, hpv, htv⟩ := sh.2.2 p hp
    have hv0 : v0 = some v := by rw [← hp2, hpv]
    subst hv0
    have hvD2 := (Good.pair G2 hm2 hM2 sh.1 sh.2.1 hp).2 v hpv
    obtain ⟨hvr, hvs⟩ := hv v hn
    have hle : (stepRemove eqv X2.x m k).s.rc v ≤ X2.x.s.rc v := rem_rc_le G2.rel.nodup hm2 wf2.kids v
    have hvk : k ≠ v := by rintro rfl; rw [hkindk] at htv; cases htv
    have rk3' : (stepRemove eqv X2.x m k).s.rc k' = 0 := rem_rc wf2.kids (by rw [rc2, ← r1, r4])
    obtain ⟨C4, f4, J4⟩ := put_ok E J3 (m := m) (k := k') (v := v) (by rw [hD3]; exact hm2) hkm2
      (by rw [hD3]; exact hkD2') hkindk' rk3'
      ⟨by rw [hD3]; exact hvD2, ⟨t, htv⟩, hvr.imp_right fun h => by have := rc2 v; dsimp only; omega⟩
      (fun h => by
        obtain ⟨h1, h2⟩ := rename_look E wf2.dist (by rw [hlk, hn]; rfl) h
        exact hvs h1 (by rw [← hmaps2]; exact h2)) (fuel := fuel) (by rw [hD3]; exact hlen)
    obtain ⟨A3, G3, -⟩ := J3.mem
    have hM3 : (stepRemove eqv X2.x m k).isMap m = true :=
      (J3.typed.isMap m (by rw [hD3]; exact hm2)).2 hkm2
    obtain ⟨hkD4, rk4⟩ := add_rc G3 (m := m) (k := k') (v := v) (z := k) (by rw [hD3]; exact hm2) hM3
      (by rw [hD3]; exact hkD2) rk3 (J3.typed.own G3 k) hkk hvk
    have hlen4 : (stepAdd eqv (stepRemove eqv X2.x m k) m k' (some v)).s.D.length ≤ fuel := by
      have := stepAdd_length E (stepRemove eqv X2.x m k) m k' (some v)
      rw [hD3] at this; omega
    obtain ⟨c, f, J5⟩ := (drop_ok J4 (v := k) hkD4 nsk hlen4).2 rk4
    simp only [putIn] at f4
    obtain ⟨r, f5, f6⟩ := map_ok.1 f4
    obtain ⟨r1, rfl, f7⟩ := Option.map_eq_some_iff.1 f6
    subst f7
    refine ⟨{ m := { r1.1 with h := c }, tag := (rawMk (rawMk C k) k').tag, single := sg }, true, ?_, rfl, ?_⟩
    · simp only [Option.getD_some, f5, Res.map_ok', Option.map_some]
      simp only [f, Res.map_ok', Option.map_some]
    · have : stepM eqv X2 (.rename m k k') =
          { X2 with x := stepAdd eqv (stepRemove eqv X2.x m k) m k' (some v) } := by
        simp only [stepM, mstep, hlk, hn]
      rw [this]; exact J5

/-- a new number, string or blob may be stored, and nothing else has changed -/
theorem scalar_facts {X : JS} {C : JHeap} (E : Eqv eqv) (J : JG sg eqv oth X C) {b v : Nat} {t : Tag} (hb : b ∉ X.x.s.D)
    (hv : v ∉ X.x.s.D) (hbv : b ≠ v) :
    OkVal sg (stepTag eqv (stepNew eqv X b .raw) v t b) v 1 ∧
    (∀ z ∈ X.x.s.D, z ∈ (stepTag eqv (stepNew eqv X b .raw) v t b).x.s.D ∧
      (stepTag eqv (stepNew eqv X b .raw) v t b).kind z = X.kind z ∧
      (stepTag eqv (stepNew eqv X b .raw) v t b).x.s.rc z = X.x.s.rc z) ∧
    (stepTag eqv (stepNew eqv X b .raw) v t b).x.s.D.length = X.x.s.D.length + 2 := by
  have Jb := new_ok E J hb (kd := .raw) (.inl rfl)
  have hDb : (stepNew eqv X b .raw).x.s.D = X.x.s.D ++ [b] := rfl
  have hD : (stepTag eqv (stepNew eqv X b .raw) v t b).x.s.D = X.x.s.D ++ [b] ++ [v] := rfl
  have hvb : v ∉ (stepNew eqv X b .raw).x.s.D := by rw [hDb]; simp [hv, hbv.symm]
  obtain ⟨t1, t2⟩ := tagRc Jb (j := v) (p := b) (t := t) hvb
  obtain ⟨n1, -⟩ := newRc J hb .raw
  refine ⟨⟨by rw [hD]; simp, ⟨t, by simp [stepTag, upd]⟩, by right; rw [t1 v hbv.symm, t2]; omega⟩, fun z hz => ?_,
    by rw [hD]; simp⟩
  have hzb : z ≠ b := by rintro rfl; exact hb hz
  have hzv : z ≠ v := by rintro rfl; exact hv hz
  exact ⟨by rw [hD]; simp [hz], by simp [stepTag, stepNew, upd, hzb, hzv], by rw [t1 z hzb, n1]⟩

theorem OkVal.new {X : JS} {C : JHeap} (J : JG sg eqv oth X C) {v n b : Nat} (h : OkVal sg X v n) (hb : b ∉ X.x.s.D)
    (kd : Kind) : OkVal sg (stepNew eqv X b kd) v n := by
  obtain ⟨hv, ⟨t, ht⟩, hr⟩ := h
  have hne : v ≠ b := by rintro rfl; exact hb hv
  refine ⟨?_, ⟨t, by simp [stepNew, upd, hne, ht]⟩, by rw [Few, (newRc J hb kd).1]; exact hr⟩
  show v ∈ X.x.s.D ++ [b]
  simp [hv]

theorem JG.staticVal {X : JS} {C : JHeap} (J : JG sg eqv oth X C) {s : Nat} (hs : sg s = true) :
    OkVal sg X s 1 := by
  obtain ⟨-, t, ht, -⟩ := J.typed.static s hs
  exact ⟨J.staticIn hs, ⟨t, ht⟩, .inl hs⟩

include E in
/-- the new string for a key -/
theorem key_ok {X : JS} {C : JHeap} (J : JG sg eqv oth X C) {k m : Nat} (hk : k ∉ X.x.s.D) (hm : m ∈ X.x.s.D)
    (hkm : X.kind m = .map) : JG sg eqv oth (stepNew eqv X k .raw) (rawMk C k) ∧
      m ∈ (stepNew eqv X k .raw).x.s.D ∧ (stepNew eqv X k .raw).kind m = .map ∧ k ∈ (stepNew eqv X k .raw).x.s.D ∧
      (stepNew eqv X k .raw).kind k = .raw ∧ (stepNew eqv X k .raw).x.s.rc k = 0 ∧
      (stepNew eqv X k .raw).x.s.D.length = X.x.s.D.length + 1 := by
  have hne : m ≠ k := by rintro rfl; exact hk hm
  have hD : (stepNew eqv X k .raw).x.s.D = X.x.s.D ++ [k] := rfl
  obtain ⟨h1, h2⟩ := newRc J hk .raw
  exact ⟨new_ok E J hk (.inl rfl), by rw [hD]; simp [hm], by simp [stepNew, upd, hne, hkm], by rw [hD]; simp,
    by simp [stepNew, upd], by rw [h1, h2], by rw [hD]; simp⟩

include E in
/-- one operation -/
theorem jexec_spec {X : JS} {C : JHeap} (J : JG sg eqv oth X C) (op : JOp) (ok : JOk sg eqv oth X op) {fuel : Nat}
    (hf : X.x.s.D.length + 3 ≤ fuel) :
    ∃ C', jexec eqv fuel C op = .ok (some C') ∧ JG sg eqv oth (jstep sg eqv X op) C' := by
  cases op with
  | static s => exact ⟨_, rfl, single_ok J ok⟩
  | scalar b j t =>
    obtain ⟨C', e, J'⟩ := scalar_ok E J ok.1 ok.2.1 ok.2.2.1 ok.2.2.2
    exact ⟨C', by rw [jexec, e]; rfl, J'⟩
  | strn j => exact ⟨_, rfl, new_ok E J ok (kd := .json .strn) (.inr (.inr rfl))⟩
  | array l j =>
    obtain ⟨hl, hj, hlj⟩ := ok
    have J1 := new_ok E J hl (kd := .list) (.inr (.inl rfl))
    have hD : (stepNew eqv X l .list).x.s.D = X.x.s.D ++ [l] := rfl
    obtain ⟨h1, h2⟩ := newRc J hl .list
    obtain ⟨C', e, J'⟩ := tag_ok E J1 (j := j) (p := l) (t := .array) (by rw [hD]; simp [hj, hlj.symm])
      (by rw [hD]; simp) rfl (by simp [stepNew, upd]) (by rw [h1, h2]; omega)
    exact ⟨C', by rw [jexec, arrayMk]; exact map_ok.2 ⟨_, e, rfl⟩, J'⟩
  | object m j =>
    obtain ⟨hm, hj, hmj⟩ := ok
    have J1 := newMap_ok E J hm
    have hD : (stepMap eqv X m).x.s.D = X.x.s.D ++ [m] := rfl
    obtain ⟨A, G, -⟩ := J.mem
    obtain ⟨h1, h2⟩ := new_rc G.rel hm m
    obtain ⟨C', e, J'⟩ := tag_ok E J1 (j := j) (p := m) (t := .object) (by rw [hD]; simp [hj, hmj.symm])
      (by rw [hD]; simp) rfl (by simp [stepMap, upd])
      (by show (mkBlock X.x.s m).rc m + 1 < 65536; rw [h1, h2]; omega)
    exact ⟨C', by rw [jexec, objectMk]; exact map_ok.2 ⟨_, e, rfl⟩, J'⟩
  | set j k v =>
    obtain ⟨hj, hk, hv, hs⟩ := ok
    obtain ⟨hp, -, hm, hkm, hlm⟩ := J.held hj (kd := .map) rfl
    obtain ⟨J1, hm1, hkm1, hk1, hkk1, hr1, hl1⟩ := key_ok E J hk hm hkm
    obtain ⟨C', e, J'⟩ := put_ok E J1 hm1 hkm1 hk1 hkk1 hr1 (hv.new J hk .raw) hs (fuel := fuel) (by omega)
    refine ⟨C', ?_, J'⟩
    obtain ⟨t, ht⟩ := hv.2.1
    have htag : (C.tag v).isSome = true := by rw [J.tag v hv.1, ht]; rfl
    simp only [jexec, objectSet, hp, Res.bind_ok, (J.live v).2 hv.1, htag, hlm, if_true]
    exact e
  | setScalar j k b v t =>
    obtain ⟨hj, hk, hb, hv, hkb, hkv, hbv, ht⟩ := ok
    obtain ⟨hp, -, hm, hkm, hlm⟩ := J.held hj (kd := .map) rfl
    obtain ⟨J1, hm1, hkm1, hk1, hkk1, hr1, hl1⟩ := key_ok E J hk hm hkm
    have hD1 : (stepNew eqv X k .raw).x.s.D = X.x.s.D ++ [k] := rfl
    have hb1 : b ∉ (stepNew eqv X k .raw).x.s.D := by rw [hD1]; simp [hb, hkb.symm]
    have hv1 : v ∉ (stepNew eqv X k .raw).x.s.D := by rw [hD1]; simp [hv, hkv.symm]
    obtain ⟨C2, e2, J2⟩ := scalar_ok E J1 hb1 hv1 hbv ht
    obtain ⟨ov, fr, fl⟩ := scalar_facts E J1 hb1 hv1 hbv (t := t)
    obtain ⟨m1, m2, -⟩ := fr _ hm1
    obtain ⟨k1, k2, k3⟩ := fr _ hk1
    have hlook : look eqv (X.x.maps (X.held j)) k = some (some v) → sg v = true := by
      intro h
      exfalso
      obtain ⟨A, G, -⟩ := J.mem
      have sh := J.typed.shape _ hm
      rw [hkm] at sh
      obtain ⟨a, p, b', hfp, hp2⟩ := look_some E h
      have hpm : p ∈ (X.x.maps (X.held j)).pairs := by rw [(findPair_some hfp).1]; simp
      exact hv ((Good.pair G hm ((J.typed.isMap _ hm).2 hkm) sh.1 sh.2.1 hpm).2 v hp2)
    obtain ⟨C', e, J'⟩ := put_ok E J2 m1 (m2.trans hkm1) k1 (k2.trans hkk1) (k3.trans hr1) ov hlook (fuel := fuel)
      (by omega)
    refine ⟨C', ?_, J'⟩
    simp only [jexec, objectSetScalar, hp, Res.bind_ok, hlm, if_true, e2]
    exact e
  | setStatic j k s =>
    obtain ⟨hj, hk, hs⟩ := ok
    obtain ⟨hp, -, hm, hkm, hlm⟩ := J.held hj (kd := .map) rfl
    obtain ⟨J1, hm1, hkm1, hk1, hkk1, hr1, hl1⟩ := key_ok E J hk hm hkm
    obtain ⟨C', e, J'⟩ := put_ok E (single_ok J1 hs) hm1 hkm1 hk1 hkk1 hr1 ((J.staticVal hs).new J hk .raw)
      (fun _ => hs) (fuel := fuel) (by omega)
    refine ⟨C', ?_, J'⟩
    simp only [jexec, objectSetSingle, hp, Res.bind_ok, hlm, if_true]
    exact e
  | remove j k =>
    obtain ⟨hp, -, hm, hkm, hlm⟩ := J.held ok.1 (kd := .map) rfl
    obtain ⟨C', e, J'⟩ := rem_ok E J hm hkm ok.2
    refine ⟨_, ?_, J'⟩
    simp only [jexec, objectRemove, hp, Res.bind_ok, e, Res.map_ok']
  | rename j k k' =>
    obtain ⟨C', b, e, -, J'⟩ := rename_ok E J ok (fuel := fuel) (by omega)
    exact ⟨C', by rw [jexec, e]; rfl, J'⟩
  | append j v =>
    obtain ⟨hp, -, hl, hkl, -⟩ := J.held ok.1 (kd := .list) rfl
    obtain ⟨c, e, J'⟩ := append_ok J hl hkl ok.2
    refine ⟨_, ?_, J'⟩
    simp only [jexec, arrayAppend, hp, Res.bind_ok, e, Res.map_ok']
  | appendStatic j s =>
    obtain ⟨hj, hs⟩ := ok
    obtain ⟨hp, -, hl, hkl, -⟩ := J.held hj (kd := .list) rfl
    obtain ⟨c, e, J'⟩ := append_ok (single_ok J hs) hl hkl (J.staticVal hs)
    refine ⟨_, ?_, J'⟩
    simp only [jexec, arrayAppendSingle, hp, Res.bind_ok, e, Res.map_ok']
    rfl
  | appendScalar j b v t =>
    obtain ⟨hj, hb, hv, hbv, ht⟩ := ok
    obtain ⟨hp, -, hl, hkl, hll⟩ := J.held hj (kd := .list) rfl
    obtain ⟨C2, e2, J2⟩ := scalar_ok E J hb hv hbv ht
    obtain ⟨ov, fr, -⟩ := scalar_facts E J hb hv hbv (t := t)
    obtain ⟨l1, l2, -⟩ := fr _ hl
    obtain ⟨c, e, J'⟩ := append_ok J2 l1 (l2.trans hkl) ov
    refine ⟨_, ?_, J'⟩
    simp only [jexec, arrayAppendScalar, hp, Res.bind_ok, hll, if_true, e2, e, Res.map_ok']
  | insert j i v =>
    obtain ⟨hj, hv, hi⟩ := ok
    obtain ⟨hp, -, hl, hkl, -⟩ := J.held hj (kd := .list) rfl
    obtain ⟨c, e, J'⟩ := insert_ok J hl hkl hv (i := i)
    refine ⟨_, ?_, J'⟩
    have hi' : i ≤ (C.m.h.kids (X.held j)).length := by rw [J.kids]; exact hi
    simp only [jexec, arrayInsert, hp, Res.bind_ok, hi', if_true, e, Res.map_ok']
  | removeAt j i =>
    obtain ⟨hp, -, hl, hkl, -⟩ := J.held ok (kd := .list) rfl
    obtain ⟨c, e, J'⟩ := removeAt_ok J hl hkl (i := i)
    refine ⟨_, ?_, J'⟩
    simp only [jexec, arrayRemove, hp, Res.bind_ok, e, Res.map_ok']
  | concat d s =>
    obtain ⟨hd, hs, hne, hr⟩ := ok
    obtain ⟨hpd, -, hdl, hkd, -⟩ := J.held hd (kd := .list) rfl
    obtain ⟨hps, hhs, hsl, hks, -⟩ := J.held hs (kd := .list) rfl
    obtain ⟨c, e, J'⟩ := concat_ok (X.held d) (X.held s) (X.x.s.kids (X.held s)) (X.x.s.kids (X.held s)).length 0 J hdl hsl
      hkd hks hne rfl (by omega) hr
    refine ⟨_, ?_, J'⟩
    simp only [jexec, arrayConcat, hpd, hps, Res.bind_ok, hhs, Option.getD_some, J.kids, e, Res.map_ok', Option.map_some]
  | take v =>
    cases hs : sg v with
    | true =>
      obtain ⟨c, e, J'⟩ := takeStatic_ok J hs
      exact ⟨C.on c, by simp only [jexec, jsonTake, e, Res.map_ok'], by simpa [jstep, hs] using J'⟩
    | false =>
      obtain ⟨c, e, J'⟩ := take_ok J hs ok
      exact ⟨C.on c, by simp only [jexec, jsonTake, e, Res.map_ok'], by simpa [jstep, hs] using J'⟩
  | delRef v =>
    cases hs : sg v with
    | true =>
      obtain ⟨c, e, J'⟩ := (dropStatic_ok J hs fuel).1
      exact ⟨C.on c, by simp only [jexec, jsonDelRef, J.single, e, Res.map_ok', Option.map_some], by simpa [jstep, hs] using J'⟩
    | false =>
      obtain ⟨c, e, J'⟩ := (drop_ok J ok.1 hs (fuel := fuel) (by omega)).1 (by simpa [hs] using ok.2)
      exact ⟨C.on c, by simp only [jexec, jsonDelRef, J.single, e, Res.map_ok', Option.map_some], by simpa [jstep, hs] using J'⟩
  | del v =>
    cases hs : sg v with
    | true =>
      obtain ⟨c, e, J'⟩ := (dropStatic_ok J hs fuel).2
      exact ⟨C.on c, by simp only [jexec, jsonDel, J.single, e, Res.map_ok', Option.map_some], by simpa [jstep, hs] using J'⟩
    | false =>
      obtain ⟨c, e, J'⟩ := (drop_ok J ok.1 hs (fuel := fuel) (by omega)).2 (by simpa [hs] using ok.2)
      exact ⟨C.on c, by simp only [jexec, jsonDel, J.single, e, Res.map_ok', Option.map_some], by simpa [jstep, hs] using J'⟩

theorem stepDrop_length (X : JS) (v : Nat) : (stepDrop X v).x.s.D.length ≤ X.x.s.D.length := List.length_filter_le _ _

theorem jstep_length (E : Eqv eqv) (X : JS) (op : JOp) : (jstep sg eqv X op).x.s.D.length ≤ X.x.s.D.length + 3 := by
  have hm : ∀ (Y : JS) o, (stepM eqv Y o).x.s.D.length ≤ Y.x.s.D.length + 1 := fun Y o => mstep_length E Y.x o
  have hn : ∀ (Y : JS) b kd, (stepNew eqv Y b kd).x.s.D.length = Y.x.s.D.length + 1 := by
    intro Y b kd
    show (Y.x.s.D ++ [b]).length = _
    simp
  have ht : ∀ (Y : JS) j t p, (stepTag eqv Y j t p).x.s.D.length = Y.x.s.D.length + 1 := by
    intro Y j t p
    show (Y.x.s.D ++ [j]).length = _
    simp
  have hadd : ∀ (Y : JS) m k v, (stepM eqv Y (.add m k v)).x.s.D.length ≤ Y.x.s.D.length := fun Y m k v =>
    stepAdd_length E Y.x m k v
  have hren : ∀ (Y : JS) m k k', (stepM eqv Y (.rename m k k')).x.s.D.length ≤ Y.x.s.D.length + 1 := fun Y m k k' => hm Y _
  cases op with
  | static s => exact Nat.le_add_right _ _
  | scalar b j t => rw [jstep, ht, hn]; omega
  | strn j => rw [jstep, hn]; omega
  | array l j => rw [jstep, ht, hn]; omega
  | object m j =>
    rw [jstep, ht]
    have : (stepMap eqv X m).x.s.D.length = X.x.s.D.length + 1 := by
      show (X.x.s.D ++ [m]).length = _
      simp
    omega
  | set j k v =>
    have h1 := hadd (stepNew eqv X k .raw) (X.held j) k (some v)
    rw [hn] at h1; rw [jstep]; omega
  | setScalar j k b v t =>
    have h1 := hadd (stepTag eqv (stepNew eqv (stepNew eqv X k .raw) b .raw) v t b) (X.held j) k (some v)
    rw [ht, hn, hn] at h1; rw [jstep]; omega
  | setStatic j k v =>
    have h1 := hadd (stepNew eqv X k .raw) (X.held j) k (some v)
    rw [hn] at h1; rw [jstep]; omega
  | remove j k => have := hm X (.remove (X.held j) k); rw [jstep]; omega
  | rename j k k' =>
    have h1 := stepDrop_length (stepM eqv (stepNew eqv (stepNew eqv X k .raw) k' .raw) (.rename (X.held j) k k')) k
    have h2 := hren (stepNew eqv (stepNew eqv X k .raw) k' .raw) (X.held j) k k'
    rw [hn, hn] at h2; rw [jstep]; omega
  | append j v => have := hm X (.plain (.append (X.held j) (.rc, some v))); rw [jstep]; omega
  | appendStatic j v => have := hm X (.plain (.append (X.held j) (.rc, some v))); rw [jstep]; omega
  | appendScalar j b v t =>
    have h1 : (stepM eqv (stepTag eqv (stepNew eqv X b .raw) v t b) (.plain (.append (X.held j) (.rc, some v)))).x.s.D.length
        = (stepTag eqv (stepNew eqv X b .raw) v t b).x.s.D.length := rfl
    rw [ht, hn] at h1; rw [jstep]; omega
  | insert j i v => exact Nat.le_add_right _ _
  | removeAt j i => have := hm X (.plain (.remove (X.held j) i)); rw [jstep]; omega
  | concat d s => exact Nat.le_add_right _ _
  | take v =>
    rw [jstep]
    split
    · omega
    · have := hm X (.plain (.incr (some v))); omega
  | delRef v =>
    rw [jstep]
    split
    · omega
    · have := stepDrop_length X v; omega
  | del v =>
    rw [jstep]
    split
    · omega
    · have := stepDrop_length X v; omega

theorem jexecAll_spec (E : Eqv eqv) (ops : List JOp) : ∀ {X : JS} {C : JHeap}, JG sg eqv oth X C →
    JLegal sg eqv oth X ops → ∀ {fuel : Nat}, X.x.s.D.length + 3 * ops.length ≤ fuel →
    ∃ C', jexecAll eqv fuel C ops = .ok (some C') ∧ JG sg eqv oth (jrun sg eqv X ops) C' := by
  induction ops with
  | nil => intro X C J _ fuel _; exact ⟨C, rfl, J⟩
  | cons op ops ih =>
    intro X C J hl fuel hf
    simp only [List.length_cons] at hf
    obtain ⟨C1, e1, J1⟩ := jexec_spec E J op hl.1 (fuel := fuel) (by omega)
    have := jstep_length (sg := sg) E X op
    obtain ⟨C2, e2, J2⟩ := ih J1 hl.2 (fuel := fuel) (by omega)
    exact ⟨C2, by rw [jexecAll, e1]; exact e2, J2⟩

end

/-! ## the theorems -/

/-- memory when a program starts: the static blocks in the list `S`, of the types `ty`; `oth` are the C strings -/
def startJ (S : List Nat) (ty : Nat → Tag) (oth : Nat → Bool) : JHeap where
  m := { h := ⟨fun x => S.contains x, fun _ => [], fun _ => 0, fun _ => false⟩, maps := fun _ => ⟨.rc, .rc, [], []⟩, other := oth }
  tag := fun x => if S.contains x then some (ty x) else none
  single := fun x => S.contains x

/-- the specification: static blocks are there for good -/
def specJ (S : List Nat) (ty : Nat → Tag) : JS where
  x := ⟨⟨S, fun _ => [], fun x => if S.contains x then 1 else 0⟩, fun _ => false, fun _ => ⟨.rc, .rc, [], []⟩⟩
  kind := fun x => if S.contains x then .json (ty x) else .raw

/-- the same memory, with the static blocks counted -/
def startA (S : List Nat) (oth : Nat → Bool) : MHeap where
  h := ⟨fun x => S.contains x, fun _ => [], fun x => if S.contains x then 1 else 0, fun _ => false⟩
  maps := fun _ => ⟨.rc, .rc, [], []⟩
  other := oth

theorem start_good (eqv : Nat → Nat → Bool) {S : List Nat} (hS : S.Nodup) {ty : Nat → Tag}
    (hty : ∀ s ∈ S, part (ty s) = none) (oth : Nat → Bool) :
    JG (fun x => S.contains x) eqv oth (specJ S ty) (startJ S ty oth) := by
  have hr : ∀ pol x, refs (fun _ => []) S pol x = 0 := by
    intro pol x
    unfold refs
    apply List.sum_eq_zero
    intro n hn
    obtain ⟨y, -, rfl⟩ := List.mem_map.1 hn
    rfl
  refine ⟨⟨fun y hy => ?_, fun y hy => ?_, fun s hs => ?_⟩, ⟨startA S oth,
    ⟨⟨rfl, hS, fun x => ?_, fun y _ x h => ?_, fun x h => ?_, fun x hx => ?_, fun x hx => ?_, fun x hx h => ?_⟩, rfl,
      fun m _ h => ?_⟩, ⟨rfl, rfl, fun x hx => ?_, fun _ _ => rfl⟩, rfl, rfl⟩, fun x hx => ?_, rfl, rfl⟩
  · have hy' : S.contains y = true := by simpa using (show y ∈ S from hy)
    simp only [specJ, hy', if_true, Shape, hty y hy]
  · simp [specJ, show y ∈ S from hy]
  · have hs' : s ∈ S := by simpa using hs
    refine ⟨by simp [specJ, hs'], ty s, by simp [specJ, hs'], hty s hs'⟩
  · simp [specJ, startA]
  · obtain ⟨pol, -, hm⟩ := h; cases hm
  · by_cases hx : x ∈ S
    · exact hx
    · simp [specJ, hx] at h
  · simp only [Spec.rc, specJ, startA, hr, Nat.zero_add]
  · simp only [Spec.own, specJ, hr, startA]; rfl
  · cases h
  · cases h
  · have : x ∉ S := by simpa using hx
    simp [startJ, startA, this]
  · have : x ∈ S := hx
    simp [startJ, specJ, this, Kind.tag]

/-- **C105** (partial).  Every program that makes JSON values and puts them into objects and arrays, takes them out,
renames keys, concatenates arrays, takes and drops references, in any order, runs without undefined behaviour.  At
its end exactly the blocks of the specification are in memory, and the count of each block that is not static is the number of
references to it.  Missing: see the theorems `C105_…_false`. -/
theorem C105_partial {eqv : Nat → Nat → Bool} (E : Eqv eqv) {S : List Nat} (hS : S.Nodup) {ty : Nat → Tag}
    (hty : ∀ s ∈ S, part (ty s) = none) (oth : Nat → Bool) (ops : List JOp)
    (hl : JLegal (fun x => S.contains x) eqv oth (specJ S ty) ops) {fuel : Nat} (hf : S.length + 3 * ops.length ≤ fuel) :
    ∃ C, jexecAll eqv fuel (startJ S ty oth) ops = .ok (some C) ∧
      (∀ x, C.m.h.live x = true ↔ x ∈ (jrun (fun x => S.contains x) eqv (specJ S ty) ops).x.s.D) ∧
      (∀ x, C.m.h.live x = true → x ∉ S → C.m.h.ret x = false ∧ C.m.h.deg x =
        refs C.m.h.kids (jrun (fun x => S.contains x) eqv (specJ S ty) ops).x.s.D .rc x +
          (jrun (fun x => S.contains x) eqv (specJ S ty) ops).x.s.ext x) ∧
      C.m.h.kids = (jrun (fun x => S.contains x) eqv (specJ S ty) ops).x.s.kids ∧
      C.m.maps = (jrun (fun x => S.contains x) eqv (specJ S ty) ops).x.maps ∧
      (∀ x, C.m.h.live x = true → C.tag x = ((jrun (fun x => S.contains x) eqv (specJ S ty) ops).kind x).tag) ∧
      ∀ s ∈ S, C.m.h.live s = true := by
  obtain ⟨C, e, J⟩ := jexecAll_spec E ops (start_good eqv hS hty oth) hl hf
  obtain ⟨A, G, M⟩ := J.mem
  refine ⟨C, e, J.live, fun x hx hxS => ?_, J.kids, by rw [M.maps, G.maps], fun x hx => J.tag x ((J.live x).1 hx),
    fun s hs => (J.live s).2 (J.staticIn (by simpa using hs))⟩
  have hx' := (J.live x).1 hx
  have hns : S.contains x = false := by simpa using hxS
  rw [M.h.ret x hns, M.h.deg x hns, J.kids]
  refine ⟨?_, G.rel.deg x hx'⟩
  have := G.rel.own x hx'
  rw [J.typed.own G x] at this
  cases h : A.h.ret x with
  | false => rfl
  | true => rw [h] at this; simp at this

/-- **C105**: as long as a JSON value is in memory, so is everything in it, down to the last level: the keys of an object are
strings with counts, the elements and members are JSON values, with counts unless they are static. -/
theorem C105_parts {eqv : Nat → Nat → Bool} (E : Eqv eqv) {S : List Nat} (hS : S.Nodup) {ty : Nat → Tag}
    (hty : ∀ s ∈ S, part (ty s) = none) (oth : Nat → Bool) (ops : List JOp)
    (hl : JLegal (fun x => S.contains x) eqv oth (specJ S ty) ops) {fuel : Nat} (hf : S.length + 3 * ops.length ≤ fuel) :
    ∃ C, jexecAll eqv fuel (startJ S ty oth) ops = .ok (some C) ∧ ∀ j, C.m.h.live j = true →
      (C.tag j = some .array → ∃ l, C.held j = some l ∧ C.m.h.live l = true ∧ 1 ≤ C.m.h.deg l ∧
        ∀ e ∈ C.m.h.kids l, ∃ v, e = (.rc, some v) ∧ C.m.h.live v = true ∧ (C.tag v).isSome = true ∧
          (v ∈ S ∨ 1 ≤ C.m.h.deg v)) ∧
      (C.tag j = some .object → ∃ m, C.held j = some m ∧ C.m.h.live m = true ∧ 1 ≤ C.m.h.deg m ∧
        ∀ p ∈ (C.m.maps m).pairs, C.m.h.live p.1 = true ∧ C.tag p.1 = none ∧ 2 ≤ C.m.h.deg p.1 ∧
          ∃ v, p.2 = some v ∧ C.m.h.live v = true ∧ (C.tag v).isSome = true ∧ (v ∈ S ∨ 1 ≤ C.m.h.deg v)) := by
  obtain ⟨C, e, J⟩ := jexecAll_spec E ops (start_good eqv hS hty oth) hl hf
  obtain ⟨A, G, M⟩ := J.mem
  refine ⟨C, e, fun j hj => ?_⟩
  generalize jrun (fun x => S.contains x) eqv (specJ S ty) ops = X at *
  have hjD := (J.live j).1 hj
  have deg : ∀ z ∈ X.x.s.D, z ∉ S → C.m.h.deg z = X.x.s.rc z := by
    intro z hz hzS
    rw [M.h.deg z (by simpa using hzS)]; exact G.rel.deg z hz
  have kind : ∀ z ∈ X.x.s.D, ∀ t, C.tag z = some t → X.kind z = .json t := by
    intro z hz t ht
    rw [J.tag z hz] at ht
    cases hk : X.kind z with
    | json t' => rw [hk] at ht; simp [Kind.tag] at ht; rw [ht]
    | raw => rw [hk] at ht; cases ht
    | list => rw [hk] at ht; cases ht
    | map => rw [hk] at ht; cases ht
  have nstat : ∀ z, (∀ t, X.kind z ≠ .json t) → z ∉ S := by
    intro z hz hzS
    obtain ⟨-, t, ht, -⟩ := J.typed.static z (by simpa using hzS)
    exact hz t ht
  have cnt : ∀ y ∈ X.x.s.D, ∀ z, (Policy.rc, some z) ∈ X.x.s.kids y → z ∈ S ∨ 1 ≤ C.m.h.deg z := by
    intro y hy z hz
    by_cases hzS : z ∈ S
    · exact .inl hzS
    · right
      rw [deg z (Good.tgt G hy hz) hzS]
      have := refs_pos hy hz
      rw [Spec.rc]; omega
  have held : ∀ {t : Tag} {kd : Kind}, C.tag j = some t → part t = some kd → kd = .map ∨ kd = .list →
      C.held j = some (X.held j) ∧ X.held j ∈ X.x.s.D ∧ X.kind (X.held j) = kd ∧ C.m.h.live (X.held j) = true ∧
      1 ≤ C.m.h.deg (X.held j) := by
    intro t kd ht hp hkd
    have hk := kind j hjD t ht
    obtain ⟨-, h1, h2, h3, h4⟩ := J.held ⟨hjD, hk⟩ hp
    refine ⟨h1, h2, h3, h4, (cnt j hjD _ ?_).resolve_left (nstat _ ?_)⟩
    · have sh := J.typed.shape j hjD
      rw [hk] at sh
      simp only [Shape, hp] at sh
      obtain ⟨p, hp', -⟩ := sh
      have : X.held j = p := by simp only [JS.held, hp']
      rw [this, hp']; simp
    · intro t'
      rw [h3]
      rcases hkd with rfl | rfl <;> simp
  refine ⟨fun ht => ?_, fun ht => ?_⟩
  · obtain ⟨h1, h2, h3, h4, h5⟩ := held ht rfl (.inr rfl)
    refine ⟨_, h1, h4, h5, fun e he => ?_⟩
    rw [J.kids] at he
    obtain ⟨v, t, rfl, hv⟩ := J.elems h2 h3 e he
    have hvD := Good.tgt G h2 he
    exact ⟨v, rfl, (J.live v).2 hvD, by rw [J.tag v hvD, hv]; rfl, cnt _ h2 v he⟩
  · obtain ⟨h1, h2, h3, h4, h5⟩ := held ht rfl (.inl rfl)
    refine ⟨_, h1, h4, h5, fun p hp => ?_⟩
    rw [M.maps, G.maps] at hp
    obtain ⟨hM, ord, prs, hc⟩ := J.map h2 h3
    have sh := J.typed.shape _ h2
    rw [h3] at sh
    obtain ⟨s1, s2, s3⟩ := sh
    obtain ⟨hk, v, t, hv, hvt⟩ := s3 p hp
    obtain ⟨hpD, hpv⟩ := Good.pair G h2 hM s1 s2 hp
    have hvD := hpv v hv
    have wf := G.wf _ h2 hM
    have hmem : (Policy.rc, some v) ∈ X.x.s.kids (X.held j) := by
      rw [wf.kids, MapC.flat]
      refine List.mem_append_right _ (List.mem_flatMap.2 ⟨p, hp, ?_⟩)
      rw [s2, hv]; simp
    refine ⟨(J.live _).2 hpD, by rw [J.tag _ hpD, hk]; rfl, ?_, v, hv, (J.live v).2 hvD,
      by rw [J.tag v hvD, hvt]; rfl, cnt _ h2 v hmem⟩
    rw [deg p.1 hpD (nstat _ (by rw [hk]; simp)), Spec.rc]
    have hcount : 2 ≤ (X.x.s.kids (X.held j)).count (.rc, some p.1) := by
      rw [wf.kids, MapC.flat, List.count_append]
      have c1 : 0 < ((X.x.maps (X.held j)).order.map fun k => ((Policy.rc, some k) : Edge)).count (.rc, some p.1) :=
        List.count_pos_iff.2 (List.mem_map.2 ⟨p.1, wf.perm.mem_iff.1 (List.mem_map.2 ⟨p, hp, rfl⟩), rfl⟩)
      have c2 : 0 < ((X.x.maps (X.held j)).pairs.flatMap fun p =>
          [((X.x.maps (X.held j)).kp, some p.1), ((X.x.maps (X.held j)).vp, p.2)]).count (.rc, some p.1) :=
        List.count_pos_iff.2 (List.mem_flatMap.2 ⟨p, hp, by rw [s1]; simp⟩)
      omega
    have := refs_erase X.x.s.kids h2 .rc p.1
    omega

/-- **C105**: dropping a reference to a value that is not static, from any memory with correct counts, frees exactly the
blocks that lose their last reference; a value that nothing refers to is freed as well by `cee_del`; static blocks stay. -/
theorem C105_delete {sg oth : Nat → Bool} {eqv : Nat → Nat → Bool} {X : JS} {C : JHeap} (J : JG sg eqv oth X C) {v : Nat}
    (hv : v ∈ X.x.s.D) (hs : sg v = false) {fuel : Nat} (hf : X.x.s.D.length ≤ fuel) :
    ((0 < X.x.s.ext v ∨ X.x.s.rc v = 0) → ∃ C', jsonDelRef fuel C (some v) = .ok (some C') ∧
      (∀ x, C'.m.h.live x = true ↔ C.m.h.live x = true ∧
        ¬ Unref C.m.h.kids X.x.s.D (upd X.x.s.ext v (X.x.s.ext v - 1)) v x) ∧ ∀ s, sg s = true → C'.m.h.live s = true) ∧
    (X.x.s.rc v = 0 → ∃ C', jsonDel fuel C (some v) = .ok (some C') ∧ C'.m.h.live v = false ∧
      (∀ x, C'.m.h.live x = true ↔ C.m.h.live x = true ∧
        ¬ Unref C.m.h.kids X.x.s.D (upd X.x.s.ext v (X.x.s.ext v - 1)) v x) ∧ ∀ s, sg s = true → C'.m.h.live s = true) := by
  have fin : ∀ h, JG sg eqv oth (stepDrop X v) (C.on h) → (∀ x, h.live x = true ↔ C.m.h.live x = true ∧
        ¬ Unref C.m.h.kids X.x.s.D (upd X.x.s.ext v (X.x.s.ext v - 1)) v x) ∧ ∀ s, sg s = true → h.live s = true := by
    intro h J'
    refine ⟨fun x => ?_, fun s hs => (J'.live s).2 (J'.staticIn hs)⟩
    rw [show h.live x = true ↔ x ∈ (stepDrop X v).x.s.D from J'.live x, J.live, J.kids]
    simp only [stepDrop, Spec.drop, List.mem_filter, decide_eq_true_eq]
  obtain ⟨d1, d2⟩ := drop_ok J hv hs hf
  refine ⟨fun h => ?_, fun h => ?_⟩
  · obtain ⟨c, e, J'⟩ := d1 h
    exact ⟨C.on c, by simp only [jsonDelRef, J.single, e, Res.map_ok', Option.map_some], fin c J'⟩
  · obtain ⟨c, e, J'⟩ := d2 h
    obtain ⟨f1, f2⟩ := fin c J'
    refine ⟨C.on c, by simp only [jsonDel, J.single, e, Res.map_ok', Option.map_some], ?_, f1, f2⟩
    cases hl : c.live v with
    | false => exact hl
    | true =>
      obtain ⟨A, G, -⟩ := J.mem
      obtain ⟨h1, h2⟩ := rc_zero.1 h
      refine absurd ?_ ((f1 v).1 hl).2
      refine .intro v hv (by simp [upd, h1]) (.inl rfl) ?_
      rintro y hy ⟨pol, -, hm⟩
      rw [J.kids] at hm
      obtain ⟨w, hw⟩ := J.typed.edges G hy hm
      cases hw
      exact absurd hm (h2 y hy)

/-! ### examples, and where the claim fails -/

/-- 900 and 901 are static: null and a boolean -/
def ty2 (s : Nat) : Tag := if s = 900 then .null else .boolean

/-- C strings are at addresses from 1000 -/
def oth2 (k : Nat) : Bool := 1000 ≤ k

/-- `{"1": [true]}`, where the program holds the array; then "1" is called "5" -/
def demoJ : List JOp :=
  [.object 10 11, .array 20 21, .take 21, .appendStatic 21 901, .set 11 1 21, .rename 11 101 5]

/-- an array into which the number 31 is put twice, and from which it is removed; it is appended to another one -/
def demoA : List JOp :=
  [.array 20 21, .scalar 30 31 .number, .append 21 31, .insert 21 0 31, .removeAt 21 1, .array 40 41, .concat 41 21]

/-- members of both kinds, and one removed by a C string -/
def demoO : List JOp :=
  [.object 10 11, .setScalar 11 1 30 31 .string, .setStatic 11 2 900, .remove 11 1002, .strn 50, .static 901, .take 11,
   .delRef 11]

/-- the hypotheses of `C105_partial` and `C105_parts` are met by three programs -/
example : (∀ s ∈ [900, 901], part (ty2 s) = none) ∧
    JLegal (fun x => [900, 901].contains x) eq2 oth2 (specJ [900, 901] ty2) demoJ := by
  refine ⟨by decide, ?_⟩
  simp [demoJ, JLegal, JOk, jstep, stepNew, stepTag, stepMap, stepM, mstep, specStep, mkBlock, addEdge, addEdges, IsA, OkVal, Few,
    JS.held, specJ, ty2, upd, look, SM.put, stepAdd, MapC.flat, eq2, Spec.rc, refs]

example : JLegal (fun x => [900, 901].contains x) eq2 oth2 (specJ [900, 901] ty2) demoA := by
  simp [demoA, JLegal, JOk, jstep, stepNew, stepTag, stepM, mstep, specStep, mkBlock, addEdge, addEdges, IsA, OkVal, Few,
    JS.held, specJ, ty2, part, upd, Spec.rc, refs]

example : JLegal (fun x => [900, 901].contains x) eq2 oth2 (specJ [900, 901] ty2) demoO := by
  simp [demoO, JLegal, JOk, jstep, stepNew, stepTag, stepMap, stepM, mstep, specStep, mkBlock, addEdge, addEdges, IsA, OkVal, Few,
    JS.held, specJ, ty2, oth2, part, upd, look, SM.put, stepAdd, stepRemove, MapC.flat, eq2, Spec.rc, refs]

/-- what they do: the object holds the array under the key 5, and keeps it when the program's reference goes -/
example : ∃ C, jexecAll eq2 20 (startJ [900, 901] ty2 oth2) demoJ = .ok (some C) ∧
    (C.m.maps 10).pairs = [(5, some 21)] ∧ C.m.h.deg 21 = 2 ∧ C.m.h.deg 5 = 2 ∧ C.m.h.live 101 = false ∧
    C.m.h.live 1 = true ∧ C.m.h.deg 1 = 0 ∧
    ∃ C', jexecAll eq2 20 C [.delRef 21, .delRef 11] = .ok (some C') ∧ C'.m.h.live 11 = false ∧ C'.m.h.live 21 = false ∧
      C'.m.h.live 20 = false ∧ C'.m.h.live 5 = false ∧ C'.m.h.live 901 = true :=
  ⟨_, rfl, by decide, by decide, by decide, by decide, by decide, by decide, _, rfl, by decide, by decide, by decide,
    by decide, by decide⟩

example : ∃ C, jexecAll eq2 23 (startJ [900, 901] ty2 oth2)
      [.array 20 21, .scalar 30 31 .number, .append 21 31, .insert 21 0 31, .removeAt 21 1] = .ok (some C) ∧
    C.m.h.deg 31 = 1 ∧ C.m.h.kids 20 = [(.rc, some 31)] :=
  ⟨_, rfl, by decide, by decide⟩

example : ∃ C, jexecAll eq2 23 (startJ [900, 901] ty2 oth2)
      [.array 20 21, .appendStatic 21 901, .array 40 41, .concat 41 21] = .ok (some C) ∧
    C.m.h.kids 20 = [(.rc, some 901)] ∧ C.m.h.kids 40 = [(.rc, some 901)] :=
  ⟨_, rfl, by decide, by decide⟩

/-- a memory with correct counts, as `C105_delete` needs, with a value that is held by the program and one by nobody -/
example : ∃ X C, JG (fun x => [900, 901].contains x) eq2 oth2 X C ∧ 11 ∈ X.x.s.D ∧ 0 < X.x.s.ext 11 ∧
    31 ∈ X.x.s.D ∧ X.x.s.rc 31 = 0 := by
  obtain ⟨C, -, J⟩ := jexecAll_spec eq2_eqv [.object 10 11, .take 11, .setStatic 11 1 900, .scalar 30 31 .number]
    (start_good eq2 (S := [900, 901]) (ty := ty2) (by decide) (by decide) oth2) (by
      simp [JLegal, JOk, jstep, stepNew, stepTag, stepMap, stepM, mstep, specStep, mkBlock, addEdge, addEdges, IsA, OkVal, Few,
        JS.held, specJ, ty2, part, upd, look, stepAdd, SM.put, MapC.flat, eq2, Spec.rc, refs]) (fuel := 14)
    (by simp [specJ])
  refine ⟨_, C, J, ?_, ?_, ?_, ?_⟩ <;>
  simp [jrun, jstep, stepNew, stepTag, stepMap, stepM, mstep, specStep, mkBlock, addEdge, addEdges,
    JS.held, specJ, upd, look, stepAdd, SM.put, MapC.flat, Spec.rc, refs]

/-- **C105 is false** for values that are overwritten: the old value stays in memory without references, and the deletion
of the document does not free it. -/
theorem C105_overwritten_false : ∃ C C', jexecAll eq2 40 (startJ [900, 901] ty2 oth2)
      [.object 10 11, .setScalar 11 1 30 31 .string, .setStatic 11 101 900] = .ok (some C) ∧
    (C.m.maps 10).pairs = [(1, some 900)] ∧ C.m.h.live 31 = true ∧ C.m.h.deg 31 = 0 ∧
    jexec eq2 40 C (.delRef 11) = .ok (some C') ∧ C'.m.h.live 11 = false ∧ C'.m.h.live 31 = true ∧ C'.m.h.live 30 = true :=
  ⟨_, _, rfl, by decide, by decide, by decide, rfl, by decide, by decide, by decide⟩

/-- **C105 is false** for members that are removed: key and value stay in memory without references. -/
theorem C105_removed_false : ∃ C C', jexecAll eq2 40 (startJ [900, 901] ty2 oth2)
      [.object 10 11, .setScalar 11 1 30 31 .string, .remove 11 1001] = .ok (some C) ∧ (C.m.maps 10).pairs = [] ∧
    C.m.h.live 1 = true ∧ C.m.h.deg 1 = 0 ∧ C.m.h.live 31 = true ∧ C.m.h.deg 31 = 0 ∧
    jexec eq2 40 C (.delRef 11) = .ok (some C') ∧ C'.m.h.live 11 = false ∧ C'.m.h.live 1 = true ∧ C'.m.h.live 31 = true :=
  ⟨_, _, rfl, by decide, by decide, by decide, by decide, by decide, rfl, by decide, by decide, by decide⟩

/-- **C105 is false** for a key that is not there: the string made for its new name stays in memory. -/
theorem C105_rename_missing_false : ∃ C, jexecAll eq2 40 (startJ [900, 901] ty2 oth2)
      [.object 10 11, .rename 11 1 2] = .ok (some C) ∧ (C.m.maps 10).pairs = [] ∧ C.m.h.live 1 = false ∧
    C.m.h.live 2 = true ∧ C.m.h.deg 2 = 0 :=
  ⟨_, rfl, by decide, by decide, by decide, by decide⟩

/-- **C105 is false** when a key is given the value it has: it is counted again, and never freed. -/
theorem C105_same_value_false : ∃ C C', jexecAll eq2 40 (startJ [900, 901] ty2 oth2)
      [.object 10 11, .scalar 30 31 .number, .set 11 1 31, .set 11 101 31] = .ok (some C) ∧
    (C.m.maps 10).pairs = [(1, some 31)] ∧ C.m.h.deg 31 = 2 ∧
    jexec eq2 40 C (.delRef 11) = .ok (some C') ∧ C'.m.h.live 11 = false ∧ C'.m.h.live 31 = true ∧ C'.m.h.deg 31 = 1 :=
  ⟨_, _, rfl, by decide, by decide, rfl, by decide, by decide, by decide⟩

/-- **C105 is false** for an array that is appended to itself: whatever the number of steps, the loop is not at its end. -/
theorem C105_concat_self_false (n : Nat) : ∃ C, jexecAll eq2 40 (startJ [900, 901] ty2 oth2)
    [.array 20 21, .appendStatic 21 901] = .ok (some C) ∧ arrayConcat n C 21 21 = .ok none := by
  refine ⟨_, rfl, ?_⟩
  have key : ∀ (n i : Nat) (h : RHeap), h.live 20 = true → h.live 901 = true → i < (h.kids 20).length →
      (∀ e ∈ h.kids 20, e = (Policy.rc, some 901)) → concatLoop 20 20 n h i = .ok none := by
    intro n
    induction n with
    | zero =>
      intro i h h1 h2 h3 h4
      rw [concatLoop, if_pos h1, List.getElem?_eq_getElem h3]
    | succ n ih =>
      intro i h h1 h2 h3 h4
      rw [concatLoop, if_pos h1, List.getElem?_eq_getElem h3, h4 _ (List.getElem_mem h3)]
      have : ∃ h', listAppend h 20 (.rc, some 901) = .ok h' ∧ h'.live = h.live ∧
          h'.kids = upd h.kids 20 (h.kids 20 ++ [(.rc, some 901)]) := by
        simp only [listAppend, h1, if_true, incrIndegree, incrRc, h2]
        split <;> exact ⟨_, rfl, rfl, rfl⟩
      obtain ⟨h', e, l, k⟩ := this
      simp only [e, Res.bind_ok]
      have hk : h'.kids 20 = h.kids 20 ++ [(.rc, some 901)] := by rw [k]; simp [upd]
      refine ih (i + 1) h' (by rw [l]; exact h1) (by rw [l]; exact h2) (by rw [hk]; simp; omega) ?_
      intro e he
      rw [hk] at he
      rcases List.mem_append.1 he with he | he
      · exact h4 e he
      · simpa using he
  have := fun h => key n 0 h
  simp only [arrayConcat]
  exact map_ok.2 ⟨none, this _ rfl rfl (by decide) (by decide), rfl⟩

end Verif.Rc.JsonProps
