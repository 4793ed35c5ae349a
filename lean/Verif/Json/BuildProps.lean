import Verif.Json.Build
import Verif.Json.MergeProps

/-!
# The interface of JSON values behaves like plain lists and association lists (C94), and booleans (C95)
-/

namespace Verif.Json.BuildProps

/-! ## specification: a heap of plain nodes, without trees, counters or static nodes being special -/

inductive ANode where
  | atom (a : Atom)
  | arr (xs : List Nat)
  /-- the entries in the order their keys were added -/
  | obj (kvs : List (List Byte × Nat))

abbrev AHeap := List ANode

/-- the value of a key is replaced in place; a new key comes last -/
def put (k : List Byte) (v : Nat) : List (List Byte × Nat) → List (List Byte × Nat)
  | [] => [(k, v)]
  | (k', v') :: l => if k' = k then (k, v) :: l else (k', v') :: put k v l

/-- the entries without a key -/
def del (k : List Byte) (l : List (List Byte × Nat)) : List (List Byte × Nat) := l.filter fun e => e.1 ≠ k

def aNode (a : AHeap) : Option Nat → Res ANode
  | none => .ub
  | some j => match a[j]? with
    | none => .ub
    | some n => .ok n

def aAlloc (a : AHeap) (n : ANode) : Nat × AHeap := (a.length, a ++ [n])

def aNew (a : AHeap) : New → Res (Nat × AHeap)
  | .object => .ok (aAlloc a (.obj []))
  | .array size => if size < 0 then .ub else .ok (aAlloc a (.arr []))
  | .undef => .ok (3, a)
  | .null => .ok (2, a)
  | .bool b => .ok (if b then 0 else 1, a)
  | .dbl d => .ok (aAlloc a (.atom (.dbl d)))
  | .i64 n => .ok (aAlloc a (.atom (.i64 n)))
  | .u64 n => .ok (aAlloc a (.atom (.u64 n)))
  | .str s => .ok (aAlloc a (.atom (.str s)))
  | .strn s => .ok (aAlloc a (.atom (.strn s)))
  | .blob n => .ok (aAlloc a (.atom (.blob n)))

/-- a change of the entries of the object `j`; anything else there is a deliberate crash -/
def onObj (a : AHeap) (j : Nat) (f : List (List Byte × Nat) → Res (Ret × AHeap)) : Res (Ret × AHeap) :=
  match a[j]? with
  | none => .ub
  | some (.obj kvs) => f kvs
  | some _ => .segv

/-- the same for the elements of an array -/
def onArr (a : AHeap) (j : Option Nat) (f : Nat → List Nat → Res (Ret × AHeap)) : Res (Ret × AHeap) :=
  match j with
  | none => .ub
  | some j =>
    match a[j]? with
    | none => .ub
    | some (.arr xs) => f j xs
    | some _ => .segv

/-- what can be asked about a node -/
def ask (a : AHeap) (j : Option Nat) (f : ANode → Ret) : Res (Ret × AHeap) := (aNode a j).map fun n => (f n, a)

def aCall (a : AHeap) : Call → Res (Ret × AHeap)
  | .mk n => (aNew a n).map fun r => (.ptr (some r.1), r.2)
  | .kv k v => (aNode a v).map fun _ => (.ptr (some a.length), a ++ [.obj [(k, v.getD 0)]])
  | .set none _ _ => .ok (.unit, a)
  | .set (some j) k v => onObj a j fun kvs => (aNode a v).map fun _ => (.unit, a.set j (.obj (put k (v.getD 0) kvs)))
  | .setNew none _ _ => .ok (.unit, a)
  | .setNew (some j) k n => onObj a j fun kvs => (aNew a n).map fun r => (.unit, r.2.set j (.obj (put k r.1 kvs)))
  | .get none _ => .ub
  | .get (some j) k => onObj a j fun kvs => .ok (.ptr (kvs.lookup k), a)
  | .remove none _ => .ub
  | .remove (some j) k => onObj a j fun kvs => .ok (.unit, a.set j (.obj (del k kvs)))
  | .rename none _ _ => .ub
  | .rename (some j) k k' =>
    match a[j]? with
    | none => .ub
    | some (.obj kvs) =>
      match kvs.lookup k with
      | none => .ok (.flag false, a)
      | some v => .ok (.flag true, a.set j (.obj (put k' v (del k kvs))))
    | some _ => .ok (.flag false, a)
  | .append j v => onArr a j fun j xs => (aNode a v).map fun _ => (.unit, a.set j (.arr (xs ++ [v.getD 0])))
  | .appendNew j n => onArr a j fun j xs => (aNew a n).map fun r => (.unit, r.2.set j (.arr (xs ++ [r.1])))
  | .length j => onArr a j fun _ xs => .ok (.num xs.length, a)
  | .at j i => onArr a j fun _ xs => .ok (.ptr (if 0 ≤ i then xs[i.toNat]? else none), a)
  | .removeAt j i => onArr a j fun j xs => .ok (.unit, if 0 ≤ i then a.set j (.arr (xs.eraseIdx i.toNat)) else a)
  | .empty j => ask a j fun n => .flag (match n with | .obj [] => true | .arr [] => true | _ => false)
  | .kind j => ask a j fun n => .kind (match n with | .obj _ => .obj | .arr _ => .arr | .atom x => x.kind)
  | .double j => ask a j fun n => .double (match n with | .atom (.dbl d) => some d | _ => none)
  | .i64 j => ask a j fun n => .int (match n with | .atom (.i64 d) => some d | _ => none)
  | .int j => ask a j fun n => .int (match n with | .atom (.i64 d) => some (cInt (toU64 d)) | _ => none)
  | .u64 j => ask a j fun n => .u64 (match n with | .atom (.u64 d) => some d | _ => none)
  | .bool j => .ok (.bool (match aNode a j with | .ok (.atom (.bool b)) => some b | _ => none), a)
  | .str j => ask a j fun n => .str (match n with | .atom (.str s) => some s | _ => none)

def aCalls (a : AHeap) : List Call → Res (List Ret × AHeap)
  | [] => .ok ([], a)
  | c :: cs => (aCall a c).bind fun r => (aCalls r.2 cs).map fun r' => (r.1 :: r'.1, r'.2)

def aStatics : AHeap := [.atom (.bool true), .atom (.bool false), .atom .null, .atom .undef]

/-! ## simulation -/

/-- the entries as the map specification has them -/
def up (kvs : List (List Byte × Nat)) : Map.Spec.SMap (List Byte) Nat := kvs.map fun e => (e.1, some e.2)

def NRel (c : Nat) : Node → ANode → Prop
  | .atom a, .atom b => a = b
  | .arr xs, .arr ys => xs = ys
  | .obj m, .obj kvs => Map.Rel strcmp m (up kvs) ∧ m.vpol = .rc ∧ kvs.length ≤ c
  | _, _ => False

def isBool (n : Node) : Prop := ∃ b, n = .atom (.bool b)

structure HRel (c : Nat) (h : Heap) (a : AHeap) : Prop where
  len : h.length = a.length
  rel : ∀ (i : Nat) (n : Node) (m : ANode), h[i]? = some n → a[i]? = some m → NRel c n m
  bools : ∀ (i : Nat) (b : Bool), h[i]? = some (.atom (.bool b)) ↔ i = boolPtr b
  base : 4 ≤ h.length

def Sim {α β : Type} (R : α → β → Prop) : Res α → Res β → Prop
  | .ok x, .ok y => R x y
  | .ub, .ub => True
  | .segv, .segv => True
  | _, _ => False

theorem Sim.bind {α β γ δ : Type} {R : α → β → Prop} {S : γ → δ → Prop} {x : Res α} {y : Res β} {f : α → Res γ}
    {g : β → Res δ} (h : Sim R x y) (hf : ∀ u v, R u v → Sim S (f u) (g v)) : Sim S (x.bind f) (y.bind g) := by
  cases x <;> cases y <;> simp only [Sim] at h <;> simp only [Res.bind] <;> first | exact hf _ _ h | trivial

theorem Sim.map {α β γ δ : Type} {R : α → β → Prop} {S : γ → δ → Prop} {x : Res α} {y : Res β} {f : α → γ}
    {g : β → δ} (h : Sim R x y) (hf : ∀ u v, R u v → S (f u) (g v)) : Sim S (x.map f) (y.map g) := by
  cases x <;> cases y <;> simp only [Sim] at h <;> simp only [Res.map, Sim] <;> first | exact hf _ _ h | trivial

theorem NRel.mono {c c' : Nat} (hc : c ≤ c') {n : Node} {m : ANode} (h : NRel c n m) : NRel c' n m := by
  cases n <;> cases m <;> simp only [NRel] at h ⊢
  · exact h
  · exact h
  · exact ⟨h.1, h.2.1, by omega⟩

theorem HRel.mono {c c' : Nat} (hc : c ≤ c') {h : Heap} {a : AHeap} (hr : HRel c h a) : HRel c' h a :=
  ⟨hr.len, fun i n m h1 h2 => (hr.rel i n m h1 h2).mono hc, hr.bools, hr.base⟩

theorem HRel.alloc {c : Nat} {h : Heap} {a : AHeap} (hr : HRel c h a) {n : Node} {m : ANode} (hn : NRel c n m)
    (hb : ¬ isBool n) : HRel c (h ++ [n]) (a ++ [m]) := by
  refine ⟨by simp [hr.len], ?_, ?_, by simp [hr.base]; have := hr.base; omega⟩
  · intro i n' m' h1 h2
    by_cases hi : i < h.length
    · rw [List.getElem?_append_left hi] at h1
      rw [List.getElem?_append_left (by rw [← hr.len]; exact hi)] at h2
      exact hr.rel i _ _ h1 h2
    · rw [List.getElem?_append_right (by omega)] at h1
      rw [List.getElem?_append_right (by rw [← hr.len]; omega)] at h2
      rw [← hr.len] at h2
      cases e : i - h.length with
      | zero => rw [e] at h1 h2; simp at h1 h2; subst h1; subst h2; exact hn
      | succ k => rw [e] at h1; simp at h1
  · intro i b
    have hlt : boolPtr b < h.length := by
      have := (hr.bools (boolPtr b) b).2 rfl
      exact (List.getElem?_eq_some_iff.1 this).1
    by_cases hi : i < h.length
    · rw [List.getElem?_append_left hi]; exact hr.bools i b
    · rw [List.getElem?_append_right (by omega)]
      constructor
      · intro h1
        cases e : i - h.length with
        | zero => rw [e] at h1; simp at h1; exact absurd ⟨b, h1⟩ hb
        | succ k => rw [e] at h1; simp at h1
      · intro h1; omega

theorem HRel.set {c c' : Nat} {h : Heap} {a : AHeap} (hr : HRel c h a) (hc : c ≤ c') {j : Nat} {n0 n : Node} {m : ANode}
    (h0 : h[j]? = some n0) (hb0 : ¬ isBool n0) (hn : NRel c' n m) (hb : ¬ isBool n) : HRel c' (h.set j n) (a.set j m) := by
  have hj : j < h.length := (List.getElem?_eq_some_iff.1 h0).1
  refine ⟨by simp [hr.len], ?_, ?_, by simp [hr.base]⟩
  · intro i n' m' h1 h2
    by_cases hi : j = i
    · subst hi
      rw [List.getElem?_set_self hj] at h1
      rw [List.getElem?_set_self (by rw [← hr.len]; exact hj)] at h2
      cases h1; cases h2; exact hn
    · rw [List.getElem?_set_ne hi] at h1 h2
      exact (hr.rel i _ _ h1 h2).mono hc
  · intro i b
    by_cases hi : j = i
    · subst hi
      rw [List.getElem?_set_self hj]
      constructor
      · intro h1; exact absurd ⟨b, Option.some.inj h1⟩ hb
      · intro h1
        have := (hr.bools j b).2 h1
        rw [h0] at this
        exact absurd ⟨b, Option.some.inj this⟩ hb0
    · rw [List.getElem?_set_ne hi]; exact hr.bools i b

/-! ## association lists -/

theorem up_keys (kvs : List (List Byte × Nat)) : (up kvs).map (·.1) = kvs.map (·.1) := by simp [up]

theorem nodup_of {m : ObjMap} {kvs : List (List Byte × Nat)} (r : Map.Rel strcmp m (up kvs)) : (kvs.map (·.1)).Nodup := by
  have hu := r.uniq strcmp_ord
  rw [← up_keys, List.Nodup, List.pairwise_map]
  exact hu.imp fun {x y} h e => h (by rw [e]; exact strcmp_self _)

theorem lookup_up (kvs : List (List Byte × Nat)) (k : List Byte) : Map.Spec.lookup strcmp (up kvs) k = kvs.lookup k := by
  induction kvs with
  | nil => rfl
  | cons e l ih =>
    obtain ⟨k', v⟩ := e
    rw [List.lookup_cons]
    unfold Map.Spec.lookup up at *
    rw [List.map_cons, List.find?_cons]
    by_cases hk : k = k'
    · subst hk; simp [strcmp_self]
    · have : strcmp k k' ≠ 0 := fun h => hk (strcmp_eq.1 h)
      simp only [this, decide_false, beq_eq_false_iff_ne.2 hk]
      exact ih

theorem present_up (kvs : List (List Byte × Nat)) (k : List Byte) : Map.Spec.present strcmp (up kvs) k ↔ k ∈ kvs.map (·.1) := by
  simp [Map.Spec.present, up, strcmp_eq]
  constructor
  · rintro ⟨a, b, h, hm, rfl, -⟩; exact ⟨h, hm⟩
  · rintro ⟨b, h⟩; exact ⟨some b, k, b, h, rfl, rfl⟩

theorem put_new {k : List Byte} {v : Nat} : ∀ {kvs : List (List Byte × Nat)}, k ∉ kvs.map (·.1) → put k v kvs = kvs ++ [(k, v)]
  | [], _ => rfl
  | (k', v') :: l, h => by
    simp only [List.map_cons, List.mem_cons, not_or] at h
    rw [put, if_neg (Ne.symm h.1), put_new h.2]; rfl

theorem put_old {k : List Byte} {v : Nat} : ∀ {kvs : List (List Byte × Nat)}, (kvs.map (·.1)).Nodup → k ∈ kvs.map (·.1) →
    put k v kvs = kvs.map fun e => if e.1 = k then (e.1, v) else e
  | [], _, h => by simp at h
  | (k', v') :: l, hn, h => by
    simp only [List.map_cons, List.nodup_cons] at hn
    rw [put]
    by_cases e : k' = k
    · subst e
      rw [if_pos rfl, List.map_cons, if_pos rfl]
      congr 1
      have hx : ∀ x ∈ l, (if x.1 = k' then (x.1, v) else x) = x := by
        intro x hx
        rw [if_neg]
        rintro rfl
        exact hn.1 (List.mem_map_of_mem hx)
      conv => lhs; rw [← List.map_id l]
      exact List.map_congr_left fun x h => (hx x h).symm
    · rw [if_neg e, List.map_cons, if_neg e, put_old hn.2]
      simp only [List.map_cons, List.mem_cons] at h
      rcases h with h | h
      · exact absurd h.symm e
      · exact h

theorem insert_up {kvs : List (List Byte × Nat)} (hn : (kvs.map (·.1)).Nodup) (k : List Byte) (v : Nat) :
    Map.Spec.insert strcmp (up kvs) k (some v) = up (put k v kvs) := by
  unfold Map.Spec.insert
  split
  · next hp =>
    rw [present_up] at hp
    rw [put_old hn hp]
    simp only [up, List.map_map]
    apply List.map_congr_left
    intro e _
    simp only [Function.comp_apply, strcmp_eq]
    by_cases h : e.1 = k
    · rw [if_pos h.symm, if_pos h]
    · rw [if_neg (Ne.symm h), if_neg h]
  · next hp =>
    rw [present_up] at hp
    rw [put_new hp]; simp [up]

theorem erase_up (kvs : List (List Byte × Nat)) (k : List Byte) : Map.Spec.erase strcmp (up kvs) k = up (del k kvs) := by
  unfold Map.Spec.erase up del
  rw [List.filter_map]
  congr 1
  apply List.filter_congr
  intro e _
  simp only [Function.comp_apply, ne_eq, strcmp_eq, eq_comm (a := k)]

theorem length_put (k : List Byte) (v : Nat) (kvs : List (List Byte × Nat)) : (put k v kvs).length ≤ kvs.length + 1 := by
  induction kvs with
  | nil => simp [put]
  | cons e l ih =>
    obtain ⟨k', v'⟩ := e
    rw [put]; split <;> simp <;> omega

theorem length_del (k : List Byte) (kvs : List (List Byte × Nat)) : (del k kvs).length ≤ kvs.length := List.length_filter_le ..

theorem del_absent {k : List Byte} {kvs : List (List Byte × Nat)} (h : kvs.lookup k = none) : del k kvs = kvs := by
  induction kvs with
  | nil => rfl
  | cons e l ih =>
    obtain ⟨k', v⟩ := e
    rw [List.lookup_cons] at h
    split at h
    · cases h
    · next hk =>
      have : k' ≠ k := by rintro rfl; simp at hk
      have e := ih h
      unfold del at e ⊢
      rw [List.filter_cons_of_pos (by simpa using this), e]

/-! ## every call -/

theorem not_bool_obj {m : ObjMap} : ¬ isBool (.obj m) := by rintro ⟨b, h⟩; cases h
theorem not_bool_arr {xs : List Nat} : ¬ isBool (.arr xs) := by rintro ⟨b, h⟩; cases h

variable {c : Nat} {h : Heap} {a : AHeap}

theorem HRel.obj (hr : HRel c h a) {j : Nat} {m : ObjMap} (hj : h[j]? = some (.obj m)) :
    ∃ kvs, a[j]? = some (.obj kvs) ∧ Map.Rel strcmp m (up kvs) ∧ m.vpol = .rc ∧ kvs.length ≤ c := by
  have hl : j < a.length := by rw [← hr.len]; exact (List.getElem?_eq_some_iff.1 hj).1
  have := hr.rel j _ _ hj (List.getElem?_eq_getElem hl)
  rw [List.getElem?_eq_getElem hl]
  cases e : a[j] <;> rw [e] at this <;> simp only [NRel] at this
  exact ⟨_, rfl, this⟩

theorem HRel.arr (hr : HRel c h a) {j : Nat} {xs : List Nat} (hj : h[j]? = some (.arr xs)) : a[j]? = some (.arr xs) := by
  have hl : j < a.length := by rw [← hr.len]; exact (List.getElem?_eq_some_iff.1 hj).1
  have := hr.rel j _ _ hj (List.getElem?_eq_getElem hl)
  rw [List.getElem?_eq_getElem hl]
  cases e : a[j] <;> rw [e] at this <;> simp only [NRel] at this
  subst this; rfl

theorem HRel.atom (hr : HRel c h a) {j : Nat} {x : Atom} (hj : h[j]? = some (.atom x)) : a[j]? = some (.atom x) := by
  have hl : j < a.length := by rw [← hr.len]; exact (List.getElem?_eq_some_iff.1 hj).1
  have := hr.rel j _ _ hj (List.getElem?_eq_getElem hl)
  rw [List.getElem?_eq_getElem hl]
  cases e : a[j] <;> rw [e] at this <;> simp only [NRel] at this
  subst this; rfl

theorem HRel.none (hr : HRel c h a) {j : Nat} : h[j]? = none ↔ a[j]? = none := by
  rw [List.getElem?_eq_none_iff, List.getElem?_eq_none_iff, hr.len]

theorem node_sim (hr : HRel c h a) (j : Option Nat) : Sim (NRel c) (node h j) (aNode a j) := by
  cases j with
  | none => trivial
  | some j =>
    simp only [node, aNode]
    cases e : h[j]? with
    | none => rw [hr.none.1 e]; trivial
    | some n =>
      cases e' : a[j]? with
      | none => rw [hr.none.2 e'] at e; cases e
      | some m => exact hr.rel j n m e e'

/-- what a made value may be -/
def Made (c : Nat) (h0 : Heap) (a0 : AHeap) (r : Nat × Heap) (s : Nat × AHeap) : Prop :=
  r.1 = s.1 ∧ HRel c r.2 s.2 ∧ r.1 < r.2.length ∧ (∃ l, r.2 = h0 ++ l) ∧ (∃ l, s.2 = a0 ++ l)

theorem mkNew_sim (hr : HRel c h a) (n : New) : Sim (Made c h a) (mkNew h n) (aNew a n) := by
  have alloc : ∀ (x : Node) (y : ANode), NRel c x y → ¬ isBool x → Made c h a (alloc h x) (aAlloc a y) := by
    intro x y h1 h2
    exact ⟨hr.len, hr.alloc h1 h2, by simp [Json.alloc], ⟨_, rfl⟩, ⟨_, rfl⟩⟩
  have same : ∀ p, p < 4 → Made c h a (p, h) (p, a) := fun p hp =>
    ⟨rfl, hr, by have := hr.base; simp only; omega, ⟨[], by simp⟩, ⟨[], by simp⟩⟩
  cases n with
  | object =>
    refine alloc _ _ ⟨?_, rfl, by simp⟩ not_bool_obj
    exact Map.Rel_mk strcmp .rc .rc
  | array size =>
    simp only [mkNew, aNew]
    split
    · trivial
    · exact alloc _ _ rfl not_bool_arr
  | undef => exact same 3 (by omega)
  | null => exact same 2 (by omega)
  | bool b => cases b <;> exact same _ (by decide)
  | dbl d => exact alloc _ _ rfl (by rintro ⟨b, h⟩; cases h)
  | i64 d => exact alloc _ _ rfl (by rintro ⟨b, h⟩; cases h)
  | u64 d => exact alloc _ _ rfl (by rintro ⟨b, h⟩; cases h)
  | str d => exact alloc _ _ rfl (by rintro ⟨b, h⟩; cases h)
  | strn d => exact alloc _ _ rfl (by rintro ⟨b, h⟩; cases h)
  | blob d => exact alloc _ _ rfl (by rintro ⟨b, h⟩; cases h)

theorem objSet_sim (hc : c < 2 ^ 31) (hr : HRel c h a) {j v : Nat} {m : ObjMap} {kvs : List (List Byte × Nat)}
    (hj : h[j]? = some (.obj m)) (hk : a[j]? = some (.obj kvs)) (hv : v < h.length) (k : List Byte) :
    ∃ h', objSet h j k v = .ok h' ∧ HRel (c + 1) h' (a.set j (.obj (put k v kvs))) := by
  obtain ⟨kvs', hk', r, hp, hl⟩ := hr.obj hj
  rw [hk] at hk'
  cases hk'
  obtain ⟨m', e, hp', -, r', -⟩ := Map.Props.exec_spec strcmp_ord r (by simp [up]; omega) (.add (some k) (some v)) (.inl (by simp))
  simp only [Map.Props.exec] at e
  obtain ⟨x, e1, e2⟩ := Res.bind_eq_ok.1 e
  simp only [Map.Spec.step] at e2 r'
  have hx : x.2 = m' := by
    have := congrArg (fun r => r) e2
    simp only [Res.ok.injEq, Prod.mk.injEq] at this
    exact this.2
  refine ⟨h.set j (.obj m'), ?_, ?_⟩
  · rw [objSet, hj]
    simp only [hv, if_true]
    rw [e1, Res.map, hx]
  · refine hr.set (by omega) hj not_bool_obj ⟨?_, by rw [hp', hp], by have := length_put k v kvs; omega⟩ not_bool_obj
    rw [← insert_up (nodup_of r)]; exact r'

def Step (c : Nat) (r : Ret × Heap) (s : Ret × AHeap) : Prop := r.1 = s.1 ∧ HRel c r.2 s.2

theorem ask_sim (hr : HRel c h a) (j : Option Nat) {f : Node → Ret} {g : ANode → Ret}
    (hf : ∀ n m, NRel c n m → f n = g m) :
    Sim (Step (c + 1)) ((node h j).map fun n => (f n, h)) (ask a j g) := by
  refine (node_sim hr j).map fun n m hn => ⟨hf n m hn, hr.mono (by omega)⟩

theorem map_map {α β γ : Type} (r : Res α) (f : α → β) (g : β → γ) : (r.map f).map g = r.map fun x => g (f x) := by
  cases r <;> rfl

theorem map_bind {α β γ : Type} (r : Res α) (f : α → Res β) (g : β → γ) : (r.bind f).map g = r.bind fun x => (f x).map g := by
  cases r <;> rfl

theorem getElem?_append_some {α : Type} {l l' : List α} {j : Nat} {x : α} (h : l[j]? = some x) : (l ++ l')[j]? = some x := by
  rw [List.getElem?_append_left (List.getElem?_eq_some_iff.1 h).1]; exact h

/-- the array or the crash -/
theorem onArr_sim (hr : HRel c h a) (j : Option Nat) {f : Node → Res (Ret × Heap)} {g : Nat → List Nat → Res (Ret × AHeap)}
    (hf : ∀ i xs, j = some i → h[i]? = some (.arr xs) → a[i]? = some (.arr xs) → Sim (Step (c + 1)) (f (.arr xs)) (g i xs))
    (h1 : ∀ x, f (.atom x) = .segv) (h2 : ∀ m, f (.obj m) = .segv) :
    Sim (Step (c + 1)) ((node h j).bind f) (onArr a j g) := by
  cases j with
  | none => trivial
  | some j =>
    simp only [node, onArr]
    cases e : h[j]? with
    | none => rw [hr.none.1 e]; trivial
    | some n =>
      cases n with
      | atom x => rw [hr.atom e]; simp only [Res.bind, h1]; trivial
      | arr xs => rw [hr.arr e]; exact hf j xs rfl e (hr.arr e)
      | obj m =>
        obtain ⟨kvs, e', -⟩ := hr.obj e
        rw [e']; simp only [Res.bind, h2]; trivial

/-- every call gives the same result in the code and in the specification, and keeps them together -/
theorem call_sim (hc : c < 2 ^ 31) (hr : HRel c h a) (op : Call) : Sim (Step (c + 1)) (call h op) (aCall a op) := by
  have stay : HRel (c + 1) h a := hr.mono (by omega)
  cases op with
  | mk n =>
    refine (mkNew_sim hr n).map fun r s hm => ⟨by rw [hm.1], hm.2.1.mono (by omega)⟩
  | kv k v =>
    rw [call, oKv, aCall]
    have hs := node_sim hr v
    cases v with
    | none => trivial
    | some v =>
      simp only [node, aNode] at hs ⊢
      cases e : h[v]? with
      | none => rw [hr.none.1 e]; trivial
      | some n =>
        cases e' : a[v]? with
        | none => rw [hr.none.2 e'] at e; cases e
        | some m =>
          have hv : v < h.length := (List.getElem?_eq_some_iff.1 e).1
          obtain ⟨-, q, -⟩ := mkNew_sim hr .object
          have hj : (h ++ [Node.obj (Map.mkE .rc .rc)])[h.length]? = some (.obj (Map.mkE .rc .rc)) := by simp
          have ha : (a ++ [ANode.obj []])[h.length]? = some (.obj []) := by simp [hr.len]
          obtain ⟨h', e1, e2⟩ := objSet_sim hc q hj ha (v := v) (by simp [Json.alloc]; omega) k
          have e3 : (a ++ [ANode.obj []]).set h.length (.obj (put k v [])) = a ++ [.obj [(k, v)]] := by
            rw [hr.len]; simp [put]
          replace e2 : HRel (c + 1) h' ((a ++ [ANode.obj []]).set h.length (.obj (put k v []))) := e2
          rw [e3] at e2
          simp only [Res.bind, alloc, oSet.eq_def, hj]
          rw [show objSet (h ++ [Node.obj (Map.mkE .rc .rc)]) h.length k v = .ok h' from e1]
          exact ⟨by rw [hr.len], e2⟩
  | set j k v =>
    cases j with
    | none => exact ⟨rfl, stay⟩
    | some j =>
      rw [call, oSet.eq_def, aCall, onObj]
      dsimp only
      cases e : h[j]? with
      | none => rw [hr.none.1 e]; trivial
      | some n =>
        cases n with
        | atom x => rw [hr.atom e]; trivial
        | arr x => rw [hr.arr e]; trivial
        | obj m =>
          obtain ⟨kvs, e', r, hp, hl⟩ := hr.obj e
          rw [e']
          cases v with
          | none => trivial
          | some v =>
            simp only [aNode]
            cases ev : a[v]? with
            | none =>
              have : ¬ v < h.length := by
                have := hr.none.2 ev; rw [List.getElem?_eq_none_iff] at this; omega
              rw [objSet, e]
              simp only [this, if_false]; trivial
            | some y =>
              have hv : v < h.length := by rw [hr.len]; exact (List.getElem?_eq_some_iff.1 ev).1
              obtain ⟨h', e1, e2⟩ := objSet_sim hc hr e e' hv k
              rw [e1]; exact ⟨rfl, e2⟩
  | setNew j k n =>
    cases j with
    | none => exact ⟨rfl, stay⟩
    | some j =>
      rw [call, oSetNew, aCall, onObj]
      cases e : h[j]? with
      | none => rw [hr.none.1 e]; trivial
      | some x =>
        cases x with
        | atom x => rw [hr.atom e]; trivial
        | arr x => rw [hr.arr e]; trivial
        | obj m =>
          obtain ⟨kvs, e', r, hp, hl⟩ := hr.obj e
          rw [e']
          have hs := mkNew_sim hr n
          dsimp only
          cases e1 : mkNew h n <;> cases e2 : aNew a n <;> rw [e1, e2] at hs <;> simp only [Sim] at hs
          · rename_i r s
            obtain ⟨q1, q2, q3, ⟨l, q4⟩, ⟨l', q5⟩⟩ := hs
            obtain ⟨h', p1, p2⟩ := objSet_sim hc q2 (j := j) (v := r.1) (m := m) (kvs := kvs) (by rw [q4]; exact getElem?_append_some e)
              (by rw [q5]; exact getElem?_append_some e') q3 k
            simp only [Res.bind, Res.map]
            rw [p1]
            exact ⟨rfl, by rw [← q1]; exact p2⟩
          · trivial
          · trivial
  | get j k =>
    cases j with
    | none => trivial
    | some j =>
      rw [call, oGet, aCall, onObj]
      simp only [node, Option.getD_some, objGet]
      cases e : h[j]? with
      | none => rw [hr.none.1 e]; trivial
      | some n =>
        cases n with
        | atom x => rw [hr.atom e]; trivial
        | arr x => rw [hr.arr e]; trivial
        | obj m =>
          obtain ⟨kvs, e', r, hp, hl⟩ := hr.obj e
          rw [e']
          refine ⟨?_, stay⟩
          show Ret.ptr (Map.find strcmp m (some k)) = _
          rw [Map.find_spec strcmp_ord r, lookup_up]
  | remove j k =>
    cases j with
    | none => trivial
    | some j =>
      rw [call, oRemove, aCall, onObj]
      simp only [node, Option.getD_some, objRemove]
      cases e : h[j]? with
      | none => rw [hr.none.1 e]; trivial
      | some n =>
        cases n with
        | atom x => rw [hr.atom e]; trivial
        | arr x => rw [hr.arr e]; trivial
        | obj m =>
          obtain ⟨kvs, e', r, hp, hl⟩ := hr.obj e
          rw [e']
          obtain ⟨m', e1, hp', -, r', -⟩ := Map.Props.exec_spec strcmp_ord r (by simp [up]; omega) (.remove (some k)) trivial
          simp only [Map.Props.exec] at e1
          obtain ⟨x, e2, e3⟩ := Res.bind_eq_ok.1 e1
          simp only [Map.Spec.step] at e3 r'
          simp only [Res.ok.injEq, Prod.mk.injEq] at e3
          simp only [Res.bind, e2, Res.map]
          refine ⟨rfl, hr.set (by omega) e not_bool_obj ⟨?_, by rw [e3.2, hp', hp], by have := length_del k kvs; omega⟩ not_bool_obj⟩
          rw [e3.2, ← erase_up]; exact r'
  | rename j k k' =>
    cases j with
    | none => trivial
    | some j =>
      rw [call, oRename, aCall]
      simp only [node, Option.getD_some, objRename]
      cases e : h[j]? with
      | none => rw [hr.none.1 e]; trivial
      | some n =>
        cases n with
        | atom x => rw [hr.atom e]; exact ⟨rfl, stay⟩
        | arr x => rw [hr.arr e]; exact ⟨rfl, stay⟩
        | obj m =>
          obtain ⟨kvs, e', r, hp, hl⟩ := hr.obj e
          rw [e']
          obtain ⟨m', e1, hp', -, r', -⟩ := Map.Props.exec_spec strcmp_ord r (by simp [up]; omega) (.rename (some k) (some k')) trivial
          simp only [Map.Props.exec] at e1
          obtain ⟨x, e2, e3⟩ := Res.bind_eq_ok.1 e1
          simp only [Map.Spec.step, lookup_up] at e3 r'
          simp only [Res.bind, e2, Res.map]
          cases hlk : kvs.lookup k with
          | none =>
            rw [hlk] at e3 r'
            simp only [Res.ok.injEq, Prod.mk.injEq, Map.Spec.Out.bool.injEq] at e3
            rw [erase_up, del_absent hlk] at r'
            refine ⟨by rw [e3.1], ?_⟩
            show HRel (c + 1) (h.set j (.obj x.2)) a
            have : a = a.set j (.obj kvs) := by
              apply List.ext_getElem?
              intro i
              by_cases hi : j = i
              · subst hi; rw [List.getElem?_set_self (List.getElem?_eq_some_iff.1 e').1, e']
              · rw [List.getElem?_set_ne hi]
            rw [this]
            exact hr.set (by omega) e not_bool_obj ⟨by rw [e3.2]; exact r', by rw [e3.2, hp', hp], by omega⟩ not_bool_obj
          | some v =>
            rw [hlk] at e3 r'
            simp only [Res.ok.injEq, Prod.mk.injEq, Map.Spec.Out.bool.injEq] at e3
            rw [erase_up] at r'
            replace r' : Map.Rel strcmp m' (Map.Spec.insert strcmp (up (del k kvs)) k' (some v)) := r'
            rw [insert_up] at r'
            · refine ⟨by rw [e3.1], hr.set (by omega) e not_bool_obj ⟨by rw [e3.2]; exact r', by rw [e3.2, hp', hp], ?_⟩ not_bool_obj⟩
              have := length_put k' v (del k kvs)
              have := length_del k kvs
              omega
            · exact (nodup_of r).sublist (List.Sublist.map _ List.filter_sublist)
  | append j v =>
    rw [call, aAppend, aCall]
    have key : Sim (Step (c + 1)) ((node h j).bind fun n => (match n with
        | .arr _ => (node h v).bind fun _ => arrAppend h (j.getD 0) (v.getD 0)
        | _ => .segv : Res Heap).map fun h => (.unit, h)) (onArr a j fun j xs => (aNode a v).map fun _ => (.unit, a.set j (.arr (xs ++ [v.getD 0])))) := by
      refine onArr_sim hr j ?_ (fun _ => rfl) (fun _ => rfl)
      rintro i xs rfl h1 h2
      have hs := node_sim hr v
      dsimp only
      cases e1 : node h v <;> cases e2 : aNode a v <;> rw [e1, e2] at hs <;> simp only [Sim] at hs
      · simp only [Res.bind, arrAppend, Option.getD_some, h1, Res.map]
        exact ⟨rfl, hr.set (by omega) h1 not_bool_arr rfl not_bool_arr⟩
      · trivial
      · trivial
    rw [map_bind]
    exact key
  | appendNew j n =>
    rw [call, aAppendNew, aCall]
    have key : Sim (Step (c + 1)) ((node h j).bind fun m => (match m with
        | .arr _ => (mkNew h n).bind fun r => arrAppend r.2 (j.getD 0) r.1
        | _ => .segv : Res Heap).map fun h => (.unit, h)) (onArr a j fun j xs => (aNew a n).map fun r => (.unit, r.2.set j (.arr (xs ++ [r.1])))) := by
      refine onArr_sim hr j ?_ (fun _ => rfl) (fun _ => rfl)
      rintro i xs rfl h1 h2
      have hs := mkNew_sim hr n
      dsimp only
      cases e1 : mkNew h n <;> cases e2 : aNew a n <;> rw [e1, e2] at hs <;> simp only [Sim] at hs
      · rename_i r s
        obtain ⟨q1, q2, q3, ⟨l, q4⟩, ⟨l', q5⟩⟩ := hs
        have hi : r.2[i]? = some (.arr xs) := by rw [q4]; exact getElem?_append_some h1
        simp only [Res.bind, arrAppend, Option.getD_some, hi, Res.map]
        exact ⟨rfl, q2.set (by omega) hi not_bool_arr (by rw [q1]; rfl) not_bool_arr⟩
      · trivial
      · trivial
    rw [map_bind]
    exact key
  | length j =>
    rw [call, aLength, aCall]
    have key : Sim (Step (c + 1)) ((node h j).bind fun n => (match n with
        | .arr xs => .ok xs.length
        | _ => .segv : Res Nat).map fun n => (.num n, h)) (onArr a j fun _ xs => .ok (.num xs.length, a)) := by
      refine onArr_sim hr j ?_ (fun _ => rfl) (fun _ => rfl)
      rintro i xs rfl h1 h2
      exact ⟨rfl, stay⟩
    rw [map_bind]
    exact key
  | «at» j i =>
    rw [call, aGet, aCall]
    have key : Sim (Step (c + 1)) ((node h j).bind fun n => (match n with
        | .arr xs => .ok (if 0 ≤ i ∧ i < xs.length then xs[i.toNat]? else none)
        | _ => .segv : Res (Option Nat)).map fun r => (.ptr r, h)) (onArr a j fun _ xs => .ok (.ptr (if 0 ≤ i then xs[i.toNat]? else none), a)) := by
      refine onArr_sim hr j ?_ (fun _ => rfl) (fun _ => rfl)
      rintro i' xs rfl h1 h2
      refine ⟨?_, stay⟩
      show Ret.ptr _ = Ret.ptr _
      congr 1
      by_cases h0 : 0 ≤ i
      · rw [if_pos h0]
        by_cases hl : i < xs.length
        · rw [if_pos ⟨h0, hl⟩]
        · rw [if_neg (fun h => hl h.2), List.getElem?_eq_none (by omega)]
      · rw [if_neg h0, if_neg (fun h => h0 h.1)]
    rw [map_bind]
    exact key
  | removeAt j i =>
    rw [call, aRemove, aCall]
    have key : Sim (Step (c + 1)) ((node h j).bind fun n => (match n with
        | .arr xs => .ok (if 0 ≤ i ∧ i < xs.length then h.set (j.getD 0) (.arr (xs.eraseIdx i.toNat)) else h)
        | _ => .segv : Res Heap).map fun h => (.unit, h)) (onArr a j fun j xs => .ok (.unit, if 0 ≤ i then a.set j (.arr (xs.eraseIdx i.toNat)) else a)) := by
      refine onArr_sim hr j ?_ (fun _ => rfl) (fun _ => rfl)
      rintro i' xs rfl h1 h2
      refine ⟨rfl, ?_⟩
      show HRel (c + 1) (if 0 ≤ i ∧ i < xs.length then h.set i' _ else h) (if 0 ≤ i then _ else a)
      by_cases h0 : 0 ≤ i
      · rw [if_pos h0]
        by_cases hl : i < xs.length
        · rw [if_pos ⟨h0, hl⟩]
          exact hr.set (by omega) h1 not_bool_arr rfl not_bool_arr
        · rw [if_neg (fun h => hl h.2), List.eraseIdx_of_length_le (by omega)]
          have : a.set i' (.arr xs) = a := by
            apply List.ext_getElem?
            intro k
            by_cases hi : i' = k
            · subst hi; rw [List.getElem?_set_self (List.getElem?_eq_some_iff.1 h2).1, h2]
            · rw [List.getElem?_set_ne hi]
          rw [this]; exact stay
      · rw [if_neg h0, if_neg (fun h => h0 h.1)]; exact stay
    rw [map_bind]
    exact key
  | empty j =>
    rw [call, isEmpty, map_map, aCall]
    refine ask_sim hr j fun n m hn => ?_
    cases n <;> cases m <;> simp only [NRel] at hn
    · rfl
    · subst hn
      rename_i xs
      cases xs <;> rfl
    · rename_i m kvs
      have := hn.1.size
      simp only [up, List.length_map] at this
      simp only [Map.sizeOf, this]
      cases kvs <;> rfl
  | kind j =>
    rw [call, Json.kind, map_map, aCall]
    refine ask_sim hr j fun n m hn => ?_
    cases n <;> cases m <;> simp only [NRel] at hn
    · subst hn; rfl
    · rfl
    · rfl
  | double j =>
    rw [call, toDoublex, map_map, aCall]
    refine ask_sim hr j fun n m hn => ?_
    cases n <;> cases m <;> simp only [NRel] at hn
    · subst hn; rename_i x; cases x <;> rfl
    · rfl
    · rfl
  | i64 j =>
    rw [call, toI64x, map_map, aCall]
    refine ask_sim hr j fun n m hn => ?_
    cases n <;> cases m <;> simp only [NRel] at hn
    · subst hn; rename_i x; cases x <;> rfl
    · rfl
    · rfl
  | int j =>
    rw [call, toIntxP, map_map, aCall]
    refine ask_sim hr j fun n m hn => ?_
    cases n <;> cases m <;> simp only [NRel] at hn
    · subst hn; rename_i x; cases x <;> rfl
    · rfl
    · rfl
  | u64 j =>
    rw [call, toU64x, map_map, aCall]
    refine ask_sim hr j fun n m hn => ?_
    cases n <;> cases m <;> simp only [NRel] at hn
    · subst hn; rename_i x; cases x <;> rfl
    · rfl
    · rfl
  | bool j =>
    rw [call, aCall]
    refine ⟨?_, stay⟩
    show Ret.bool (toBoolx j) = Ret.bool _
    congr 1
    have hb : ∀ i b, a[i]? = some (.atom (.bool b)) ↔ i = boolPtr b := by
      intro i b
      rw [← hr.bools i b]
      constructor
      · intro h1
        cases e : h[i]? with
        | none => rw [hr.none.1 e] at h1; cases h1
        | some n =>
          have := hr.rel i _ _ e h1
          cases n <;> simp only [NRel] at this
          subst this; rfl
      · exact hr.atom
    cases j with
    | none => rfl
    | some j =>
      simp only [toBoolx, Option.some.injEq, aNode]
      by_cases h1 : j = boolPtr true
      · rw [if_pos h1, (hb j true).2 h1]
      · rw [if_neg h1]
        by_cases h2 : j = boolPtr false
        · rw [if_pos h2, (hb j false).2 h2]
        · rw [if_neg h2]
          cases e : a[j]? with
          | none => rfl
          | some n =>
            cases n with
            | atom x =>
              cases x <;> first | rfl | skip
              rename_i b
              have := (hb j b).1 e
              cases b
              · exact absurd this h2
              · exact absurd this h1
            | arr _ => rfl
            | obj _ => rfl
  | str j =>
    rw [call, toStr, map_map, aCall]
    refine ask_sim hr j fun n m hn => ?_
    cases n <;> cases m <;> simp only [NRel] at hn
    · subst hn; rename_i x; cases x <;> rfl
    · rfl
    · rfl

theorem calls_sim (cs : List Call) : ∀ {c : Nat} {h : Heap} {a : AHeap}, c + cs.length < 2 ^ 31 → HRel c h a →
    Sim (fun r s => r.1 = s.1 ∧ HRel (c + cs.length) r.2 s.2) (calls h cs) (aCalls a cs) := by
  induction cs with
  | nil => intro c h a hc hr; exact ⟨rfl, hr⟩
  | cons op cs ih =>
    intro c h a hc hr
    simp only [List.length_cons] at hc
    rw [calls, aCalls]
    refine (call_sim (by omega) hr op).bind fun r s hs => ?_
    have := ih (c := c + 1) (by omega) hs.2
    refine this.map fun u v huv => ⟨by rw [hs.1, huv.1], ?_⟩
    have e : c + (op :: cs).length = c + 1 + cs.length := by simp only [List.length_cons]; omega
    rw [e]; exact huv.2

theorem statics_rel : HRel 0 statics aStatics := by
  refine ⟨rfl, ?_, ?_, by decide⟩
  · intro i n m h1 h2
    match i with
    | 0 => cases h1; cases h2; rfl
    | 1 => cases h1; cases h2; rfl
    | 2 => cases h1; cases h2; rfl
    | 3 => cases h1; cases h2; rfl
    | i + 4 => simp [statics] at h1
  · intro i b
    match i with
    | 0 => cases b <;> simp [statics, boolPtr]
    | 1 => cases b <;> simp [statics, boolPtr]
    | 2 => cases b <;> simp [statics, boolPtr]
    | 3 => cases b <;> simp [statics, boolPtr]
    | i + 4 => cases b <;> simp [statics, boolPtr]

/-- results without the heap -/
def results {α β : Type} (r : Res (α × β)) : Res α := r.map (·.1)

/-- **C94**: every program made of calls of the interface (making, setting, getting, removing, renaming,
appending and asking), however it shares or nests values, gives the results, or fails in the way, that plain
lists and association lists in memory give. -/
theorem C94_refines (cs : List Call) (hn : cs.length < 2 ^ 31) :
    results (calls statics cs) = results (aCalls aStatics cs) := by
  have := calls_sim cs (by simpa using hn) statics_rel
  unfold results
  cases e1 : calls statics cs <;> cases e2 : aCalls aStatics cs <;> rw [e1, e2] at this <;> simp only [Sim] at this
  · simp only [Res.map, this.1]
  · rfl
  · rfl

/-- a program that makes `{"a":true,"b":"x"}`, renames, nests, removes and asks: its results -/
example : results (calls statics [.mk .object, .setNew (some 4) [97] (.bool true), .setNew (some 4) [98] (.str [120]),
      .get (some 4) [97], .bool (some 0), .rename (some 4) [97] [99], .get (some 4) [97], .mk (.array 2),
      .append (some 6) (some 4), .set (some 4) [98] (some 6), .get (some 4) [98], .remove (some 4) [99], .empty (some 4),
      .at (some 6) 0, .length (some 6)]) = .ok [.ptr (some 4), .unit, .unit, .ptr (some 0), .bool (some true), .flag true,
      .ptr none, .ptr (some 6), .unit, .unit, .ptr (some 6), .unit, .flag false, .ptr (some 4), .num 1] := by
  rw [C94_refines _ (by decide)]
  rfl

/-- a program that asks an array for a key crashes -/
example : results (calls statics [.mk (.array 0), .get (some 4) [97]]) = .segv := by
  rw [C94_refines _ (by decide)]
  rfl

theorem calls_rel {cs : List Call} (hn : cs.length < 2 ^ 31) {rs : List Ret} {h : Heap} (hc : calls statics cs = .ok (rs, h)) :
    ∃ a, HRel cs.length h a := by
  have := calls_sim cs (by simpa using hn) statics_rel
  rw [hc] at this
  cases e2 : aCalls aStatics cs <;> rw [e2] at this <;> simp only [Sim] at this
  exact ⟨_, by simpa using this.2⟩

theorem lookup_put (k k' : List Byte) (v : Nat) (l : List (List Byte × Nat)) :
    (put k v l).lookup k' = if k' = k then some v else l.lookup k' := by
  induction l with
  | nil =>
    rw [put, List.lookup_cons]
    by_cases h : k' = k
    · subst h; simp
    · simp [beq_eq_false_iff_ne.2 h, h]
  | cons e l ih =>
    obtain ⟨k1, v1⟩ := e
    rw [put]
    split
    · next h1 =>
      subst h1
      rw [List.lookup_cons, List.lookup_cons]
      by_cases h : k' = k1
      · subst h; simp
      · simp [beq_eq_false_iff_ne.2 h, h]
    · next h1 =>
      rw [List.lookup_cons, List.lookup_cons, ih]
      by_cases h : k' = k1
      · subst h; simp [h1]
      · simp [beq_eq_false_iff_ne.2 h]

theorem oGet_spec {c : Nat} {h : Heap} {a : AHeap} (hr : HRel c h a) (j : Nat) (k : List Byte) :
    oGet h (some j) k = match a[j]? with
      | none => .ub
      | some (.obj kvs) => .ok (kvs.lookup k)
      | some _ => .segv := by
  simp only [oGet, node, Option.getD_some, objGet]
  cases e : h[j]? with
  | none => rw [hr.none.1 e]; rfl
  | some n =>
    cases n with
    | atom x => rw [hr.atom e]; rfl
    | arr x => rw [hr.arr e]; rfl
    | obj m =>
      obtain ⟨kvs, e', r, hp, hl⟩ := hr.obj e
      rw [e']
      show Res.ok (Map.find strcmp m (some k)) = _
      rw [Map.find_spec strcmp_ord r, lookup_up]

/-- **C94**: after any program, setting a key of an object changes what `cee_json_object_get` gives for this
key of this object, to the value, and nothing else. -/
theorem C94_set_get (cs : List Call) (hn : cs.length < 2 ^ 31) (rs : List Ret) (h h' : Heap)
    (hc : calls statics cs = .ok (rs, h)) (j v : Nat) (k : List Byte) (hs : oSet h (some j) k (some v) = .ok h')
    (j' : Nat) (k' : List Byte) :
    oGet h' (some j') k' = if j' = j ∧ k' = k then .ok (some v) else oGet h (some j') k' := by
  obtain ⟨a, hr⟩ := calls_rel hn hc
  have sim := call_sim (by exact hn) hr (.set (some j) k (some v))
  rw [call, hs, aCall, onObj] at sim
  cases e : a[j]? with
  | none => rw [e] at sim; exact absurd sim (by simp [Res.map, Sim])
  | some n =>
    rw [e] at sim
    cases n with
    | atom x => exact absurd sim (by simp [Res.map, Sim])
    | arr x => exact absurd sim (by simp [Res.map, Sim])
    | obj kvs =>
      simp only [aNode] at sim
      cases ev : a[v]? with
      | none => rw [ev] at sim; exact absurd sim (by simp [Res.map, Sim])
      | some y =>
        rw [ev] at sim
        have hr' : HRel (cs.length + 1) h' (a.set j (.obj (put k v kvs))) := sim.2
        have hj : j < a.length := (List.getElem?_eq_some_iff.1 e).1
        rw [oGet_spec hr', oGet_spec hr]
        by_cases hjj : j' = j
        · subst hjj
          rw [List.getElem?_set_self hj, e]
          dsimp only
          rw [lookup_put]
          by_cases hk : k' = k
          · simp [hk]
          · simp [hk]
        · rw [List.getElem?_set_ne (Ne.symm hjj), if_neg (fun h => hjj h.1)]

/-- such a program, with a value that is set -/
example : ∃ rs h h', calls statics [.mk .object, .setNew (some 4) [97] .null] = .ok (rs, h) ∧
    oSet h (some 4) [98] (some 0) = .ok h' := by
  refine ⟨_, _, _, rfl, rfl⟩

/-- **C95**: `cee_json_to_boolx`, which looks at the address only, gives the boolean for exactly the values of
boolean type, after any program. -/
theorem C95_bool (cs : List Call) (hn : cs.length < 2 ^ 31) (rs : List Ret) (h : Heap)
    (hc : calls statics cs = .ok (rs, h)) (p : Nat) (b : Bool) :
    toBoolx (some p) = some b ↔ h[p]? = some (.atom (.bool b)) := by
  obtain ⟨a, hr⟩ := calls_rel hn hc
  rw [hr.bools]
  cases b <;> simp only [toBoolx, Option.some.injEq]
  · constructor
    · intro h1
      split at h1
      · cases h1
      · split at h1
        · next h2 => exact h2
        · cases h1
    · rintro rfl; decide
  · constructor
    · intro h1
      split at h1
      · next h2 => exact h2
      · split at h1 <;> cases h1
    · rintro rfl; decide

example : ∃ rs h, calls statics [.mk (.array 0), .appendNew (some 4) (.bool true)] = .ok (rs, h) ∧
    h[4]? = some (.arr [0]) := ⟨_, _, rfl, rfl⟩

end Verif.Json.BuildProps
