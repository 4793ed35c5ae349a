import Verif.Rc.JsonRcProps
import Verif.Rc.Context

/-!
# `cee_json_object_append` in counted memory (C105)

A call of it does what a short program of the calls of `JOp` does, depending on what the key has.
-/

namespace Verif.Rc
open Verif.Chain (upd)

/-- `cee_json_object_get` (value.c:365-371); `k` is the C string given -/
def objectGet (eqv : Nat → Nat → Bool) (H : JHeap) (j k : Nat) : Res Ptr :=
  (toPart H j .object).bind fun m => mapFind eqv H.m m (some k)

/-- `cee_json_listify` (value.c:50-70); a new list and array are at `l` and `x`.  For an object, `cee_get_state` is called
with NULL. -/
def listify (H : JHeap) (j l x : Nat) : Res (JHeap × Nat) :=
  if H.m.h.live j then
    match H.tag j with
    | some .array => .ok (H, j)
    | some .object => .ub
    | some .string => (arrayMk H l x).bind fun H => (arrayAppend H x (some j)).map fun H => (H, x)
    | some _ => .segv
    | none => .ub
  else .ub

/-- value.c:421-424, 428-431: the elements of `v`, or `v` -/
def addTo (fuel : Nat) (H : JHeap) (a v : Nat) : Res (Option JHeap) :=
  if H.m.h.live v then
    if H.tag v = some .array then arrayConcat fuel H a v else (arrayAppend H a (some v)).map some
  else .ub

/-- `cee_json_object_append` (value.c:416-437) for `j` and `v` that are not NULL.  `ck` is the C string given, `k` the string
that `cee_json_object_set` makes of it; `n` bounds the loop of `cee_json_array_concat`. -/
def objectAppend (eqv : Nat → Nat → Bool) (fuel n : Nat) (H : JHeap) (j ck k v l x : Nat) : Res (Option JHeap) :=
  (objectGet eqv H j ck).bind fun old =>
  match old with
  | none => objectSet eqv fuel H j k (some v)
  | some old =>
    if H.m.h.live old then
      if H.tag old = some .array then addTo n H old v
      else
        (listify H old l x).bind fun (H, a) =>
        (addTo n H a v).bind fun r =>
        match r with
        | none => .ok none
        | some H => objectSet eqv fuel H j k (some a)
    else .ub

/-- `cee_json_object_kv` (value.c:300-305) -/
def objectKv (eqv : Nat → Nat → Bool) (fuel : Nat) (H : JHeap) (m j k v : Nat) : Res (Option JHeap) :=
  (objectMk H m j).bind fun H => objectSet eqv fuel H j k (some v)

/-! ## programs with these calls -/

namespace JsonProps
open Verif.Rc.Props Verif.Rc.MapProps

inductive JCall where
  | op (o : JOp)
  /-- `cee_json_object_append` -/
  | objAppend (j ck k v l x : Nat)
  /-- `cee_json_object_kv` -/
  | kv (m j k v : Nat)

/-- adding `v` to the array `a` -/
def addOps (X : JS) (a v : Nat) : List JOp := if X.kind v = .json .array then [.concat a v] else [.append a v]

/-- what a call does -/
def JCall.expand (eqv : Nat → Nat → Bool) (X : JS) : JCall → List JOp
  | .op o => [o]
  | .objAppend j ck k v l x =>
    match look eqv (X.x.maps (X.held j)) ck with
    | some (some old) =>
      if X.kind old = .json .array then addOps X old v
      else .array l x :: .append x old :: (addOps X x v ++ [.set j k x])
    | _ => [.set j k v]
  | .kv m j k v => [.object m j, .set j k v]

/-- What a program may do: the calls that a call stands for are legal (`JOk`).  The string made for a key has its text; a key
that is appended to has nothing, an array or a string. -/
def CallOk (sg : Nat → Bool) (eqv : Nat → Nat → Bool) (other : Nat → Bool) (X : JS) (c : JCall) : Prop :=
  JLegal sg eqv other X (c.expand eqv X) ∧
  match c with
  | .objAppend j ck k v _ _ => IsA X j .object ∧ (ck ∈ X.x.s.D ∨ other ck = true) ∧ eqv ck k = true ∧ v ∈ X.x.s.D ∧
    (∃ t, X.kind v = .json t) ∧
    ∀ old, look eqv (X.x.maps (X.held j)) ck = some (some old) → X.kind old = .json .array ∨ X.kind old = .json .string
  | _ => True

def CallsLegal (sg : Nat → Bool) (eqv : Nat → Nat → Bool) (other : Nat → Bool) (X : JS) : List JCall → Prop
  | [] => True
  | c :: cs => CallOk sg eqv other X c ∧ CallsLegal sg eqv other (jrun sg eqv X (c.expand eqv X)) cs

noncomputable def callRun (sg : Nat → Bool) (eqv : Nat → Nat → Bool) (X : JS) : List JCall → JS
  | [] => X
  | c :: cs => callRun sg eqv (jrun sg eqv X (c.expand eqv X)) cs

/-- execution on the model -/
def callExec (eqv : Nat → Nat → Bool) (fuel : Nat) (H : JHeap) : JCall → Res (Option JHeap)
  | .op o => jexec eqv fuel H o
  | .objAppend j ck k v l x => objectAppend eqv fuel (H.m.h.kids ((H.held v).getD 0)).length H j ck k v l x
  | .kv m j k v => objectKv eqv fuel H m j k v

def callExecAll (eqv : Nat → Nat → Bool) (fuel : Nat) (H : JHeap) : List JCall → Res (Option JHeap)
  | [] => .ok (some H)
  | c :: cs =>
    match callExec eqv fuel H c with
    | .ok (some H) => callExecAll eqv fuel H cs
    | .ok none => .ok none
    | .ub => .ub
    | .segv => .segv

section
variable {sg oth : Nat → Bool} {eqv : Nat → Nat → Bool} (E : Eqv eqv)

theorem jrun_append (X : JS) (a b : List JOp) : jrun sg eqv X (a ++ b) = jrun sg eqv (jrun sg eqv X a) b := by
  induction a generalizing X with
  | nil => rfl
  | cons o a ih => exact ih _

theorem jlegal_append {X : JS} {a b : List JOp} (h : JLegal sg eqv oth X (a ++ b)) :
    JLegal sg eqv oth X a ∧ JLegal sg eqv oth (jrun sg eqv X a) b := by
  induction a generalizing X with
  | nil => exact ⟨trivial, h⟩
  | cons o a ih =>
    obtain ⟨h1, h2⟩ := ih h.2
    exact ⟨⟨h.1, h1⟩, h2⟩

/-- the keys of a map, and the key that is searched, can be read -/
theorem JG.readsKey {X : JS} {C : JHeap} (J : JG sg eqv oth X C) {m k : Nat} (hm : m ∈ X.x.s.D) (hk : X.kind m = .map)
    (hkey : k ∈ X.x.s.D ∨ oth k = true) : Rc.readable C.m m k = true := by
  obtain ⟨A, G, S⟩ := J.mem
  obtain ⟨hM, -⟩ := J.map hm hk
  have wf := G.wf _ hm hM
  have hrd0 : Rc.readable A m m = true := readable_of (h := A.h) wf G.maps G.rel rfl hm hm
  rw [S.readable]
  simp only [Rc.readable, Bool.and_eq_true] at hrd0 ⊢
  refine ⟨⟨⟨hrd0.1.1.1, ?_⟩, hrd0.1.2⟩, hrd0.2⟩
  rcases hkey with h | h
  · simp [(G.rel.live k).2 h]
  · simp [← S.other, J.foreign, h]

theorem objectGet_ok {X : JS} {C : JHeap} (J : JG sg eqv oth X C) {j k : Nat} (hj : IsA X j .object)
    (hkey : k ∈ X.x.s.D ∨ oth k = true) :
    objectGet eqv C j k = .ok ((look eqv (X.x.maps (X.held j)) k).getD none) := by
  obtain ⟨h1, -, h2, h3, -⟩ := J.held hj rfl
  obtain ⟨A, G, M⟩ := J.mem
  rw [objectGet, h1, Res.bind_ok, mapFind]
  simp only [J.readsKey h2 h3 hkey, if_true, M.maps, G.maps]
  cases hf : findPair eqv k (X.x.maps (X.held j)).pairs with
  | none => rw [look, findPair_none.1 hf]; rfl
  | some r => rw [look, (findPair_some hf).2.2.2]; rfl

/-- adding to an array -/
theorem addTo_ok {X : JS} {C : JHeap} (J : JG sg eqv oth X C) {a v : Nat} (hv : v ∈ X.x.s.D) (fuel n : Nat)
    (hn : X.kind v = .json .array → n = (C.m.h.kids ((C.held v).getD 0)).length) :
    addTo n C a v = jexecAll eqv fuel C (addOps X a v) := by
  rw [addTo, if_pos ((J.live v).2 hv), J.tag v hv, addOps]
  have h1 : (X.kind v).tag = some .array ↔ X.kind v = .json .array := by
    cases X.kind v <;> simp [Kind.tag]
  by_cases h : X.kind v = .json .array
  · rw [if_pos (h1.2 h), if_pos h, hn h]
    simp only [jexecAll, jexec]
    cases arrayConcat (C.m.h.kids ((C.held v).getD 0)).length C a v with
    | ok r => cases r <;> rfl
    | ub => rfl
    | segv => rfl
  · rw [if_neg (fun g => h (h1.1 g)), if_neg h]
    simp only [jexecAll, jexec]
    cases arrayAppend C a (some v) <;> rfl

/-- what is in the map is in memory -/
theorem JG.member {X : JS} {C : JHeap} (J : JG sg eqv oth X C) {j k v : Nat} (hj : IsA X j .object)
    (h : look eqv (X.x.maps (X.held j)) k = some (some v)) : v ∈ X.x.s.D := by
  obtain ⟨-, -, h2, h3, -⟩ := J.held hj rfl
  obtain ⟨A, G, M⟩ := J.mem
  obtain ⟨hM, -⟩ := J.map h2 h3
  have sh := J.typed.shape _ h2
  rw [h3] at sh
  rw [look, Option.map_eq_some_iff] at h
  obtain ⟨p, hp, hv⟩ := h
  exact (Good.pair G h2 hM sh.1 sh.2.1 (List.mem_of_find?_eq_some hp)).2 v hv

include E in
theorem callExec_spec {X : JS} {C : JHeap} (J : JG sg eqv oth X C) (c : JCall) (ok : CallOk sg eqv oth X c) {fuel : Nat}
    (hf : X.x.s.D.length + 12 ≤ fuel) :
    ∃ C', callExec eqv fuel C c = .ok (some C') ∧ JG sg eqv oth (jrun sg eqv X (c.expand eqv X)) C' := by
  cases c with
  | op o => exact jexec_spec E J o ok.1.1 (by omega)
  | kv m j k v =>
    obtain ⟨C1, e1, J1⟩ := jexec_spec E J _ ok.1.1 (fuel := fuel) (by omega)
    have hl := jstep_length (sg := sg) E X (.object m j)
    obtain ⟨C2, e2, J2⟩ := jexec_spec E J1 _ ok.1.2.1 (fuel := fuel) (by omega)
    refine ⟨C2, ?_, J2⟩
    obtain ⟨C0, e1, e⟩ := map_ok.1 e1
    cases e
    rw [callExec, objectKv, e1, Res.bind_ok]
    exact e2
  | objAppend j ck k v l x =>
    obtain ⟨hleg, hj, hck, -, hv, ⟨t, ht⟩, hold⟩ := ok
    rw [callExec, objectAppend, objectGet_ok J hj hck, Res.bind_ok]
    cases hlk : look eqv (X.x.maps (X.held j)) ck with
    | none =>
      simp only [JCall.expand, hlk] at hleg ⊢
      obtain ⟨C1, e1, J1⟩ := jexec_spec E J _ hleg.1 (fuel := fuel) (by omega)
      exact ⟨C1, e1, J1⟩
    | some o =>
      cases o with
      | none =>
        simp only [JCall.expand, hlk] at hleg ⊢
        obtain ⟨C1, e1, J1⟩ := jexec_spec E J _ hleg.1 (fuel := fuel) (by omega)
        exact ⟨C1, e1, J1⟩
      | some old =>
        have hoD := J.member hj hlk
        simp only [JCall.expand, hlk, Option.getD_some] at hleg ⊢
        rw [if_pos ((J.live old).2 hoD), J.tag old hoD]
        rcases hold old hlk with hk | hk
        · simp only [hk, if_true] at hleg
          rw [if_pos hk]
          rw [if_pos (by rw [hk]; rfl), addTo_ok J hv fuel _ fun _ => rfl]
          have : (addOps X old v).length ≤ 1 := by unfold addOps; split <;> simp
          exact jexecAll_spec E _ J hleg (by omega)
        · rw [if_neg (show ¬ X.kind old = .json .array by rw [hk]; simp)] at hleg ⊢
          rw [if_neg (show ¬ (X.kind old).tag = some .array by rw [hk]; simp [Kind.tag])]
          obtain ⟨g1, g2, g3⟩ := hleg
          obtain ⟨C1, e1, J1⟩ := jexec_spec E J _ g1 (fuel := fuel) (by omega)
          have hl1 := jstep_length (sg := sg) E X (.array l x)
          obtain ⟨C2, e2, J2⟩ := jexec_spec E J1 _ g2 (fuel := fuel) (by omega)
          have hl2 := jstep_length (sg := sg) E (jstep sg eqv X (.array l x)) (.append x old)
          obtain ⟨g3, g4⟩ := jlegal_append g3
          have hlen : (addOps X x v).length = 1 := by unfold addOps; split <;> rfl
          obtain ⟨C3, e3, J3⟩ := jexecAll_spec E _ J2 g3 (fuel := fuel) (by omega)
          have hl3 : (jrun sg eqv (jstep sg eqv (jstep sg eqv X (.array l x)) (.append x old)) (addOps X x v)).x.s.D.length ≤
              (jstep sg eqv (jstep sg eqv X (.array l x)) (.append x old)).x.s.D.length + 3 := by
            unfold addOps
            split <;> exact jstep_length (sg := sg) E _ _
          obtain ⟨C4, e4, J4⟩ := jexec_spec E J3 _ g4.1 (fuel := fuel) (by omega)
          have hx : v ≠ x := fun e => g1.2.1 (e ▸ hv)
          have hvl : v ≠ l := fun e => g1.1 (e ▸ hv)
          have hkv : (jstep sg eqv (jstep sg eqv X (.array l x)) (.append x old)).kind v = X.kind v := by
            simp [jstep, stepM, stepTag, stepNew, upd, hx, hvl]
          have hD : v ∈ (jstep sg eqv (jstep sg eqv X (.array l x)) (.append x old)).x.s.D := by
            simp [jstep, stepM, stepTag, stepNew, mstep, specStep, mkBlock, addEdge, addEdges, hv]
          refine ⟨C4, ?_, ?_⟩
          · obtain ⟨C0, e1, e⟩ := map_ok.1 e1
            cases e
            obtain ⟨C0, e2, e⟩ := map_ok.1 e2
            cases e
            rw [listify, if_pos ((J.live old).2 hoD), J.tag old hoD, hk]
            simp only [Kind.tag, e1, Res.bind_ok, e2, Res.map_ok']
            rw [addTo_ok J2 hD fuel]
            · rw [show addOps _ x v = addOps X x v by simp only [addOps, hkv], e3]
              exact e4
            · intro hka
              rw [hkv] at hka
              obtain ⟨-, q1, q2, -, -⟩ := J.held ⟨hv, hka⟩ rfl
              have hne : X.held v ≠ l ∧ X.held v ≠ x := ⟨fun e => g1.1 (e ▸ q2), fun e => g1.2.1 (e ▸ q2)⟩
              obtain ⟨-, q3, -, -, -⟩ := J2.held ⟨hD, hkv.trans hka⟩ rfl
              have hh : (jstep sg eqv (jstep sg eqv X (.array l x)) (.append x old)).held v = X.held v := by
                simp [JS.held, jstep, stepM, stepTag, stepNew, mstep, specStep, mkBlock, addEdge, addEdges, upd, hx, hvl]
              rw [q1, q3, hh, J.kids, J2.kids, Option.getD_some]
              obtain ⟨n1, n2⟩ := hne
              generalize X.held v = p at n1 n2 ⊢
              simp [JS.held, jstep, stepM, stepTag, stepNew, mstep, specStep, mkBlock, addEdge, addEdges, upd, n1, n2]
          · simp only [jrun]
            rw [jrun_append]
            exact J4

theorem expand_length (X : JS) (c : JCall) : (c.expand eqv X).length ≤ 4 := by
  have h : ∀ a v, (addOps X a v).length = 1 := by
    intro a v
    unfold addOps
    split <;> rfl
  unfold JCall.expand
  split
  · simp
  · split
    · split
      · rw [h]; omega
      · simp [h]
    · simp
  · simp

include E in
theorem jrun_length (ops : List JOp) : ∀ X : JS, (jrun sg eqv X ops).x.s.D.length ≤ X.x.s.D.length + 3 * ops.length := by
  induction ops with
  | nil => intro X; simp [jrun]
  | cons o ops ih =>
    intro X
    have h1 := ih (jstep sg eqv X o)
    have h2 := jstep_length (sg := sg) E X o
    rw [jrun, List.length_cons]
    omega

include E in
theorem callExecAll_spec (cs : List JCall) : ∀ {X : JS} {C : JHeap}, JG sg eqv oth X C →
    CallsLegal sg eqv oth X cs → ∀ {fuel : Nat}, X.x.s.D.length + 12 * cs.length ≤ fuel →
    ∃ C', callExecAll eqv fuel C cs = .ok (some C') ∧ JG sg eqv oth (callRun sg eqv X cs) C' := by
  induction cs with
  | nil => intro X C J _ fuel _; exact ⟨C, rfl, J⟩
  | cons c cs ih =>
    intro X C J hl fuel hf
    simp only [List.length_cons] at hf
    obtain ⟨C1, e1, J1⟩ := callExec_spec E J c hl.1 (fuel := fuel) (by omega)
    have h1 := jrun_length (sg := sg) E (c.expand eqv X) X
    have h2 := expand_length (eqv := eqv) X c
    obtain ⟨C2, e2, J2⟩ := ih J1 hl.2 (fuel := fuel) (by omega)
    exact ⟨C2, by rw [callExecAll, e1]; exact e2, J2⟩

end

/-- **C105** for programs that also call `cee_json_object_append` and `cee_json_object_kv`: they run without undefined
behaviour, exactly the blocks of the specification are in memory at the end, with the right counts.  Appending to a key
that has a string makes an array of the string and the value; the string is not lost. -/
theorem C105_calls {eqv : Nat → Nat → Bool} (E : Eqv eqv) {S : List Nat} (hS : S.Nodup) {ty : Nat → Tag}
    (hty : ∀ s ∈ S, part (ty s) = none) (oth : Nat → Bool) (cs : List JCall)
    (hl : CallsLegal (fun x => S.contains x) eqv oth (specJ S ty) cs) {fuel : Nat} (hf : S.length + 12 * cs.length ≤ fuel) :
    ∃ C, callExecAll eqv fuel (startJ S ty oth) cs = .ok (some C) ∧
      (∀ x, C.m.h.live x = true ↔ x ∈ (callRun (fun x => S.contains x) eqv (specJ S ty) cs).x.s.D) ∧
      (∀ x, C.m.h.live x = true → x ∉ S → C.m.h.ret x = false ∧ C.m.h.deg x =
        refs C.m.h.kids (callRun (fun x => S.contains x) eqv (specJ S ty) cs).x.s.D .rc x +
          (callRun (fun x => S.contains x) eqv (specJ S ty) cs).x.s.ext x) ∧
      C.m.h.kids = (callRun (fun x => S.contains x) eqv (specJ S ty) cs).x.s.kids ∧
      C.m.maps = (callRun (fun x => S.contains x) eqv (specJ S ty) cs).x.maps ∧
      (∀ x, C.m.h.live x = true → C.tag x = ((callRun (fun x => S.contains x) eqv (specJ S ty) cs).kind x).tag) ∧
      ∀ s ∈ S, C.m.h.live s = true := by
  obtain ⟨C, e, J⟩ := callExecAll_spec E cs (start_good eqv hS hty oth) hl hf
  obtain ⟨A, G, M⟩ := J.mem
  refine ⟨C, e, J.live, fun x hx hxS => ?_, J.kids, by rw [M.maps, G.maps], fun x hx => J.tag x ((J.live x).1 hx),
    fun s hs => (J.live s).2 (J.staticIn (by simpa using hs))⟩
  have hx' := (J.live x).1 hx
  have hns : S.contains x = false := by simpa using hxS
  rw [M.h.ret x hns, M.h.deg x hns, J.kids]
  refine ⟨?_, G.rel.deg x hx'⟩
  have := G.rel.own x hx'
  rw [J.typed.own G x] at this
  cases h : A.h.ret x with
  | false => rfl
  | true => rw [h] at this; simp at this

/-- the claim is false if the key has an object: NULL is asked for its state -/
theorem C105_append_object_false {sg oth : Nat → Bool} {eqv : Nat → Nat → Bool} {X : JS} {C : JHeap}
    (J : JG sg eqv oth X C) {j ck k v l x old : Nat} (hj : IsA X j .object) (hck : ck ∈ X.x.s.D ∨ oth ck = true)
    (h : look eqv (X.x.maps (X.held j)) ck = some (some old)) (fuel n : Nat) :
    (X.kind old = .json .object → objectAppend eqv fuel n C j ck k v l x = .ub) ∧
    (∀ t, X.kind old = .json t → t ≠ .object → t ≠ .array → t ≠ .string →
      objectAppend eqv fuel n C j ck k v l x = .segv) := by
  have hoD := J.member hj h
  rw [objectAppend, objectGet_ok J hj hck, Res.bind_ok, h]
  simp only [Option.getD_some, (J.live old).2 hoD, if_true, J.tag old hoD, listify]
  refine ⟨fun hk => ?_, fun t hk h1 h2 h3 => ?_⟩
  · simp [hk, Kind.tag, Res.bind]
  · cases t <;> simp_all [Kind.tag, Res.bind]

/-- `{"1": "..."}` made by `cee_json_object_kv`; `true` is appended to the key -/
def demoC : List JCall := [.op (.scalar 30 31 .string), .kv 10 11 1 31, .objAppend 11 1001 101 901 40 41]

/-- a key without value, then a second value for it -/
def demoD : List JCall := [.op (.object 10 11), .op (.array 20 21), .objAppend 11 1002 2 21 40 41,
  .objAppend 11 1002 2 901 40 41]

/-- the string and `true` are in the array; the string has one reference as before -/
example : ∃ C, callExecAll eq2 20 (startJ [900, 901] ty2 oth2) demoC = .ok (some C) ∧
    (C.m.maps 10).pairs = [(1, some 41)] ∧ C.m.h.kids 40 = [(.rc, some 31), (.rc, some 901)] ∧ C.m.h.deg 31 = 1 ∧
    C.m.h.deg 41 = 1 ∧ C.m.h.live 101 = false :=
  ⟨_, rfl, by decide, by decide, by decide, by decide, by decide⟩

/-- the hypotheses of `C105_calls` are met -/
example : CallsLegal (fun x => [900, 901].contains x) eq2 oth2 (specJ [900, 901] ty2) demoC := by
  simp [demoC, CallsLegal, CallOk, JCall.expand, addOps, jrun, JLegal, JOk, jstep, stepNew, stepTag, stepMap, stepM, mstep, specStep,
    mkBlock, addEdge, addEdges, IsA, OkVal, Few, JS.held, specJ, ty2, oth2, part, upd, look, SM.put, stepAdd, MapC.flat,
    eq2, Spec.rc, refs]

example : CallsLegal (fun x => [900, 901].contains x) eq2 oth2 (specJ [900, 901] ty2) demoD := by
  simp [demoD, CallsLegal, CallOk, JCall.expand, addOps, jrun, JLegal, JOk, jstep, stepNew, stepTag, stepMap, stepM, mstep, specStep,
    mkBlock, addEdge, addEdges, IsA, OkVal, Few, JS.held, specJ, ty2, oth2, part, upd, look, SM.put, stepAdd, MapC.flat,
    eq2, Spec.rc, refs]

/-- a key that has an object -/
example : ∃ X C, JG (fun x => [900, 901].contains x) eq2 oth2 X C ∧ IsA X 11 .object ∧
    look eq2 (X.x.maps (X.held 11)) 1001 = some (some 21) ∧ X.kind 21 = .json .object := by
  obtain ⟨C, -, J⟩ := jexecAll_spec eq2_eqv [.object 10 11, .object 20 21, .set 11 1 21]
    (start_good eq2 (S := [900, 901]) (ty := ty2) (by decide) (by decide) oth2) (by
      simp [JLegal, JOk, jstep, stepNew, stepTag, stepMap, stepM, mstep, specStep, mkBlock, addEdge, addEdges, IsA, OkVal, Few,
        JS.held, specJ, ty2, upd, look, SM.put, MapC.flat, eq2, Spec.rc, refs]) (fuel := 14)
    (by simp [specJ])
  refine ⟨_, C, J, ?_, ?_, ?_⟩ <;>
  simp [IsA, jrun, jstep, stepNew, stepTag, stepMap, stepM, mstep, specStep, mkBlock, addEdge, addEdges,
    JS.held, specJ, upd, look, stepAdd, SM.put, MapC.flat, eq2]

end JsonProps

end Verif.Rc
