import Verif.Sqlite.Join
import Verif.Sqlite.GenericProps

/-!
# Properties of joins

C90: joining objects with a table.
-/

namespace Verif.Sqlite.Props

open Verif Verif.Sqlite
open Verif.Json (Val insertKey)
open Verif.Dbm (str)

variable {S : Type}

/-- the object has a fitting value for every row that is marked -/
def Ready (infos : List Info) (ds : List Data) (e : List (List Byte × Val)) : Prop :=
  ∀ (i : Nat) info d, infos[i]? = some info → ds[i]? = some d → d.hasValue = true →
    d.isNull = false ∧ ∃ v, e.lookup info.col = some v ∧
      ((info.type = .int ∧ ∃ n : Int, v = .atom (.i64 n) ∧ -2 ^ 31 ≤ n ∧ n < 2 ^ 31) ∨
       (info.type = .text ∧ d.size = 0 ∧ ∃ s, v = .atom (.str s) ∧ 0 ∉ s))

/-- the value of a marked row -/
def withValue (d : Data) : Option Val → Data
  | some (.atom (.i64 n)) => { d with i := n }
  | some (.atom (.str s)) => { d with value := some (s ++ [0]) }
  | _ => d

/-- the data for an object: the values of the marked rows are those of the object -/
def dataFor : List Info → List Data → List (List Byte × Val) → List Data
  | info :: infos, d :: ds, e => (if d.hasValue then withValue d (e.lookup info.col) else d) :: dataFor infos ds e
  | _, ds, _ => ds

theorem dataFor_length (infos : List Info) (ds : List Data) (e : List (List Byte × Val)) :
    (dataFor infos ds e).length = ds.length := by
  induction infos generalizing ds with
  | nil => rfl
  | cons info infos ih => cases ds with
    | nil => rfl
    | cons d ds => simp [dataFor, ih]

theorem dataFor_get (infos : List Info) (ds : List Data) (e : List (List Byte × Val)) (i : Nat) {info : Info} {d : Data}
    (h1 : infos[i]? = some info) (h2 : ds[i]? = some d) :
    (dataFor infos ds e)[i]? = some (if d.hasValue then withValue d (e.lookup info.col) else d) := by
  induction infos generalizing ds i with
  | nil => simp at h1
  | cons a infos ih =>
    cases ds with
    | nil => simp at h2
    | cons b ds =>
      cases i with
      | zero =>
        simp only [List.getElem?_cons_zero, Option.some.injEq] at h1 h2
        subst h1 h2
        rfl
      | succ i => simpa [dataFor] using ih ds i (by simpa using h1) (by simpa using h2)

theorem withValue_flags (d : Data) (v : Option Val) : (withValue d v).hasValue = d.hasValue ∧
    (withValue d v).isNull = d.isNull ∧ (withValue d v).size = d.size := by
  unfold withValue
  split <;> exact ⟨rfl, rfl, rfl⟩

theorem ready_cons {info : Info} {infos : List Info} {d : Data} {ds : List Data} {e : List (List Byte × Val)}
    (h : Ready (info :: infos) (d :: ds) e) : Ready infos ds e :=
  fun i x y hx hy => h (i + 1) x y (by simpa using hx) (by simpa using hy)

theorem ready_dataFor {infos : List Info} {ds : List Data} {e1 e2 : List (List Byte × Val)} (h : Ready infos ds e2) :
    Ready infos (dataFor infos ds e1) e2 := by
  intro i info d hi hd hv
  have hlt : i < ds.length := by
    have := (List.getElem?_eq_some_iff.mp hd).1
    rwa [dataFor_length] at this
  have hd0 : ds[i]? = some ds[i] := List.getElem?_eq_getElem hlt
  rw [dataFor_get infos ds e1 i hi hd0, Option.some.injEq] at hd
  have hflags := withValue_flags ds[i] (e1.lookup info.col)
  have hh : ds[i].hasValue = true := by
    rw [← hd] at hv
    split at hv
    · rw [hflags.1] at hv; exact hv
    · exact hv
  rw [if_pos hh] at hd
  obtain ⟨h1, v, h2, h3⟩ := h i info ds[i] hi hd0 hh
  rw [← hd, hflags.2.1, hflags.2.2]
  exact ⟨h1, v, h2, h3⟩

/-- an object before leaves no trace in the data -/
theorem dataFor_twice {infos : List Info} {ds : List Data} {e1 e2 : List (List Byte × Val)} (h1 : Ready infos ds e1)
    (h2 : Ready infos ds e2) : dataFor infos (dataFor infos ds e1) e2 = dataFor infos ds e2 := by
  induction infos generalizing ds with
  | nil => rfl
  | cons info infos ih =>
    cases ds with
    | nil => rfl
    | cons d ds =>
      simp only [dataFor]
      rw [ih (ready_cons h1) (ready_cons h2)]
      congr 1
      by_cases hd : d.hasValue = true
      · rw [if_pos hd, (withValue_flags d _).1, if_pos hd, if_pos hd]
        obtain ⟨-, v, hv, h3⟩ := h1 0 info d rfl rfl hd
        obtain ⟨-, w, hw, h4⟩ := h2 0 info d rfl rfl hd
        rw [hv, hw]
        rcases h3 with ⟨t, n, rfl, -⟩ | ⟨t, -, s, rfl, -⟩ <;> rcases h4 with ⟨t', m, rfl, -⟩ | ⟨t', -, s', rfl, -⟩
        · rfl
        · rw [t] at t'; cases t'
        · rw [t] at t'; cases t'
        · rfl
      · rw [if_neg hd, if_neg hd]

theorem joinBind_ready (e : List (List Byte × Val)) (infos : List Info) (hown : ∀ info ∈ infos, info.data.hasValue = false)
    (pre ds : List Data) (hl : ds.length = infos.length) (h : Ready infos ds e) :
    joinBind e pre.length infos (some (pre ++ ds)) = .ok (none, infos, some (pre ++ dataFor infos ds e)) := by
  induction infos generalizing pre ds with
  | nil =>
    have : ds = [] := List.eq_nil_of_length_eq_zero hl
    subst this
    rfl
  | cons info infos ih =>
    cases ds with
    | nil => simp at hl
    | cons d ds =>
      have hget : (pre ++ d :: ds)[pre.length]? = some d := by simp
      have hset : ∀ d', (pre ++ d :: ds).set pre.length d' = (pre ++ [d']) ++ ds := by intro d'; simp
      have hnext : ∀ d', joinBind e (pre.length + 1) infos (some ((pre ++ [d']) ++ ds)) =
          .ok (none, infos, some ((pre ++ [d']) ++ dataFor infos ds e)) := by
        intro d'
        have := ih (fun x hx => hown x (by simp [hx])) (pre ++ [d']) ds (by simpa using hl) (ready_cons h)
        simpa using this
      rw [joinBind]
      by_cases hd : d.hasValue = true
      · obtain ⟨-, v, hv, hfit⟩ := h 0 info d rfl rfl hd
        have hval : valueFor e info d = .ok (withValue d (some v)) := by
          unfold valueFor
          rw [hv]
          rcases hfit with ⟨-, n, rfl, h1, h2⟩ | ⟨-, -, s, rfl, -⟩
          · simp only [setItem, withValue]
            rw [toIntx_id h1 h2]
          · rfl
        have hn := hnext (withValue d (some v))
        rw [← hset] at hn
        simp only [itemOf, hget, hd, if_true, Res.bind, hval, Option.map_some, hn, Res.map, dataFor, hv]
        simp
      · have ho := hown info (by simp)
        have hrw : pre ++ d :: ds = (pre ++ [d]) ++ ds := by simp
        simp only [itemOf, hget, hd, Bool.false_eq_true, if_false, ho, Res.bind]
        rw [hrw, hnext]
        simp [Res.map, dataFor, hd]

/-- the selections for one object after the other, each with the data for it -/
inductive Runs (c : Ctx S) (sql : List Byte) (infos : List Info) (ds : List Data) (fuel : Nat) :
    S → List (List (List Byte × Val)) → List (List Val) → S → Prop where
  | nil (s : S) : Runs c sql infos ds fuel s [] [] s
  | cons {s s1 s2 s3 : S} {e : List (List Byte × Val)} {es : List (List (List Byte × Val))} {vs : List (List Val)}
      {binds : List (Nat × Bound)} {r : Step} {rows : List (List Col)}
      (h1 : start { c with infos := some infos, data := some (dataFor infos ds e) } s (some sql) = .ok (.stepped binds s1 r))
      (h2 : Yields c.eng sql binds 1 s1 r rows s2) (hf : rows.length < fuel)
      (rest : Runs c sql infos ds fuel s2 es vs s3) :
      Runs c sql infos ds fuel s (e :: es) (rows.map (valueOf (some infos) (c.eng.names s sql)) :: vs) s3

/-- what becomes of an object: with a key the rows are put there; without one the first row is merged into it -/
def JoinedWith (key : Option (List Byte)) (a : List (List Byte × Val)) (vs : List Val) (b : List (List Byte × Val)) : Prop :=
  match key, vs with
  | some k, vs => Updated a k (.arr vs) b
  | none, [] => b = a
  | none, v :: _ => ∃ o, v = .obj o ∧ ∀ k, b.lookup k = (o.lookup k).or (a.lookup k)

/-- the rows that are merged into objects are objects, and there is no `error` anywhere -/
def Mergeable (key : Option (List Byte)) (es : List (List (List Byte × Val))) (vs : List (List Val)) : Prop :=
  key = none → (∀ e ∈ es, e.lookup kError = none) ∧ ∀ l ∈ vs, ∀ v, l.head? = some v → ∃ o, v = .obj o ∧ o.lookup kError = none

theorem joinOne_runs (c : Ctx S) (fuel : Nat) {s s1 s2 : S} {sql : List Byte} {key : Option (List Byte)}
    {infos : List Info} {ds d0 : List Data} {e : List (List Byte × Val)} {binds : List (Nat × Bound)} {r : Step}
    {rows : List (List Col)} (hown : ∀ info ∈ infos, info.data.hasValue = false) (hl : ds.length = infos.length)
    (hr : Ready infos ds e) (hd : d0 = ds ∨ ∃ e0, Ready infos ds e0 ∧ d0 = dataFor infos ds e0)
    (h1 : start { c with infos := some infos, data := some (dataFor infos ds e) } s (some sql) = .ok (.stepped binds s1 r))
    (h2 : Yields c.eng sql binds 1 s1 r rows s2) (hf : rows.length < fuel)
    (hm : Mergeable key [e] [rows.map (valueOf (some infos) (c.eng.names s sql))]) :
    ∃ b, joinOne c fuel s sql key infos (some d0) (.obj e) =
        .ok (some { s := s2, infos := infos, data := some (dataFor infos ds e), elem := .obj b, stop := false }) ∧
      JoinedWith key e (rows.map (valueOf (some infos) (c.eng.names s sql))) b := by
  have hb : joinBind e 0 infos (some d0) = .ok (none, infos, some (dataFor infos ds e)) := by
    rcases hd with rfl | ⟨e0, h0, rfl⟩
    · exact joinBind_ready e infos hown [] d0 hl hr
    · have := joinBind_ready e infos hown [] (dataFor infos ds e0) (by rw [dataFor_length, hl]) (ready_dataFor hr)
      rw [dataFor_twice h0 hr] at this
      exact this
  unfold joinOne
  simp only [hb, Res.bind]
  cases key with
  | some k =>
    have h := C83_partial { c with infos := some infos, data := some (dataFor infos ds e) } (status := some none) trivial h1 h2 fuel hf
    refine ⟨_, ?_, updated_insertKey _ _ _⟩
    simp [joinSelect, h, Res.bind, withRows, errorOf, Res.map]
  | none =>
    obtain ⟨g1, g2, g3⟩ := C84_rows { c with infos := some infos, data := some (dataFor infos ds e) } h1 h2 fuel hf
    obtain ⟨m1, m2⟩ := hm rfl
    cases rows with
    | nil =>
      refine ⟨e, ?_, rfl⟩
      simp [joinSelect, g1 rfl, Res.map, errorOf, m1 e (by simp)]
    | cons cols rest =>
      obtain ⟨o, ho, ho'⟩ := m2 _ (List.mem_singleton.mpr rfl) _ rfl
      obtain ⟨kvs, hk, hlk⟩ := g3 cols rest e o rfl ho
      refine ⟨kvs, ?_, o, ho, hlk⟩
      have : kvs.lookup kError = none := by rw [hlk, ho', m1 e (by simp)]; rfl
      simp [joinSelect, hk, Res.map, errorOf, this]

/-- C90: every object of an array is joined with the rows that are selected with its own values, in order; nothing else
in the objects changes -/
theorem C90_array (c : Ctx S) (fuel : Nat) {s s' : S} {sql : List Byte} {key : Option (List Byte)} {infos : List Info}
    {ds : List Data} {es : List (List (List Byte × Val))} {vs : List (List Val)}
    (hown : ∀ info ∈ infos, info.data.hasValue = false) (hl : ds.length = infos.length) (hr : ∀ e ∈ es, Ready infos ds e)
    (hrun : Runs c sql infos ds fuel s es vs s') (hm : Mergeable key es vs) :
    ∃ (ds' : List Data) (bs : List (List (List Byte × Val))), joinArray c fuel sql key s infos (some ds) (.arr (es.map .obj)) =
        .ok (some (s', infos, some ds', .arr (bs.map .obj))) ∧ bs.length = es.length ∧
      ∀ (i : Nat) a b l, es[i]? = some a → bs[i]? = some b → vs[i]? = some l → JoinedWith key a l b := by
  suffices h : ∀ d0, (d0 = ds ∨ ∃ e0, Ready infos ds e0 ∧ d0 = dataFor infos ds e0) →
      ∃ (ds' : List Data) (bs : List (List (List Byte × Val))), joinAll c fuel sql key s infos (some d0) (es.map .obj) = .ok (some (s', infos, some ds', bs.map .obj)) ∧
        bs.length = es.length ∧
        ∀ (i : Nat) a b l, es[i]? = some a → bs[i]? = some b → vs[i]? = some l → JoinedWith key a l b by
    obtain ⟨ds', bs, h1, h2⟩ := h ds (.inl rfl)
    exact ⟨ds', bs, by simp [joinArray, h1, Res.map], h2⟩
  induction hrun with
  | nil s => exact fun d0 _ => ⟨d0, [], rfl, rfl, by simp⟩
  | @cons s s1 s2 s3 e es vs binds r rows h1 h2 hf rest ih =>
    intro d0 hd
    have hre := hr e (by simp)
    obtain ⟨b, hb, hj⟩ := joinOne_runs c fuel (key := key) hown hl hre hd h1 h2 hf (by
      intro hk
      obtain ⟨m1, m2⟩ := hm hk
      exact ⟨fun x hx => m1 x (by simp at hx; simp [hx]), fun l hl => m2 l (by simp at hl; simp [hl])⟩)
    obtain ⟨ds', bs, g1, g2, g3⟩ := ih (fun x hx => hr x (by simp [hx])) (by
      intro hk
      obtain ⟨m1, m2⟩ := hm hk
      exact ⟨fun x hx => m1 x (by simp [hx]), fun l hl => m2 l (by simp [hl])⟩) (dataFor infos ds e) (.inr ⟨e, hre, rfl⟩)
    refine ⟨ds', b :: bs, ?_, by simp [g2], ?_⟩
    · simp only [List.map_cons, joinAll, hb, Res.bind, Bool.false_eq_true, if_false, g1, Res.map, Option.map_some]
    · intro i x y l hx hy hl
      cases i with
      | zero =>
        simp only [List.getElem?_cons_zero, Option.some.injEq] at hx hy hl
        subst hx hy hl
        exact hj
      | succ i => exact g3 i x y l (by simpa using hx) (by simpa using hy) (by simpa using hl)

/-- C90: an object by itself is joined with the rows that are selected with its values -/
theorem C90_object (c : Ctx S) (fuel : Nat) {s s1 s2 : S} {sql : List Byte} {key : Option (List Byte)}
    {infos : List Info} {ds : List Data} {e : List (List Byte × Val)} {binds : List (Nat × Bound)} {r : Step}
    {rows : List (List Col)} (hown : ∀ info ∈ infos, info.data.hasValue = false) (hl : ds.length = infos.length)
    (hr : Ready infos ds e)
    (h1 : start { c with infos := some infos, data := some (dataFor infos ds e) } s (some sql) = .ok (.stepped binds s1 r))
    (h2 : Yields c.eng sql binds 1 s1 r rows s2) (hf : rows.length < fuel)
    (hm : Mergeable key [e] [rows.map (valueOf (some infos) (c.eng.names s sql))]) :
    ∃ (ds' : List Data) (b : List (List Byte × Val)),
      joinObject c fuel sql key s infos (some ds) (.obj e) = .ok (some (s2, infos, some ds', .obj b)) ∧
      JoinedWith key e (rows.map (valueOf (some infos) (c.eng.names s sql))) b := by
  obtain ⟨b, h, hj⟩ := joinOne_runs c fuel hown hl hr (.inl rfl) h1 h2 hf hm
  exact ⟨_, b, by rw [joinObject, h]; rfl, hj⟩

/-- C90: a table may be joined to an object by itself or to the array of this object: the database, the data and the
object are the same afterwards, whether the selection succeeds, fails or crashes -/
theorem C90_object_array (c : Ctx S) (fuel : Nat) (sql : List Byte) (key : Option (List Byte)) (s : S) (infos : List Info)
    (data : Option (List Data)) (v : Val) :
    joinArray c fuel sql key s infos data (.arr [v]) =
      (joinObject c fuel sql key s infos data v).map fun o => o.map fun q => (q.1, q.2.1, q.2.2.1, .arr [q.2.2.2]) := by
  simp only [joinArray, joinObject, joinAll]
  cases joinOne c fuel s sql key infos data v with
  | ok o => cases o with
    | none => rfl
    | some r => cases h : r.stop <;> simp [Res.bind, Res.map, h]
  | ub => rfl
  | segv => rfl

/-- C90: the parameter of a marked row is bound, once, to the value of the object under the name of the column -/
theorem C90_bound (c : Ctx S) {s s1 : S} {sql : List Byte} {infos : List Info} {ds : List Data}
    {e : List (List Byte × Val)} {binds : List (Nat × Bound)} {r : Step} {params : List (Option (List Byte))}
    (hl : ds.length = infos.length) (hr : Ready infos ds e) (hp : c.eng.prep s sql = .ok params) (ho : OneIndex params)
    (hv : OneVar infos)
    (h1 : start { c with infos := some infos, data := some (dataFor infos ds e) } s (some sql) = .ok (.stepped binds s1 r))
    {i k : Nat} {info : Info} {d : Data} (hi : infos[i]? = some info) (hd : ds[i]? = some d) (hm : d.hasValue = true)
    (hk : params[k]? = some (some info.var)) :
    ∃ v, e.lookup info.col = some v ∧
      (binds.filter fun p => p.1 = k + 1).map (fun p => cellOf p.2) = [jsonCell v] := by
  obtain ⟨hnull, v, hlook, hfit⟩ := hr i info d hi hd hm
  refine ⟨v, hlook, ?_⟩
  simp only [start, hp] at h1
  obtain ⟨⟨es, rc⟩, hrun, h1⟩ := (Res.map_eq_ok).mp h1
  have hb : binds = bindsOf es := by
    dsimp only at h1
    split at h1
    · cases h1
    · cases h1; rfl
  subst hb
  have hlen : ∀ dd, some (dataFor infos ds e) = some dd → infos.length ≤ dd.length := by
    rintro dd ⟨⟩
    rw [dataFor_length]; omega
  have hg := dataFor_get infos ds e i hi hd
  rw [if_pos hm, hlook] at hg
  have hf := withValue_flags d (some v)
  have hw : ∀ cell, jsonCell v = some cell →
      Wants (StartsWith kwInsert sql) (ext (some (dataFor infos ds e)) i) info (some cell) := by
    intro cell hc
    refine .caller (d := withValue d (some v)) hg (by rw [hf.1]; exact hm) ?_
    unfold Means
    rw [hf.2.1, hnull]
    simp only [Bool.false_eq_true, false_and, if_false]
    rcases hfit with ⟨ht, n, rfl, -⟩ | ⟨ht, hs, t, rfl, ht0⟩
    · rw [ht]
      simp only [jsonCell, Option.some.injEq] at hc
      exact hc.symm
    · rw [ht]
      simp only [jsonCell, Option.some.injEq] at hc
      exact .inl ⟨t, [], rfl, ht0, by rw [hf.2.2]; exact hs, hc.symm⟩
  have hcell : ∃ cell, jsonCell v = some cell := by
    rcases hfit with ⟨-, n, rfl, -⟩ | ⟨-, -, t, rfl, -⟩
    · exact ⟨_, rfl⟩
    · exact ⟨_, rfl⟩
  obtain ⟨cell, hc⟩ := hcell
  have := C47_partial ho hlen hrun hk hi (fun m x hx hxv => hv m i x info hx hi hxv) (hw cell hc)
  rw [calls_binds, List.map_map] at this
  rw [hc]
  exact this

/-- C90, false: a column of type INT64 never gets the value of the object -/
theorem C90_int64_false (e : List (List Byte × Val)) (info : Info) (d d' : Data) (ht : info.type = .int64)
    (h : valueFor e info d = .ok d') : bindData info d' = bindData info d := by
  unfold valueFor at h
  split at h
  · cases h
  · unfold setItem at h
    split at h <;> cases h <;> simp [bindData, ht]

/-- C90, false: a marked row that is NULL stays NULL, whatever the object has -/
theorem C90_null_false (e : List (List Byte × Val)) (info : Info) (d d' : Data) (hn : d.isNull = true)
    (hc : info.notNull = false) (h : valueFor e info d = .ok d') : bindData info d' = .ok .null := by
  unfold valueFor at h
  split at h
  · cases h
  · unfold setItem at h
    split at h <;> cases h <;> simp [bindData, hn, hc]

/-- C90, false: text is read with the size of the text before -/
theorem C90_size_false (e : List (List Byte × Val)) (info : Info) (d : Data) (t : List Byte) (ht : info.type = .text)
    (hn : d.isNull = false) (hs : 0 < d.size) (h : e.lookup info.col = some (.atom (.str t))) :
    ∃ d', valueFor e info d = .ok d' ∧ ∃ b, bindData info d' = .ok b ∧
      cellOf b = if d.size ≤ t.length + 1 then some (.text ((t ++ [0]).take d.size)) else none := by
  refine ⟨{ d with value := some (t ++ [0]) }, by simp [valueFor, h, setItem], .text (some (t ++ [0])) (some d.size), ?_, ?_⟩
  · simp [bindData, hn, ht, Nat.pos_iff_ne_zero.mp hs]
  · simp [cellOf]

/-- C90, false: an object without the key of a marked row ends the join; the objects behind it stay as they are -/
theorem C90_missing_false (c : Ctx S) (fuel : Nat) (s : S) (sql : List Byte) (key : Option (List Byte)) {info : Info}
    {infos : List Info} {d : Data} {ds : List Data} (hd : d.hasValue = true) {e : List (List Byte × Val)}
    (he : e.lookup info.col = none) (es : List Val) :
    ∃ msg, joinArray c fuel sql key s (info :: infos) (some (d :: ds)) (.arr (.obj e :: es)) =
      .ok (some (s, info :: infos, some (d :: ds), .arr (.obj (insertKey kError (.atom (.str msg)) e) :: es))) := by
  refine ⟨str "cannot find json key " ++ info.col ++ str " for " ++ info.var, ?_⟩
  simp [joinArray, joinAll, joinOne, joinBind, itemOf, hd, valueFor, he, Res.bind, Res.map]

/-- C90, false: if the selection fails the error is put under the key, and the objects behind stay as they are -/
theorem C90_failed_false (c : Ctx S) (fuel : Nat) {s s1 : S} {sql key msg : List Byte} {code : Nat} {left : Bool}
    {infos : List Info} {ds : List Data} {e : List (List Byte × Val)} (hown : ∀ info ∈ infos, info.data.hasValue = false)
    (hl : ds.length = infos.length) (hr : Ready infos ds e)
    (h : Failure { c with infos := some infos, data := some (dataFor infos ds e) } s sql s1 code msg left)
    (hc : code ≠ sqliteDone) (es : List Val) :
    joinArray c fuel sql (some key) s infos (some ds) (.arr (.obj e :: es)) =
      .ok (some (s1, infos, some (dataFor infos ds e),
        .arr (.obj (insertKey key (.obj [(kError, .atom (.str msg))]) e) :: es))) := by
  have hb := joinBind_ready e infos hown [] ds hl hr
  have hs := (C83_failed _ fuel h hc).1
  simp only [List.length_nil, List.nil_append] at hb
  simp [joinArray, joinAll, joinOne, hb, joinSelect, hs, Res.bind, Res.map, errorOf, List.lookup]

/-- an engine that gives the number bound to `@a` in a column `b` -/
def echo : Engine Nat where
  prep _ _ := .ok [some [64, 97]]
  names _ _ := [[98]]
  step s _ binds k := (s + 1, match k, binds with
    | 0, (1, .int n) :: _ => .row [.int n]
    | _, _ => .done)
  rowid _ := 7
  changes _ := 1
  totalChanges _ := 1
  errmsg _ := [101]

/-- `{"a":5}` and `{"a":6}` -/
example : ∃ (ds' : List Data) (bs : List (List (List Byte × Val))),
    joinArray { eng := echo, name := [110], infos := none, data := none } 2 [115] (some [107]) 0 [rowA .int]
        (some [{ hasValue := true }]) (.arr ([[([97], .atom (.i64 5))], [([97], .atom (.i64 6))]].map .obj)) =
        .ok (some (4, [rowA .int], some ds', .arr (bs.map .obj))) ∧ bs.length = 2 ∧
      ∀ (i : Nat) a b l, ([[([97], .atom (.i64 5))], [([97], .atom (.i64 6))]] : List (List (List Byte × Val)))[i]? = some a →
        bs[i]? = some b →
        ([[.obj [([98], .atom (.i64 5))]], [.obj [([98], .atom (.i64 6))]]] : List (List Val))[i]? = some l →
        JoinedWith (some [107]) a l b :=
  C90_array { eng := echo, name := [110], infos := none, data := none } 2 (by simp [rowA]) rfl (by
    intro e he i info d hi hd _
    have h0 : i = 0 := by
      have := (List.getElem?_eq_some_iff.mp hi).1
      simp at this
      omega
    subst h0
    cases hi
    cases hd
    simp only [List.mem_cons, List.not_mem_nil, or_false] at he
    rcases he with rfl | rfl
    · exact ⟨rfl, _, rfl, .inl ⟨rfl, 5, rfl, by decide, by decide⟩⟩
    · exact ⟨rfl, _, rfl, .inl ⟨rfl, 6, rfl, by decide, by decide⟩⟩)
    (.cons (s1 := 1) (s2 := 2) (binds := [(1, .int 5)]) (r := .row [.int 5]) (rows := [[.int 5]]) rfl
      (.row (s' := 2) (r := .done) rfl (.done _ _)) (by decide)
      (.cons (s1 := 3) (s2 := 4) (binds := [(1, .int 6)]) (r := .row [.int 6]) (rows := [[.int 6]]) rfl
        (.row (s' := 4) (r := .done) rfl (.done _ _)) (by decide) (.nil 4)))
    (by intro h; cases h)

/-- `{"a":5}` by itself -/
example : ∃ (ds' : List Data) (b : List (List Byte × Val)),
    joinObject { eng := echo, name := [110], infos := none, data := none } 2 [115] (some [107]) 0 [rowA .int]
        (some [{ hasValue := true }]) (.obj [([97], .atom (.i64 5))]) = .ok (some (2, [rowA .int], some ds', .obj b)) ∧
      JoinedWith (some [107]) [([97], .atom (.i64 5))] [.obj [([98], .atom (.i64 5))]] b :=
  C90_object { eng := echo, name := [110], infos := none, data := none } 2 (by simp [rowA]) rfl (by
    intro i info d hi hd _
    have h0 : i = 0 := by
      have := (List.getElem?_eq_some_iff.mp hi).1
      simp at this
      omega
    subst h0
    cases hi
    cases hd
    exact ⟨rfl, _, rfl, .inl ⟨rfl, 5, rfl, by decide, by decide⟩⟩)
    (s1 := 1) (s2 := 2) (binds := [(1, .int 5)]) (r := .row [.int 5]) (rows := [[.int 5]]) rfl
    (.row (s' := 2) (r := .done) rfl (.done _ _)) (by decide) (by intro h; cases h)

/-- `{}` has no `a` -/
example : ∃ msg, joinArray { eng := echo, name := [110], infos := none, data := none } 2 [115] (some [107]) 0 [rowA .int]
    (some [{ hasValue := true }]) (.arr [.obj [], .obj [([97], .atom (.i64 6))]]) =
    .ok (some (0, [rowA .int], some [{ hasValue := true }],
      .arr [.obj [(kError, .atom (.str msg))], .obj [([97], .atom (.i64 6))]])) :=
  C90_missing_false _ 2 0 [115] (some [107]) rfl rfl _

example : valueFor [([97], .atom (.i64 5))] (rowA .int64) { hasValue := true, i64 := 3 } =
    .ok { hasValue := true, i := 5, i64 := 3 } := by
  simp [valueFor, rowA, List.lookup, setItem, toIntx_id (n := 5) (by decide) (by decide)]

end Verif.Sqlite.Props
