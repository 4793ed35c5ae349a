import Verif.Map.Props

/-!
# Environments (env.c) (C44)

An environment is given by the chain of the `vars` of it and its outer environments, innermost first; `none` is
`vars == NULL`.  The chain is finite, as `outer` is only set when an environment is made.
-/

namespace Verif.Env

variable {K V : Type}

/-- `cee_env_find` (env.c:70-78) -/
def find (cmp : K → K → Int) : List (Option (Map.Map K V)) → Option K → Option V
  | [], _ => none
  | none :: _, _ => none
  | some vars :: outer, key =>
    match Map.find cmp vars key with
    | some ret => some ret
    | none => find cmp outer key

end Verif.Env

namespace Verif.Env.Props

open Map.Spec (IsOrd SMap Op)
open Map.Props (execAll)

variable {K V : Type} [DecidableEq V]

/-- the maps a program can have with their abstract values -/
def Reach (cmp : K → K → Int) (m : Map.Map K V) (A : SMap K V) : Prop :=
  ∃ kpol vpol ops outs, ops.length < 2 ^ 31 ∧ (∀ op ∈ ops, Op.legal vpol op) ∧
    execAll cmp (Map.mkE kpol vpol) ops = .ok (outs, m) ∧ A = (Map.Spec.run cmp [] ops).2

theorem Reach.rel {cmp : K → K → Int} (ho : IsOrd cmp) {m : Map.Map K V} {A : SMap K V} (h : Reach cmp m A) :
    Map.Rel cmp m A := by
  obtain ⟨kpol, vpol, ops, outs, hn, hl, e, rfl⟩ := h
  obtain ⟨m', e', -, -, r, -⟩ := Map.Props.execAll_spec ho ops (Map.Rel_mk cmp kpol vpol) (by simpa using hn) hl
  rw [e] at e'
  simp only [Res.ok.injEq, Prod.mk.injEq] at e'
  rw [e'.2]; exact r

/-- the maps that histories of operations lead to -/
theorem reach_of {cmp : K → K → Int} (ho : IsOrd cmp) (kpol vpol : Policy) (ops : List (Op K V))
    (hn : ops.length < 2 ^ 31) (hl : ∀ op ∈ ops, Op.legal vpol op) :
    ∃ m, Reach cmp m (Map.Spec.run cmp [] ops).2 := by
  obtain ⟨m, e⟩ := Map.Props.C01_map_refines ho kpol vpol ops hn hl
  exact ⟨m, kpol, vpol, ops, _, hn, hl, e, rfl⟩

/-- **C44 is false**: an environment without map hides all outer ones, whatever they bind. -/
theorem C44_novars_false (cmp : K → K → Int) (key : Option K) (outer : List (Option (Map.Map K V))) :
    find cmp (none :: outer) key = none := rfl

/-- **C44 is false**: a binding to NULL does not hide the outer one. -/
theorem C44_null_false {cmp : K → K → Int} (ho : IsOrd cmp) {m : Map.Map K V} {A : SMap K V} (h : Reach cmp m A)
    (k : K) (hb : (k, none) ∈ A) (outer : List (Option (Map.Map K V))) :
    find cmp (some m :: outer) (some k) = find cmp outer (some k) := by
  rw [find, Map.find_spec ho (h.rel ho), Map.Spec.lookup,
    Map.find_unique ho ((h.rel ho).uniq ho) hb (ho.refl k)]

/-- the part that holds: when every environment has a map, the value found is that of the innermost environment
that binds the key to something, and NULL is returned when none does -/
theorem C44_partial {cmp : K → K → Int} (ho : IsOrd cmp) (envs : List (Map.Map K V × SMap K V))
    (h : ∀ e ∈ envs, Reach cmp e.1 e.2) (k : K) (v : V) :
    (find cmp (envs.map fun e => some e.1) (some k) = some v ↔
      ∃ pre m A post k', envs = pre ++ (m, A) :: post ∧ (k', some v) ∈ A ∧ cmp k k' = 0 ∧
        ∀ e ∈ pre, ∀ x ∈ e.2, cmp k x.1 = 0 → x.2 = none) ∧
    (find cmp (envs.map fun e => some e.1) (some k) = none ↔
      ∀ e ∈ envs, ∀ x ∈ e.2, cmp k x.1 = 0 → x.2 = none) := by
  have look : ∀ (m : Map.Map K V) A, Reach cmp m A → ∀ w, Map.find cmp m (some k) = some w ↔ ∃ k', (k', some w) ∈ A ∧ cmp k k' = 0 := by
    intro m A hr w
    rw [Map.find_spec ho (hr.rel ho), Map.Spec.lookup]
    constructor
    · intro hw
      split at hw
      · rename_i e he
        have h1 := List.mem_of_find?_eq_some he
        have h2 := List.find?_some he
        obtain ⟨a, b⟩ := e
        simp only at hw; subst hw
        exact ⟨a, h1, by simpa using h2⟩
      · simp at hw
    · rintro ⟨k', hm, hk⟩
      rw [Map.find_unique ho ((hr.rel ho).uniq ho) hm hk]
  have lookN : ∀ (m : Map.Map K V) A, Reach cmp m A → (Map.find cmp m (some k) = none ↔ ∀ x ∈ A, cmp k x.1 = 0 → x.2 = none) := by
    intro m A hr
    constructor
    · intro hn x hx hk
      cases e : x.2 with
      | none => rfl
      | some w =>
        have := (look m A hr w).2 ⟨x.1, by rw [← e]; exact hx, hk⟩
        rw [hn] at this; simp at this
    · intro hall
      cases e : Map.find cmp m (some k) with
      | none => rfl
      | some w =>
        obtain ⟨k', hm, hk⟩ := (look m A hr w).1 e
        have := hall _ hm hk
        simp at this
  induction envs with
  | nil => simp [find]
  | cons e envs ih =>
    obtain ⟨m, A⟩ := e
    have hr := h (m, A) (by simp)
    have ih := ih (fun e he => h e (by simp [he]))
    rw [List.map_cons, find]
    cases hf : Map.find cmp m (some k) with
    | some w =>
      obtain ⟨k', hm, hk⟩ := (look m A hr w).1 hf
      refine ⟨?_, ?_⟩
      · constructor
        · intro hw
          simp only [Option.some.injEq] at hw; subst hw
          exact ⟨[], m, A, envs, k', rfl, hm, hk, by simp⟩
        · rintro ⟨pre, m1, A1, post, k1, he, hm1, hk1, hpre⟩
          cases pre with
          | nil =>
            simp only [List.nil_append, List.cons.injEq, Prod.mk.injEq] at he
            obtain ⟨⟨rfl, rfl⟩, rfl⟩ := he
            have := (look m A hr v).2 ⟨k1, hm1, hk1⟩
            rw [hf] at this; exact this
          | cons p pre =>
            simp only [List.cons_append, List.cons.injEq] at he
            obtain ⟨rfl, -⟩ := he
            have := hpre (m, A) (by simp) _ hm hk
            simp at this
      · simp only [reduceCtorEq, false_iff]
        intro hall
        have := hall (m, A) (by simp) _ hm hk
        simp at this
    | none =>
      have hn := (lookN m A hr).1 hf
      simp only
      refine ⟨?_, ?_⟩
      · rw [ih.1]
        constructor
        · rintro ⟨pre, m1, A1, post, k1, he, hm1, hk1, hpre⟩
          refine ⟨(m, A) :: pre, m1, A1, post, k1, by rw [he]; rfl, hm1, hk1, ?_⟩
          intro e he
          rcases List.mem_cons.1 he with rfl | he
          · exact hn
          · exact hpre e he
        · rintro ⟨pre, m1, A1, post, k1, he, hm1, hk1, hpre⟩
          cases pre with
          | nil =>
            simp only [List.nil_append, List.cons.injEq, Prod.mk.injEq] at he
            obtain ⟨⟨rfl, rfl⟩, rfl⟩ := he
            have := (look m A hr v).2 ⟨k1, hm1, hk1⟩
            rw [hf] at this; simp at this
          | cons p pre =>
            simp only [List.cons_append, List.cons.injEq] at he
            exact ⟨pre, m1, A1, post, k1, he.2, hm1, hk1, fun e he => hpre e (by simp [he])⟩
      · rw [ih.2]; simp only [List.forall_mem_cons]; exact ⟨fun h => ⟨hn, h⟩, fun h => h.2⟩

/-- two environments: the inner one binds 3, the outer one 3 and 8; 3 is found inside, 8 outside, 9 nowhere -/
example : ∃ m1 m2 : Map.Map Nat Nat, Reach Map.Props.natCmp m1 [(3, some 30)] ∧
    Reach Map.Props.natCmp m2 [(3, some 31), (8, some 80)] ∧
    find Map.Props.natCmp [some m1, some m2] (some 3) = some 30 ∧
    find Map.Props.natCmp [some m1, some m2] (some 8) = some 80 ∧
    find Map.Props.natCmp [some m1, some m2] (some 9) = none := by
  obtain ⟨m1, h1⟩ := reach_of Map.Props.natCmp_ord .rc .rc [.add (some 3) (some 30)] (by decide)
    (by simp [Op.legal])
  obtain ⟨m2, h2⟩ := reach_of Map.Props.natCmp_ord .rc .rc [.add (some 3) (some 31), .add (some 8) (some 80)]
    (by decide) (by simp [Op.legal])
  have e1 : (Map.Spec.run Map.Props.natCmp [] [.add (some 3) (some 30)]).2 = [(3, some 30)] := by decide
  have e2 : (Map.Spec.run Map.Props.natCmp [] [.add (some 3) (some 31), .add (some 8) (some 80)]).2 =
    [(3, some 31), (8, some 80)] := by decide
  rw [e1] at h1; rw [e2] at h2
  have hall : ∀ e ∈ [(m1, [(3, some 30)]), (m2, [(3, some 31), (8, some 80)])], Reach Map.Props.natCmp e.1 e.2 := by
    intro e he
    simp only [List.mem_cons, List.not_mem_nil, or_false] at he
    rcases he with rfl | rfl
    · exact h1
    · exact h2
  refine ⟨m1, m2, h1, h2, ?_, ?_, ?_⟩
  · exact ((C44_partial Map.Props.natCmp_ord _ hall 3 30).1).2 ⟨[], m1, _, _, 3, rfl, by simp, by decide, by simp⟩
  · refine ((C44_partial Map.Props.natCmp_ord _ hall 8 80).1).2
      ⟨[(m1, [(3, some 30)])], m2, _, [], 8, rfl, by simp, by decide, ?_⟩
    simp [Map.Props.natCmp]
  · refine ((C44_partial Map.Props.natCmp_ord _ hall 9 0).2).2 ?_
    simp [Map.Props.natCmp]
    omega

/-- a map that binds 3 to NULL -/
example : ∃ m : Map.Map Nat Nat, Reach Map.Props.natCmp m [(3, none)] := by
  obtain ⟨m, h⟩ := reach_of Map.Props.natCmp_ord .noop .noop [.add (some 3) (none : Option Nat)] (by decide)
    (by simp [Op.legal])
  have e : (Map.Spec.run Map.Props.natCmp [] [.add (some 3) (none : Option Nat)]).2 = [(3, none)] := by decide
  rw [e] at h; exact ⟨m, h⟩

end Verif.Env.Props
