import Verif.Sqlite.UpdateProps

/-!
# What an operation with a JSON object reports about itself

C87: the object `debug` of the status.
-/

namespace Verif.Sqlite.Props

open Verif Verif.Sqlite
open Verif.Json (Val insertKey mergeVal mergeable mergeF lookup_insertKey)
open Verif.Dbm (str)

variable {S : Type}

/-- an array of strings -/
def strs (l : List (List Byte)) : Val := .arr (l.map fun s => .atom (.str s))

/-- what the report says -/
structure Report (infos : List Info) (kvs : List (List Byte × Val)) (stmts : Stmts) (d : List (List Byte × Val)) : Prop where
  /-- the keys with a column, but not those with null for a column that must not be null -/
  used : d.lookup (str "used_keys") = some (strs ((kvs.filter fun kv => ∃ info ∈ infos, info.col = kv.1 ∧
    ¬ (kv.2 = .atom .null ∧ info.notNull = true)).map Prod.fst))
  /-- the keys without a column, if there are any -/
  unused : ∀ l, (kvs.map Prod.fst).filter (fun k => ¬ ∃ info ∈ infos, info.col = k) = l →
    d.lookup (str "unused_keys") = if l = [] then none else some (strs l)
  /-- the text of the update; `(null)` if nothing can be changed -/
  update : d.lookup (str "update") = stmts.template.map fun t =>
    .atom (.str (if changed infos kvs = [] then str "(null)" else fill (setSql (changed infos kvs)) t))
  /-- the text of the insertion -/
  insert : d.lookup (str "insert") = if stmts.insertDynamic = true then some (.atom (.str (insertSql stmts.table (present infos kvs)))) else none
  /-- nothing else -/
  keys : ∀ k, (d.lookup k).isSome = true → k ∈ [str "used_keys", str "unused_keys", str "update", str "insert"]

theorem generic_report {c : Ctx S} {infos : List Info} {ds : List Data} {kvs : List (List Byte × Val)}
    (R : Prepared c infos ds kvs) (stmts : Stmts) (s : S) (f : Ctx S → S → Stmts → Status → Res (Option (S × Nat × Status)))
    {q : S × Nat × Status} {o : List (List Byte × Val)} (h : generic c s kvs stmts (some none) f = .ok (some q))
    (hq : q.2.2 = some (some (.obj o))) : ∃ d, o.lookup (str "debug") = some (.obj d) ∧ Report infos kvs stmts d := by
  obtain ⟨u, h1, h2, h3, -⟩ := ready_run R
  obtain ⟨u', hu, -, -, hun, hus, -⟩ := C75_partial (hasErr := true) R.oneRow kvs { data := ds } R.len R.keys R.fits
    (fun i info d _ hd _ => R.clean d (List.mem_of_getElem? hd))
  have huu : u = u' := by
    simp only [genericData, R.hinfos, R.hdata, Option.getD_some, hu, Res.map, Res.ok.injEq, Prod.mk.injEq] at h1
    exact h1.2.symm
  subst huu
  have hst : genericStmts stmts (if stmts.template.isSome = true then some (setSql (changed infos kvs)) else none,
      if stmts.insertDynamic = true then
        some (commas ((present infos kvs).map Info.col), commas ((present infos kvs).map Info.var)) else none) =
      readyStmts infos kvs stmts := by
    unfold genericStmts readyStmts
    congr 1
    · cases hi : stmts.insertDynamic <;> simp [insertSql]
    · cases stmts.template with
      | none => rfl
      | some t =>
        simp only [Option.isSome_some, if_true, setSql_zero]
  unfold generic at h
  rw [h1] at h
  simp only [Res.bind] at h
  rw [show ({ c with data := some u.data } : Ctx S).infos = some infos from R.hinfos, Option.getD_some, h3] at h
  simp only [Res.bind] at h
  rw [hst, show acceptResult (some none) = some (some (.obj [])) from rfl] at h
  simp only [genericEnd, h2, if_true] at h
  split at h
  case h_2 => cases h
  case h_3 => cases h
  rename_i r _
  match r, h with
  | none, h => cases h
  | some (s', rc, st), h =>
    match st, h with
    | none, h => 
      simp only [setKey, Res.bind, Res.map, Res.ok.injEq, Option.some.injEq] at h
      subst h; cases hq
    | some none, h =>
      simp only [setKey, Res.bind, Res.map, Res.ok.injEq, Option.some.injEq] at h
      subst h; cases hq
    | some (some (.atom a)), h => simp only [setKey, Res.bind, Res.map] at h; cases h
    | some (some (.arr a)), h => simp only [setKey, Res.bind, Res.map] at h; cases h
    | some (some (.obj k0)), h =>
      simp only [setKey, Res.bind, Res.map, Res.ok.injEq, Option.some.injEq] at h
      subst h
      simp only [Option.some.injEq, Val.obj.injEq] at hq
      subst hq
      refine ⟨_, by rw [lookup_insertKey, if_pos rfl]; rfl, ?_⟩
      simp only at hun hus
      rw [List.nil_append] at hun hus
      have a1 : (str "used_keys" == str "update") = false := by decide
      have a2 : (str "used_keys" == str "insert") = false := by decide
      have a3 : (str "unused_keys" == str "update") = false := by decide
      have a4 : (str "unused_keys" == str "insert") = false := by decide
      have a5 : (str "unused_keys" == str "used_keys") = false := by decide
      have a6 : (str "update" == str "insert") = false := by decide
      have a7 : (str "update" == str "used_keys") = false := by decide
      have a8 : (str "update" == str "unused_keys") = false := by decide
      have a9 : (str "insert" == str "update") = false := by decide
      have a10 : (str "insert" == str "used_keys") = false := by decide
      have a11 : (str "insert" == str "unused_keys") = false := by decide
      rw [hus, hun]
      generalize hl : (kvs.map Prod.fst).filter (fun k => ¬ ∃ info ∈ infos, info.col = k) = l
      refine ⟨?_, ?_, ?_, ?_, ?_⟩
      · cases ht : stmts.template <;> cases hi : stmts.insertDynamic <;> simp [readyStmts, List.lookup_cons, ht, hi, a1, a2, strs, namesVal]
      · rintro l' hl'
        obtain rfl := hl.symm.trans hl'
        clear hl hl' hun
        cases l <;> cases ht : stmts.template <;> cases hi : stmts.insertDynamic <;>
          simp [readyStmts, List.lookup_cons, ht, hi, a3, a4, a5, strs, namesVal]
      · cases l <;> cases ht : stmts.template <;> cases hi : stmts.insertDynamic <;>
          by_cases hc : changed infos kvs = [] <;> simp [readyStmts, List.lookup_cons, ht, hi, a6, a7, a8, hc]
      · cases l <;> cases ht : stmts.template <;> cases hi : stmts.insertDynamic <;>
          simp [readyStmts, List.lookup_cons, ht, hi, a9, a10, a11]
      · intro k hk
        by_contra hn
        simp only [List.mem_cons, List.not_mem_nil, or_false, not_or] at hn
        obtain ⟨n1, n2, n3, n4⟩ := hn
        have b1 := beq_eq_false_iff_ne.mpr n1
        have b2 := beq_eq_false_iff_ne.mpr n2
        have b3 := beq_eq_false_iff_ne.mpr n3
        have b4 := beq_eq_false_iff_ne.mpr n4
        cases l <;> cases ht : stmts.template <;> cases hi : stmts.insertDynamic <;>
          simp [readyStmts, List.lookup_cons, ht, hi, b1, b2, b3, b4] at hk

/-- **C87: what an operation reports about itself.**  Whatever the database does, the status of an operation with a fitting object names under `debug` the
keys that were used, the keys without a column (only if there are any), and the texts of the statements that were made from the object. -/
theorem C87_report {c : Ctx S} {infos : List Info} {ds : List Data} {kvs : List (List Byte × Val)}
    (R : Prepared c infos ds kvs) (stmts : Stmts) (s : S) {q : S × Nat × Status} {o : List (List Byte × Val)}
    (h : updateOp c s kvs stmts (some none) = .ok (some q) ∨ updateIfExistsOp c s kvs stmts (some none) = .ok (some q) ∨
      updateOrInsertOp c s kvs stmts (some none) = .ok (some q) ∨ insertOp c s kvs stmts (some none) = .ok (some q))
    (hq : q.2.2 = some (some (.obj o))) : ∃ d, o.lookup (str "debug") = some (.obj d) ∧ Report infos kvs stmts d := by
  rcases h with h | h | h | h
  · exact generic_report R stmts s _ h hq
  · exact generic_report R stmts s _ h hq
  · exact generic_report R stmts s _ h hq
  · unfold insertOp at h
    generalize hg : generic c s kvs stmts (some none) _ = g at h
    match g, h, hg with
    | .ok none, h, _ => cases h
    | .ok (some (s', rc, none)), h, _ => cases h
    | .ok (some (s', rc, some none)), h, _ =>
      simp only [Res.bind, Res.ok.injEq, Option.some.injEq] at h
      subst h; cases hq
    | .ok (some (s', rc, some (some (.atom a)))), h, _ =>
      simp only [Res.bind, Res.ok.injEq, Option.some.injEq] at h
      subst h; cases hq
    | .ok (some (s', rc, some (some (.arr a)))), h, _ =>
      simp only [Res.bind, Res.ok.injEq, Option.some.injEq] at h
      subst h; cases hq
    | .ok (some (s', rc, some (some (.obj k)))), h, hg =>
      obtain ⟨d, h1, h2⟩ := generic_report R stmts s _ hg rfl
      refine ⟨d, ?_, h2⟩
      simp only [Res.bind, Res.ok.injEq, Option.some.injEq] at h
      subst h
      simp only [Option.some.injEq, Val.obj.injEq] at hq
      subst hq
      have hflt : ∀ k : List (List Byte × Val), (k.filter fun e => e.1 != kRowid).lookup (str "debug") = k.lookup (str "debug") := by
        intro k
        induction k with
        | nil => rfl
        | cons e k ih =>
          obtain ⟨e1, e2⟩ := e
          rw [List.filter_cons]
          by_cases he : e1 = kRowid
          · subst he
            have : (str "debug" == kRowid) = false := by decide
            simp [List.lookup_cons, this, ih]
          · simp only [bne_iff_ne, ne_eq, he, not_false_iff, if_true, List.lookup_cons, ih]
      unfold renameKey
      split
      · exact h1
      · rw [lookup_insertKey, if_neg (by decide), hflt]; exact h1

/-- both ways of update-or-insert end with a report -/
example (row : Bool) : ∃ q o, updateOrInsertOp (ctxAB row) 0 [([98], .atom (.str [120])), ([97], .atom (.i64 5))]
      { table := [116], select := some [115], template := some (str "update t set %s"), insertDynamic := true } (some none) = .ok (some q) ∧
    q.2.2 = some (some (.obj o)) ∧ ∃ d, o.lookup (str "debug") = some (.obj d) ∧
      d.lookup (str "update") = some (.atom (.str (str "update t set a=@a,b=@b"))) := by
  have hr := ready_ab row (.atom (.str [120])) (.inr ⟨[120], rfl, by decide⟩)
  cases row
  · refine ⟨_, _, rfl, rfl, ?_⟩
    obtain ⟨d, h1, h2⟩ := C87_report hr { table := [116], select := some [115], template := some (str "update t set %s"), insertDynamic := true } 0
      (.inr (.inr (.inl rfl))) rfl
    exact ⟨d, h1, by rw [h2.update]; rfl⟩
  · refine ⟨_, _, rfl, rfl, ?_⟩
    obtain ⟨d, h1, h2⟩ := C87_report hr { table := [116], select := some [115], template := some (str "update t set %s"), insertDynamic := true } 0
      (.inr (.inr (.inl rfl))) rfl
    exact ⟨d, h1, by rw [h2.update]; rfl⟩

end Verif.Sqlite.Props
