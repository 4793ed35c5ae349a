import Verif.Rc.ParseEnd
import Verif.Rc.ParseDemo

/-!
# C106: parsing a document, what it leaves in memory, and deleting it (cee-json/parser.c)
-/

namespace Verif.Rc.ParseProps
open Verif.Chain (upd)
open Verif.Json (Byte Tok Atom PState PFrame PSt Val insertKey PInv ChainOk pstep popFrame pstep_inv prun pinit Yields listNext
  Syn toksL toksF valL valF body bodyTail body_nil body_cons parseWith pfinish PResult)
open Verif.Rc.Props Verif.Rc.MapProps Verif.Rc.JsonProps

mutual
/-- no object has two entries with the same key -/
def distinct : Syn → Prop
  | .str _ => True
  | .lit _ => True
  | .arr items _ => distinctL items
  | .obj items _ => (items.map (·.1)).Nodup ∧ distinctF items
def distinctL : List Syn → Prop
  | [] => True
  | x :: xs => distinct x ∧ distinctL xs
def distinctF : List (List Byte × Syn) → Prop
  | [] => True
  | (_, x) :: xs => distinct x ∧ distinctF xs
end

/-! ## colons and entries -/

theorem colons_append (a b : List Tok) : colons (a ++ b) = colons a + colons b := by simp [colons]

theorem colons_bodyTail (ps : List (List Tok)) : ∀ (tr : Bool) (c : Tok), c ≠ .colon →
    colons (bodyTail ps tr c) = (ps.map colons).sum := by
  induction ps with
  | nil => intro tr c hc; cases tr <;> simp [bodyTail, colons, hc]
  | cons p ps ih =>
    intro tr c hc
    rw [Verif.Json.bodyTail_cons, colons_cons, body_cons, colons_append, ih tr c hc]
    simp

theorem colons_body (ps : List (List Tok)) (tr : Bool) {c : Tok} (hc : c ≠ .colon) :
    colons (body ps tr c) = (ps.map colons).sum := by
  cases ps with
  | nil => simp [body_nil, colons, hc]
  | cons p ps => rw [body_cons, colons_append, colons_bodyTail ps tr c hc]; simp

theorem entriesF_append (a b : List (List Byte × Val)) : entriesF (a ++ b) = entriesF a + entriesF b := by
  induction a with
  | nil => simp [entriesF]
  | cons q a ih => obtain ⟨k, v⟩ := q; simp only [List.cons_append, entriesF, ih]; omega

theorem insert_new {k : List Byte} {v : Val} {acc : List (List Byte × Val)} (h : k ∉ acc.map (·.1)) :
    insertKey k v acc = acc ++ [(k, v)] := by
  induction acc with
  | nil => rfl
  | cons q acc ih =>
    obtain ⟨k', w⟩ := q
    simp only [List.map_cons, List.mem_cons, not_or] at h
    rw [insertKey, if_neg (fun e => h.1 e.symm), ih h.2]; rfl

/-- without keys given twice, each colon is an entry -/
theorem colons_entries (x : Syn) : distinct x → colons x.toks = entries x.val := by
  induction x using Syn.ind with
  | hs s => intro _; simp [Syn.toks, Syn.val, entries, colons]
  | hl a => intro _; simp [Syn.toks, Syn.val, entries, colons]
  | ha xs tr ih =>
    intro h
    rw [Syn.toks, Syn.val, entries, colons_cons, colons_body _ _ (by simp)]
    rw [distinct] at h
    simp only [reduceCtorEq, if_false, Nat.zero_add]
    induction xs with
    | nil => rfl
    | cons x xs ihx =>
      rw [distinctL] at h
      rw [toksL, valL, entriesL, List.map_cons, List.sum_cons, ih x (by simp) h.1,
        ihx (fun y hy => ih y (List.mem_cons_of_mem _ hy)) h.2]
  | ho xs tr ih =>
    intro h
    rw [Syn.toks, Syn.val, entries, colons_cons, colons_body _ _ (by simp)]
    rw [distinct] at h
    obtain ⟨h1, h2⟩ := h
    have key : ∀ acc : List (List Byte × Val), (∀ k ∈ xs.map (·.1), k ∉ acc.map (·.1)) →
        entriesF (valF xs acc) = entriesF acc + ((toksF xs).map colons).sum := by
      induction xs with
      | nil => intro acc _; simp [valF, toksF]
      | cons q xs ihx =>
        intro acc hacc
        obtain ⟨k, x⟩ := q
        rw [distinctF] at h2
        simp only [List.map_cons, List.nodup_cons] at h1
        rw [valF, insert_new (hacc k (by simp)),
          ihx (fun y hy => ih y (List.mem_cons_of_mem _ hy)) h1.2 h2.2, toksF, List.map_cons, List.sum_cons, colons_cons, colons_cons,
          ih (k, x) (by simp) h2.1, entriesF_append]
        · simp [entriesF]; omega
        · intro k' hk' hm
          rw [List.map_append, List.mem_append] at hm
          rcases hm with hm | hm
          · exact hacc k' (List.mem_cons_of_mem _ hk') hm
          · simp only [List.map_cons, List.map_nil, List.mem_singleton] at hm
            subst hm
            exact h1.1 hk'
    rw [key [] (by simp)]
    simp [entriesF]

/-- what comes from a source is determined -/
theorem yields_prefix {σ : Type} {next : σ → Res (Tok × σ)} {t a b : σ} {as bs : List Tok} (h : Yields next t as a) :
    Yields next t bs b → (∃ r, as ++ r = bs) ∨ ∃ r, bs ++ r = as := by
  induction h generalizing bs with
  | nil t => intro _; exact .inl ⟨bs, rfl⟩
  | @cons t t1 t2 c cs hn hs ih =>
    intro h2
    cases h2 with
    | nil => exact .inr ⟨c :: cs, rfl⟩
    | cons hn' hs' =>
      rw [hn] at hn'; cases hn'
      rcases ih hs' with ⟨r, h⟩ | ⟨r, h⟩
      · exact .inl ⟨r, by rw [List.cons_append, h]⟩
      · exact .inr ⟨r, by rw [List.cons_append, h]⟩

section
variable {sg oth : Nat → Bool} {E : PEnv} {X0 X X' : JS} {H H0 : JHeap} {idx idx' : Nat → Nat}
  {n l r d hi hi' c : Nat} {T Q : List Nat}

/-- the stack is freed, but not what is on it -/
theorem finish_stack {s : MSt} {p : PSt} (R : RelP E sg oth X0 s p l r d) (hd : p.st ≠ .done) {fuel : Nat} (hf : X0.x.s.D.length + l ≤ fuel) :
    ∃ H' X' idx' u, mdel fuel s.H s.sp = .ok (some H') ∧ Core sg E.eqv oth X0 X' H' idx' s.n l r ∧ Own sg X0 X' [u] [] 1 := by
  obtain ⟨X, idx, k, h1, -, F1, F2⟩ := R
  have o : ∃ u, Own sg X0 X [s.sp, u] [] 1 := by
    by_cases h : s.st = .error
    · exact F1 h
    · have f := F2 h
      have sp := f.spine
      cases hs : s.stk with
      | cons g gs => exact ⟨_, f.own.sp (f := g) (by rw [hs]; simp)⟩
      | nil =>
        unfold Spine at sp
        cases ht : s.st <;> rw [ht, hs] at sp <;> simp only [frames] at sp
        case value => obtain ⟨f, g, h, -⟩ := sp; cases h
        case done => exact absurd (h1.symm.trans ht) hd
  obtain ⟨u, o⟩ := o
  obtain ⟨L, hL, hl⟩ := k.old.dom
  obtain ⟨H', X', e, k', o', -⟩ := op_drop k o (fuel := fuel) (by rw [hL]; simp; omega) 0
  exact ⟨H', X', idx, u, e, k', o'⟩

/-- the stack and the last tuple are freed -/
theorem finish_done {s : MSt} {p : PSt} (al : AlOk E) (R : RelP E sg oth X0 s p l r d) (hd : p.st = .done) {fuel : Nat}
    (hf : X0.x.s.D.length + l ≤ fuel) :
    ∃ H1 X1 H2 X2 idx f j v, mdel fuel s.H s.sp = .ok (some H1) ∧ Core sg E.eqv oth X0 X1 H1 idx s.n l r ∧ s.result = some f ∧
      f.j = some j ∧ p.result = some v ∧ mdel fuel H1 f.tup = .ok (some H2) ∧ Core sg E.eqv oth X0 X2 H2 idx s.n l r ∧
      Own sg X0 X2 [] (dyn sg j) d ∧ j ∈ X2.x.s.D ∧ holds E X2 idx s.n v j ∧ Own sg X0 X1 [f.tup] (dyn sg j) d := by
  obtain ⟨X, idx, k, h1, h2, -, F⟩ := R
  have hsd : s.st = .done := h1.trans hd
  have f := F (by rw [hsd]; simp)
  have sp := f.spine
  unfold Spine at sp
  rw [hsd] at sp
  obtain ⟨g1, g2, t, j, v, g3, g4, g5, g6, g7⟩ := sp
  have hr : rootOf sg s = dyn sg j := by simp [rootOf, docOf, g1, g3, g4]
  have ht : [] ++ tempsOf s = [t.tup, s.sp] := by simp [tempsOf, hsd, g1, g3]
  have o := f.own
  rw [hr, ht] at o
  have o1 : Own sg X0 X [s.sp, t.tup] (dyn sg j) d := o.perm (List.Perm.swap _ _ _) (List.Perm.refl _)
  have hf' : ∀ X', Grown sg X0 X' l r → X'.x.s.D.length ≤ fuel := by
    rintro X' g
    obtain ⟨L, hL, hl⟩ := g.dom
    rw [hL]; simp; omega
  obtain ⟨c, hc0⟩ : ∃ c, c ∉ X.x.s.D := ⟨_, (new_fresh al k.J []).1⟩
  obtain ⟨H1, X1, e1, k1, o2, s1⟩ := op_drop k o1 (hf' X k.old) c
  have htt : X.kind j ≠ .raw := by
    by_cases hs : sg j = true
    · obtain ⟨-, t, h, -⟩ := k.J.typed.static j hs
      rw [h]; simp
    · exact (o.roots j (by simp [dyn, hs])).2.2.2
  have m1 : j ∈ X1.x.s.D := s1.keep j g6 htt
  have h7 := holds_same (hi' := s.n) k.J s1 ⟨fun h => absurd h hc0, fun h => absurd h hc0⟩ (Nat.le_refl _) v j g6 g7
  obtain ⟨c', hc1⟩ : ∃ c, c ∉ X1.x.s.D :=
    ⟨_, (new_fresh (s := { s with H := H1 }) al k1.J []).1⟩
  obtain ⟨H2, X2, e2, k2, o3, s2⟩ := op_drop k1 o2 (hf' X1 k1.old) c'
  have m2 : j ∈ X2.x.s.D := s2.keep j m1 (by rw [s1.kind j g6]; exact htt)
  have h8 := holds_same (hi' := s.n) k1.J s2 ⟨fun h => absurd h hc1, fun h => absurd h hc1⟩ (Nat.le_refl _) v j m1 h7
  exact ⟨H1, X1, H2, X2, idx, t, j, v, e1, k1, g3, g4, g5, e2, k2, o3, m2, h8, o2⟩

/-- what holds after a parse that succeeded -/
structure Parsed (sg : Nat → Bool) (E : PEnv) (oth : Nat → Bool) (H : JHeap) (H' : JHeap) (j : Nat) (v : Val) : Prop where
  value : reads E H' v j
  kept : Kept sg H H'
  good : ∃ X, JG sg E.eqv oth X H'

/-- what memory is after a document was parsed, in terms of the specification -/
theorem parse_core_any {σ : Type} {next : σ → Res (Tok × σ)} {fuel N : Nat} {forceEof : Bool} (al : AlOk E) (st : Statics E sg)
    (J0 : JG sg E.eqv oth X0 H) (x : Syn) {t t' : σ} (hok : Lits next t)
    (hy : Yields next t x.toks t') (hd : x.depth ≤ 511) (he : forceEof = true → ∃ t'', next t' = .ok (.eof, t''))
    (hN : x.toks.length ≤ N) (hf : X0.x.s.D.length + (2 + 4 * N) ≤ fuel) :
    ∃ j s' X idx l r, memParse E fuel next N forceEof H t = .ok (some (some (some j), s')) ∧ Core sg E.eqv oth X0 X s'.H idx s'.n l r ∧
      l ≤ 2 + 4 * N ∧ j ∈ X.x.s.D ∧ (sg j = true ∨ j ∉ X0.x.s.D) ∧ holds E X idx s'.n x.val j ∧
      ∃ d, Own sg X0 X [] (dyn sg j) d ∧ (distinct x → d = 0) := by
  obtain ⟨key, hrun⟩ := Verif.Json.prun_doc x hd (N - x.toks.length) []
  rw [List.append_nil, Nat.sub_add_cancel hN] at hrun
  have hrun := Verif.Json.prun_of_yields hy _ _ _ hrun rfl
  have sim := run_sim (next := next) (fuel := fuel) al st N (memInit E H) pinit t 2 0 0 hok (rel_init al J0) hf
  rw [hrun] at sim
  obtain ⟨s, ts, d', e, R, hys, hts, hp⟩ := sim
  obtain ⟨H1, X1, H2, X2, idx, f, j, v, e1, k1, e2, e3, e4, e5, k2, o, hj, hh, ot⟩ := finish_done al R rfl (fuel := fuel) (by omega)
  have hst : s.st = .done := by
    obtain ⟨-, -, -, h, -⟩ := R
    exact h
  cases e4
  refine ⟨j, { s with H := H2 }, X2, idx, _, _, ?_, k2, by omega, hj, ?_, hh, d', o, fun hdist => ?_⟩
  · rw [memParse, e]
    simp only [bindO, Res.bind_ok, memFinish, e1, hst, if_true]
    cases forceEof with
    | false => simp only [Bool.false_eq_true, if_false, e2, e5, bindO, Res.bind_ok, e3]
    | true =>
      obtain ⟨t'', hn⟩ := he rfl
      simp only [if_true, hn, Res.bind_ok, e2, e5, bindO, e3]
  · by_cases hs : sg j = true
    · exact .inl hs
    · exact .inr (o.roots j (by simp [dyn, hs])).2.1
  · have hts' : colons ts = colons x.toks := by
      obtain ⟨x', h1, -, h2⟩ := Verif.Json.prun_doc_inv (ts := ts) (ts' := []) (by simpa using hts []) rfl
      rw [List.append_nil] at h1
      subst h1
      rcases yields_prefix hys hy with ⟨r, h⟩ | ⟨r, h⟩
      · have := (Verif.Json.uniq x' x r [] (by rw [h, List.append_nil])).2.2
        rw [← h, this, List.append_nil]
      · have := (Verif.Json.uniq x x' r [] (by rw [h, List.append_nil])).2.2
        rw [← h, this, List.append_nil]
    rw [hts', colons_entries x hdist] at hp
    simp only [pot, potJ, pinit, potS] at hp
    omega

/-- what is more if no key is given twice -/
theorem parse_core {σ : Type} {next : σ → Res (Tok × σ)} {fuel N : Nat} {forceEof : Bool} (al : AlOk E) (st : Statics E sg)
    (J0 : JG sg E.eqv oth X0 H) (x : Syn) {t t' : σ} (hok : Lits next t)
    (hy : Yields next t x.toks t') (hd : x.depth ≤ 511) (he : forceEof = true → ∃ t'', next t' = .ok (.eof, t''))
    (hN : x.toks.length ≤ N) (hf : X0.x.s.D.length + (2 + 4 * N) ≤ fuel) :
    ∃ j s' X idx l r, memParse E fuel next N forceEof H t = .ok (some (some (some j), s')) ∧ Core sg E.eqv oth X0 X s'.H idx s'.n l r ∧
      X0.x.s.D.length + l ≤ fuel ∧ j ∈ X.x.s.D ∧ (sg j = true ∨ j ∉ X0.x.s.D) ∧ holds E X idx s'.n x.val j ∧
      (distinct x → Own sg X0 X [] (dyn sg j) 0) := by
  obtain ⟨j, s', X, idx, l, r, e, k, hl, hj, hjn, hh, d, o, h⟩ := parse_core_any al st J0 x hok hy hd he hN hf
  exact ⟨j, s', X, idx, l, r, e, k, by omega, hj, hjn, hh, fun hx => h hx ▸ o⟩

/-- **C106** (partial).  `cee_json_parsex` on memory with correct counts, over any source of tokens: if the source gives the
tokens of a document that is nested at most 511 deep, then the value of the document is in memory at the end, what was in
memory before is as it was, and the counts are correct.  If no object of the document has a key twice, then nothing is in memory that
was not there before and does not belong to the document, and `cee_del` of the document frees all that was allocated: memory is
as before the call.  The fuel bounds the depth of recursion.  Missing: documents with keys given twice, and errors, after
which blocks stay in memory (`C106_twice_false`, `C106_error_false`). -/
theorem C106_partial {σ : Type} {next : σ → Res (Tok × σ)} {fuel N : Nat} {forceEof : Bool} (al : AlOk E) (st : Statics E sg)
    (J0 : JG sg E.eqv oth X0 H) (x : Syn) {t t' : σ} (hok : Lits next t)
    (hy : Yields next t x.toks t') (hd : x.depth ≤ 511) (he : forceEof = true → ∃ t'', next t' = .ok (.eof, t''))
    (hN : x.toks.length ≤ N) (hf : X0.x.s.D.length + (2 + 4 * N) ≤ fuel) :
    ∃ j s', memParse E fuel next N forceEof H t = .ok (some (some (some j), s')) ∧ Parsed sg E oth H s'.H j x.val ∧
      (distinct x → (∀ y, s'.H.m.h.live y = true → H.m.h.live y = false → y ≠ j → 0 < s'.H.m.h.deg y) ∧
        ∃ H', jsonDel fuel s'.H (some j) = .ok (some H') ∧ (∀ y, H'.m.h.live y = H.m.h.live y) ∧ Kept sg H H') := by
  obtain ⟨j, s', X2, idx, l, r, e, k2, hl, hj, -, hh, ho⟩ := parse_core al st J0 x hok hy hd he hN hf
  refine ⟨j, s', e, ⟨reads_of k2.J x.val j hj hh, kept J0 k2.J k2.old, X2, k2.J⟩, fun hdist => ?_⟩
  have o := ho hdist
  refine ⟨fun y hy1 hy0 hyj => ?_, doc_del J0 k2 hj o hl⟩
  have hyD := (k2.J.live y).1 hy1
  have hy0' : y ∉ X0.x.s.D := fun h => by rw [(J0.live y).2 h] at hy0; cases hy0
  have hns : sg y = false := by
    cases h : sg y with
    | false => rfl
    | true => exact absurd (k2.old.static y h) hy0'
  rw [(k2.J.fields hyD hns).1]
  rcases Nat.eq_zero_or_pos (X2.x.s.rc y) with h | h
  · rcases o.clean rfl y hyD hy0' h with h | h
    · cases h
    · simp only [dyn] at h
      split at h
      · cases h
      · exact absurd (by simpa using h) hyj
  · exact h

/-- blocks that were not there before are in memory, at most `n`, and to one of them at least nothing refers -/
def Left (H H' : JHeap) (n : Nat) : Prop :=
  ∃ new : List Nat, new.Nodup ∧ (∀ y ∈ new, H.m.h.live y = false) ∧ (∀ y, H'.m.h.live y = true ↔ H.m.h.live y = true ∨ y ∈ new) ∧
    new.length ≤ n ∧ ∃ u ∈ new, H'.m.h.deg u = 0

theorem left_of (J0 : JG sg E.eqv oth X0 H) (k : Core sg E.eqv oth X0 X H0 idx n l r) {u : Nat} (o : Own sg X0 X (u :: T) Q d) :
    Left H H0 l := by
  obtain ⟨L, hL, hl⟩ := k.old.dom
  have hn := k.J.nodup
  rw [hL, List.nodup_append] at hn
  obtain ⟨-, h2, h3⟩ := hn
  obtain ⟨i, hu⟩ := o.temps u (by simp)
  refine ⟨L, h2, fun y hy => ?_, fun y => by rw [k.J.live, J0.live, hL, List.mem_append], hl, u, ?_, ?_⟩
  · cases h : H.m.h.live y with
    | false => rfl
    | true => exact absurd rfl (h3 y ((J0.live y).1 h) y hy)
  · have := i.mem
    rw [hL, List.mem_append] at this
    exact this.resolve_left hu
  · have := (k.J.fields i.mem i.ns).1
    rw [this]; exact i.rc

/-- **C106**: whatever the tokens are, no freed memory is used, what was in memory before is as it was, the counts are correct
at the end, and the result is that of the parser on values (of which `C37_accepts`, `C37_rejects` say what it accepts).  After each
`EINVAL` something stays in memory (`Left`).  Undefined
behaviour can only come from the tokenizer. -/
theorem C106_safe {σ : Type} {next : σ → Res (Tok × σ)} {fuel N : Nat} {forceEof : Bool} (al : AlOk E) (st : Statics E sg)
    (J0 : JG sg E.eqv oth X0 H) (t : σ) (hok : Lits next t)
    (hf : X0.x.s.D.length + (2 + 4 * N) ≤ fuel) :
    match parseWith next N forceEof t with
    | .ok none => memParse E fuel next N forceEof H t = .ok none
    | .ok (some (.value v, _)) => ∃ w j s', v = some w ∧
        memParse E fuel next N forceEof H t = .ok (some (some (some j), s')) ∧ Parsed sg E oth H s'.H j w
    | .ok (some (.einval, _)) => ∃ s', memParse E fuel next N forceEof H t = .ok (some (none, s')) ∧ Kept sg H s'.H ∧
        (∃ X, JG sg E.eqv oth X s'.H) ∧ Left H s'.H (3 + 4 * N)
    | .ub => memParse E fuel next N forceEof H t = .ub
    | .segv => memParse E fuel next N forceEof H t = .segv := by
  have sim := run_sim (next := next) (fuel := fuel) al st N (memInit E H) pinit t 2 0 0 hok (rel_init al J0) hf
  revert sim
  rw [parseWith, memParse]
  cases hrun : prun next N pinit t with
  | ub => intro sim; simp only at sim; rw [sim]; rfl
  | segv => intro sim; simp only at sim; rw [sim]; rfl
  | ok o => cases o with
    | none => intro sim; simp only at sim; rw [sim]; rfl
    | some q =>
      obtain ⟨p, t1⟩ := q
      rintro ⟨s, ts, d', e, R, -⟩
      simp only [e, bindO, Res.bind_ok, pfinish]
      have hst : s.st = p.st := by
        obtain ⟨-, -, -, h, -⟩ := R
        exact h
      by_cases hd : p.st = .done
      · obtain ⟨H1, X1, H2, X2, idx, f, j, v, e1, k1, e2, e3, e4, e5, k2, o, hj, hh, ot⟩ := finish_done al R hd (fuel := fuel) (by omega)
        have pd : Parsed sg E oth H H2 j v := ⟨reads_of k2.J v j hj hh, kept J0 k2.J k2.old, X2, k2.J⟩
        cases forceEof with
        | false =>
          simp only [hd, if_true, Bool.false_eq_true, if_false, Res.map_ok']
          refine ⟨v, j, { s with H := H2 }, e4, ?_, pd⟩
          simp only [memFinish, e1, bindO, Res.bind_ok, hst, hd, if_true, Bool.false_eq_true, if_false, e2, e5, e3]
        | true =>
          simp only [hd, if_true]
          cases hn : next t1 with
          | ub =>
            simp only [Res.map, memFinish, e1, bindO, Res.bind_ok, hst, hd, if_true, hn]; rfl
          | segv =>
            simp only [Res.map, memFinish, e1, bindO, Res.bind_ok, hst, hd, if_true, hn]; rfl
          | ok ct =>
            obtain ⟨c, t2⟩ := ct
            by_cases hc : c = .eof
            · simp only [hc, if_true, Res.map_ok']
              refine ⟨v, j, { s with H := H2 }, e4, ?_, pd⟩
              simp only [memFinish, e1, bindO, Res.bind_ok, hst, hd, if_true, hn, hc, e2, e5, e3]
            · simp only [hc, if_false, Res.map_ok']
              refine ⟨(readTok E { s with H := H1 } c).1, ?_, ?_⟩
              · simp only [memFinish, e1, bindO, Res.bind_ok, hst, hd, if_true, hn, hc, if_false]
              · cases c with
                | str u =>
                  obtain ⟨f1, -⟩ := new_fresh (s := { s with H := H1 }) al k1.J u
                  obtain ⟨X3, k3, o3, -⟩ := op_raw (eqvE E) k1 ot f1 0
                  exact ⟨kept J0 k3.J k3.old, ⟨X3, k3.J⟩, left_of J0 (k3.more (by omega) (Nat.le_refl _)) o3⟩
                | _ => exact ⟨kept J0 k1.J k1.old, ⟨X1, k1.J⟩, left_of J0 (k1.more (by omega) (Nat.le_refl _)) ot⟩
      · obtain ⟨H1, X1, idx1, u, e1, k1, o1⟩ := finish_stack R hd (fuel := fuel) (by omega)
        simp only [hd, if_false, Res.map_ok']
        refine ⟨{ s with H := H1 }, ?_, kept J0 k1.J k1.old, ⟨X1, k1.J⟩, left_of J0 (k1.more (by omega) (Nat.le_refl _)) o1⟩
        simp only [memFinish, e1, bindO, Res.bind_ok, hst, hd, if_false]

end

/-- `{"a":[null,"x",1,],"b":{}}` -/
def docD : Syn := .obj [([97], .arr [.lit .null, .str [120], .lit (.i64 1)] true), ([98], .obj [] false)] false

/-- the hypotheses of `C106_partial` are met -/
example : ∃ j s', memParse envD 100 listNext 20 true stD docD.toks = .ok (some (some (some j), s')) ∧
    Parsed sgD envD (fun _ => false) stD s'.H j docD.val ∧
    ∃ H', jsonDel 100 s'.H (some j) = .ok (some H') ∧ ∀ y, H'.m.h.live y = stD.m.h.live y := by
  obtain ⟨j, s', h1, h2, h3⟩ := C106_partial (forceEof := true) (fuel := 100) (N := 20) alD_ok statics_envD stD_good docD
    (next := listNext) (t := docD.toks) (t' := [])
    (lits_list (by simp [docD, Syn.toks, toksL, toksF, body, bodyTail, TokOk]))
    (by have := yields_list docD.toks []; rwa [List.append_nil] at this)
    (by simp [docD, Syn.depth, Verif.Json.depthL, Verif.Json.depthF]) (fun _ => ⟨[], rfl⟩)
    (by simp [docD, Syn.toks, toksL, toksF, body, bodyTail]) (by simp [specJ])
  obtain ⟨-, H', h4, h5, -⟩ := h3 (by simp [docD, distinct, distinctF, distinctL])
  exact ⟨j, s', h1, h2, H', h4, h5⟩

/-- the hypotheses of `C106_safe` are met; tokens that are not of a document -/
example : ∃ s', memParse envD 100 listNext 20 true stD [.lc, .str [97], .colon, .lb, .rc] = .ok (some (none, s')) ∧
    Kept sgD stD s'.H ∧ (∃ X, JG sgD envD.eqv (fun _ => false) X s'.H) ∧ Left stD s'.H 83 :=
  C106_safe (forceEof := true) (fuel := 100) (N := 20) alD_ok statics_envD stD_good [.lc, .str [97], .colon, .lb, .rc]
    (next := listNext) (lits_list (by simp [TokOk])) (by simp [specJ])

/-- **C106 is false** for documents with a key twice: of `{"a":"x","a":null}` the string stays in memory, nothing refers
to it, and the deletion of the document does not free it (`cee_map_add`, parser.c:131-157). -/
theorem C106_twice_false : ∃ (sg oth : Nat → Bool) (E : PEnv) (X0 : JS) (H : JHeap) (x : Syn) (j y : Nat) (s' : MSt) (H' : JHeap),
    AlOk E ∧ Statics E sg ∧ JG sg E.eqv oth X0 H ∧
    memParse E 100 listNext 9 true H x.toks = .ok (some (some (some j), s')) ∧
    x.val = .obj [([97], .atom .null)] ∧
    H.m.h.live y = false ∧ s'.H.m.h.live y = true ∧ s'.H.m.h.deg y = 0 ∧ y ≠ j ∧
    jsonDel 100 s'.H (some j) = .ok (some H') ∧ H'.m.h.live j = false ∧ H'.m.h.live y = true :=
  ⟨sgD, fun _ => false, envD, specJ [1, 3, 5] tyD, stD, twice, 16, 128, s11, _, alD_ok, statics_envD, stD_good, twice_run,
    by simp [twice, Syn.val, valF, insertKey], rfl, rfl, rfl, by decide, rfl, rfl, rfl⟩

/-- **C106 is false** when there is an error: of `[` the array, its list and the tuple of the stack stay in memory, and no
pointer to them is returned (parser.c:247-260). -/
theorem C106_error_false : ∃ (sg oth : Nat → Bool) (E : PEnv) (X0 : JS) (H : JHeap) (a b c : Nat) (s' : MSt),
    AlOk E ∧ Statics E sg ∧ JG sg E.eqv oth X0 H ∧
    memParse E 100 listNext 2 true H [.lb, .eof] = .ok (some (none, s')) ∧ [a, b, c].Nodup ∧
    ∀ y ∈ [a, b, c], H.m.h.live y = false ∧ s'.H.m.h.live y = true :=
  ⟨sgD, fun _ => false, envD, specJ [1, 3, 5] tyD, stD, 4, 8, 16, k4, alD_ok, statics_envD, stD_good, open_run, by decide,
    by intro y hy; simp only [List.mem_cons, List.not_mem_nil, or_false] at hy; rcases hy with rfl | rfl | rfl <;> exact ⟨rfl, rfl⟩⟩

end Verif.Rc.ParseProps
