import Verif.Rc.ParseStep

/-!
# The loop of the parser on memory (lemmas for C106)
-/

namespace Verif.Rc.ParseProps
open Verif.Chain (upd)
open Verif.Json (Byte Tok Atom PState PFrame PSt Val insertKey PInv ChainOk pstep popFrame pstep_inv prun pinit Yields listNext)
open Verif.Rc.Props Verif.Rc.MapProps Verif.Rc.JsonProps

section
variable {sg oth : Nat → Bool} {E : PEnv} {X0 X X' : JS} {H : JHeap} {idx idx' : Nat → Nat} {n l r d hi hi' c : Nat} {T Q : List Nat}

theorem below_length (fs : List MFrame) : ∀ (gs : List PFrame) (x cx : Nat) (key : List Byte),
    below E X0 X idx x cx key fs gs → fs.length = gs.length := by
  induction fs with
  | nil => intro gs x cx key h; cases gs with
    | nil => rfl
    | cons g gs => simp [below] at h
  | cons f fs ih => intro gs x cx key h; cases gs with
    | nil => simp [below] at h
    | cons g gs =>
      simp only [below] at h
      obtain ⟨j, v, b, -, -, -, -, -, -, -, h8⟩ := h
      simp [ih _ _ _ _ h8]

theorem frames_length {fs : List MFrame} {gs : List PFrame} (h : frames E X0 X idx n fs gs) :
    fs.length = gs.length ∧ fs ≠ [] := by
  cases fs with
  | nil => simp [frames] at h
  | cons f fs => cases gs with
    | nil => simp [frames] at h
    | cons g gs =>
      simp only [frames] at h
      obtain ⟨j, v, b, -, -, -, -, -, -, -, h8⟩ := h
      simp [below_length _ _ _ _ _ h8]

/-- the stacks are equally high -/
theorem Spine.length {s : MSt} {p : PSt} (h : Spine E X0 X idx s p) (hs : s.st ≠ .error) : s.stk.length = p.stk.length := by
  unfold Spine at h
  cases hst : s.st <;> rw [hst] at h <;> simp only at h
  case value =>
    obtain ⟨f, g, h1, -, -, h2, -⟩ := h
    rw [h1, h2]; rfl
  case done => rw [h.1, h.2.1]; rfl
  all_goals exact (frames_length h).1

theorem RelP.goes {s : MSt} {p : PSt} (R : RelP E sg oth X0 s p l r d) : s.goes = p.goes := by
  obtain ⟨X, idx, k, h1, h2, -, h3⟩ := R
  by_cases he : s.st = .error
  · have hp : p.st = .error := by rw [← h1, he]
    simp [MSt.goes, PSt.goes, he, hp]
  · have hl := (h3 he).spine.length he
    have hE : s.stk.isEmpty = p.stk.isEmpty := by
      cases h1 : s.stk <;> cases h2 : p.stk <;> rw [h1, h2] at hl <;> simp at hl ⊢
    rw [MSt.goes, PSt.goes, hl, h1, hE]

theorem RelP.more {s : MSt} {p : PSt} (R : RelP E sg oth X0 s p l r d) {l' r' : Nat} (hl : l ≤ l') (hr : r ≤ r') :
    RelP E sg oth X0 s p l' r' d := by
  obtain ⟨X, idx, k, h⟩ := R
  exact ⟨X, idx, k.more hl hr, h⟩

/-- one turn of the loop -/
theorem turn {s : MSt} {p : PSt} {c : Tok} {fuel : Nat} (al : AlOk E) (st : Statics E sg) (hok : TokOk c)
    (R : RelP E sg oth X0 s p l r d) (hg : s.goes = true) (hf : X0.x.s.D.length + (l + 4) ≤ fuel) :
    ∃ s1 s' p', delResult fuel s = .ok (some s1) ∧ memStep E fuel (readTok E s1 c).1 c (readTok E s1 c).2 = .ok (some s') ∧
      pstep p c = .ok p' ∧ RelP E sg oth X0 s' p' (l + 4) (r + 1) (d + dupOf p c) := by
  obtain ⟨X, idx, k, hps, hi, -, F⟩ := R
  obtain ⟨hne, -, he, hd⟩ : s.stk ≠ [] ∧ s.stk.length < 512 ∧ s.st ≠ .error ∧ s.st ≠ .done := by
    simpa [MSt.goes, and_assoc] using hg
  obtain ⟨H1, X1, e1, k1, f1⟩ := fine_del (fuel := fuel) al k (F he) hne hd (by omega)
  obtain ⟨H2, n2, str, X2, idx2, e2, k2, f2, tk⟩ := fine_read (s := { s with H := H1, result := none }) al k1 f1 hd c
  refine ⟨{ s with H := H1, result := none }, ?_⟩
  have none0 : p.st ≠ .objValue → dupOf p c = 0 := by
    intro h
    unfold dupOf
    split
    · next h' _ => exact absurd h' h
    · rfl
  obtain hst | hst | hst | hst : s.st = .value ∨ s.st = .arrValueOrClose ∨ s.st = .objValue ∨
      (s.st = .keyOrClose ∨ s.st = .colon ∨ s.st = .objCloseOrComma ∨ s.st = .arrCloseOrComma) := by
    revert hd he; cases s.st <;> simp
  · obtain ⟨s', p', a, b, R⟩ := step_value (fuel := fuel) al st hok k2 f2 tk hst hps rfl hi
    refine ⟨s', p', e1, by rw [e2]; exact a, b, ?_⟩
    rw [none0 (by rw [← hps, hst]; simp)]
    exact R.more (by omega) (by omega)
  · obtain ⟨s', p', a, b, R⟩ := step_arr (fuel := fuel) al st hok k2 f2 tk hst hps rfl hi
    refine ⟨s', p', e1, by rw [e2]; exact a, b, ?_⟩
    rw [none0 (by rw [← hps, hst]; simp)]
    exact R.more (by omega) (by omega)
  · obtain ⟨s', p', a, b, R⟩ := step_obj (fuel := fuel) al st hok k2 f2 tk hst hps rfl hi (by omega)
    exact ⟨s', p', e1, by rw [e2]; exact a, b, R.more (by omega) (by omega)⟩
  · obtain ⟨s', p', a, b, R⟩ := step_rest (fuel := fuel) al k2 f2 tk hst hps rfl hi
    refine ⟨s', p', e1, by rw [e2]; exact a, b, ?_⟩
    rw [none0 (by rw [← hps]; rcases hst with h | h | h | h <;> rw [h] <;> simp)]
    exact R.more (by omega) (by omega)

end

/-! ## how many keys were given again -/

mutual
/-- how many entries the objects in a value have -/
def entries : Val → Nat
  | .atom _ => 0
  | .arr xs => entriesL xs
  | .obj kvs => entriesF kvs
def entriesL : List Val → Nat
  | [] => 0
  | x :: xs => entries x + entriesL xs
def entriesF : List (List Byte × Val) → Nat
  | [] => 0
  | (_, x) :: xs => 1 + entries x + entriesF xs
end

/-- one more entry, if the key is new -/
def fresh : Option Val → List Byte → Nat
  | some (.obj kvs), k => if kvs.any (fun q => q.1 == k) then 0 else 1
  | _, _ => 0

def potJ : Option Val → Nat
  | none => 0
  | some v => entries v

def potS : List PFrame → Nat
  | [] => 0
  | f :: fs => potJ f.j + (match fs with | [] => 0 | g :: _ => fresh g.j f.key) + potS fs

/-- how many entries there are and will be for the colons that were read -/
def pot (p : PSt) : Nat :=
  match p.st with
  | .done => potJ p.result
  | .error => 0
  | .objValue => potS p.stk + 1
  | _ => potS p.stk

theorem entriesL_append (xs : List Val) (v : Val) : entriesL (xs ++ [v]) = entriesL xs + entries v := by
  induction xs with
  | nil => simp [entriesL]
  | cons x xs ih => simp only [List.cons_append, entriesL, ih]; omega

theorem entriesF_insert (k : List Byte) (v : Val) (kvs : List (List Byte × Val)) :
    entriesF (insertKey k v kvs) ≤ entriesF kvs + entries v + fresh (some (.obj kvs)) k := by
  induction kvs with
  | nil => simp [insertKey, entriesF, fresh]; omega
  | cons q kvs ih =>
    obtain ⟨k', w⟩ := q
    rw [insertKey]
    split
    · next h => simp only [entriesF]; omega
    · next h =>
      have hf : fresh (some (.obj ((k', w) :: kvs))) k = fresh (some (.obj kvs)) k := by
        have : (k' == k) = false := by simpa using h
        simp only [fresh, List.any_cons, this, Bool.false_or]
      rw [hf]
      simp only [entriesF]; omega

theorem attach_pot {pj : Option Val} {key : List Byte} {v w : Val} (h : Verif.Json.attach pj key v = .ok w) :
    entries w ≤ potJ pj + entries v + fresh pj key := by
  cases pj with
  | none => cases h
  | some x => cases x with
    | atom a => cases h
    | arr xs =>
      obtain rfl := Res.ok.inj h
      simp [entries, potJ, entriesL_append]
    | obj kvs =>
      obtain rfl := Res.ok.inj h
      exact entriesF_insert _ _ _

theorem fresh_attach {g g' : PFrame} (h : g'.key = g.key) (gs : List PFrame) : potS (g' :: gs) + potJ g.j = potS (g :: gs) + potJ g'.j := by
  simp only [potS, h]; omega

theorem pot_pop {p p' : PSt} {g : PFrame} {gs : List PFrame} (hc : ChainOk (g :: gs)) (h : popFrame p g gs = .ok p') :
    pot p' ≤ potS (g :: gs) := by
  cases gs with
  | nil =>
    obtain rfl := Res.ok.inj h
    simp only [ChainOk] at hc
    simp [pot, hc, potS]
  | cons q gs =>
    simp only [popFrame] at h
    cases hj : g.j with
    | none => rw [hj] at h; cases h
    | some v =>
      rw [hj] at h
      simp only at h
      obtain ⟨w, ha, rfl⟩ : ∃ w, Verif.Json.attach q.j g.key v = .ok w ∧
          { p with st := g.ret, stk := { q with j := some w } :: gs, result := some v } = p' := by
        cases ha : Verif.Json.attach q.j g.key v with
        | ok w => rw [ha] at h; exact ⟨w, rfl, Res.ok.inj h⟩
        | ub => rw [ha] at h; cases h
        | segv => rw [ha] at h; cases h
      have h1 := attach_pot ha
      have h2 := fresh_attach (g := q) (g' := { q with j := some w }) rfl gs
      have h3 : pot { p with st := g.ret, stk := { q with j := some w } :: gs, result := some v } =
          potS ({ q with j := some w } :: gs) := by
        simp only [ChainOk] at hc
        rcases hc.1 with ⟨h, -⟩ | ⟨h, -⟩ <;> simp [pot, h]
      rw [h3, potS, hj]
      simp only [potJ] at h1 h2 ⊢
      omega

/-- one turn of the loop -/
theorem pot_step {p p' : PSt} {c : Tok} (hi : PInv p) (hd : p.st ≠ .done) (he : p.st ≠ .error) (h : pstep p c = .ok p') :
    pot p' + dupOf p c ≤ pot p + if c = .colon then 1 else 0 := by
  obtain ⟨st, stk, key, res⟩ := p
  cases st with
  | done => exact absurd rfl hd
  | error => exact absurd rfl he
  | value =>
    obtain ⟨⟨ret, j, k⟩, rfl, hr⟩ := hi
    simp only at hr; subst hr
    cases c <;> obtain rfl := Res.ok.inj h <;>
      simp [pot, potS, potJ, entries, entriesL, entriesF, dupOf]
  | keyOrClose =>
    obtain ⟨top, rest, kvs, rfl, hj, hc⟩ := hi
    have h0 : ∀ c, dupOf ⟨.keyOrClose, top :: rest, key, res⟩ c = 0 := fun c => by simp [dupOf]
    rw [h0]
    cases c
    case rc => exact Nat.le_add_right_of_le (pot_pop hc h)
    all_goals obtain rfl := Res.ok.inj h; simp [pot]
  | colon =>
    obtain ⟨top, rest, kvs, rfl, hj, hc⟩ := hi
    have h0 : ∀ c, dupOf ⟨.colon, top :: rest, key, res⟩ c = 0 := fun c => by simp [dupOf]
    rw [h0]
    cases c <;> obtain rfl := Res.ok.inj h <;> simp [pot]
  | objCloseOrComma =>
    obtain ⟨top, rest, kvs, rfl, hj, hc⟩ := hi
    have h0 : ∀ c, dupOf ⟨.objCloseOrComma, top :: rest, key, res⟩ c = 0 := fun c => by simp [dupOf]
    rw [h0]
    cases c
    case rc => exact Nat.le_add_right_of_le (pot_pop hc h)
    all_goals obtain rfl := Res.ok.inj h; simp [pot]
  | arrCloseOrComma =>
    obtain ⟨top, rest, kvs, rfl, hj, hc⟩ := hi
    have h0 : ∀ c, dupOf ⟨.arrCloseOrComma, top :: rest, key, res⟩ c = 0 := fun c => by simp [dupOf]
    rw [h0]
    cases c
    case rb => exact Nat.le_add_right_of_le (pot_pop hc h)
    all_goals obtain rfl := Res.ok.inj h; simp [pot]
  | arrValueOrClose =>
    obtain ⟨⟨ret, j, k⟩, rest, xs, rfl, hj, hc⟩ := hi
    simp only at hj; subst hj
    have h0 : ∀ c, dupOf ⟨.arrValueOrClose, ⟨ret, some (.arr xs), k⟩ :: rest, key, res⟩ c = 0 := fun c => by simp [dupOf]
    rw [h0]
    cases c
    case rb => exact Nat.le_add_right_of_le (pot_pop hc h)
    all_goals
      obtain rfl := Res.ok.inj h
      simp [pot, potS, potJ, entries, entriesL, entriesF, fresh, entriesL_append]
  | objValue =>
    obtain ⟨⟨ret, j, k⟩, rest, kvs, rfl, hj, hc⟩ := hi
    simp only at hj; subst hj
    have hb := entriesF_insert key
    cases c <;> obtain rfl := Res.ok.inj h
    case str s =>
      have := hb (.atom (.str s)) kvs
      simp only [pot, potS, potJ, entries, fresh, dupOf, box?, Tok.atom?] at this ⊢
      split at this <;> simp_all <;> omega
    case lit a =>
      have := hb (.atom a) kvs
      simp only [pot, potS, potJ, entries, fresh, dupOf, box?, Tok.atom?] at this ⊢
      split at this <;> simp_all <;> omega
    case lb =>
      simp only [pot, potS, potJ, entries, entriesL, fresh, dupOf, box?, Tok.atom?]
      split <;> simp <;> omega
    case lc =>
      simp only [pot, potS, potJ, entries, entriesF, fresh, dupOf, box?, Tok.atom?]
      split <;> simp <;> omega
    all_goals simp [pot, dupOf, box?, Tok.atom?]

/-! ## the loop -/

/-- how many keys with values there are in a list of tokens -/
def colons (ts : List Tok) : Nat := (ts.filter (· = .colon)).length

theorem colons_cons (c : Tok) (ts : List Tok) : colons (c :: ts) = (if c = .colon then 1 else 0) + colons ts := by
  rw [colons, colons, List.filter_cons]
  by_cases h : c = .colon <;> simp [h] <;> omega

section
variable {sg oth : Nat → Bool} {E : PEnv} {X0 X X' : JS} {H : JHeap} {idx idx' : Nat → Nat} {n l r d hi hi' c : Nat} {T Q : List Nat}

theorem memRun_stop {σ : Type} {next : σ → Res (Tok × σ)} {fuel : Nat} {s : MSt} (h : s.goes = false) (n : Nat) (t : σ) :
    memRun E fuel next n s t = .ok (some (s, t)) := by
  cases n <;> simp [memRun, h]

theorem memRun_go {σ : Type} {next : σ → Res (Tok × σ)} {fuel : Nat} {s : MSt} (h : s.goes = true) (n : Nat) (t : σ) :
    memRun E fuel next (n + 1) s t = bindO (delResult fuel s) fun s => (next t).bind fun x =>
      bindO (memStep E fuel (readTok E s x.1).1 x.1 (readTok E s x.1).2) fun s => memRun E fuel next n s x.2 := by
  rw [memRun]; simp [h]

/-- all literals that come from a source are truth values, `null` or numbers -/
def Lits {σ : Type} (next : σ → Res (Tok × σ)) (t : σ) : Prop := ∀ ts t', Yields next t ts t' → ∀ c ∈ ts, TokOk c

theorem Lits.step {σ : Type} {next : σ → Res (Tok × σ)} {t t1 : σ} {c : Tok} (h : Lits next t) (hn : next t = .ok (c, t1)) :
    TokOk c ∧ Lits next t1 :=
  ⟨h [c] t1 (.cons hn (.nil t1)) c (by simp), fun ts t' hy a ha => h (c :: ts) t' (.cons hn hy) a (List.mem_cons_of_mem _ ha)⟩

theorem run_sim {σ : Type} {next : σ → Res (Tok × σ)} {fuel : Nat} (al : AlOk E) (st : Statics E sg)
    (N : Nat) : ∀ (s : MSt) (p : PSt) (t : σ) (l r d : Nat), Lits next t →
    RelP E sg oth X0 s p l r d → X0.x.s.D.length + (l + 4 * N) ≤ fuel →
    match prun next N p t with
    | .ok (some (p', t')) => ∃ s' ts d', memRun E fuel next N s t = .ok (some (s', t')) ∧
        RelP E sg oth X0 s' p' (l + 4 * N) (r + N) d' ∧ Yields next t ts t' ∧
        (∀ rest, prun listNext N p (ts ++ rest) = .ok (some (p', rest))) ∧ pot p' + d' ≤ pot p + d + colons ts
    | .ok none => memRun E fuel next N s t = .ok none
    | .ub => memRun E fuel next N s t = .ub
    | .segv => memRun E fuel next N s t = .segv := by
  have stop : ∀ (N : Nat) (s : MSt) (p : PSt) (t : σ) (l r d : Nat), RelP E sg oth X0 s p l r d → p.goes = false →
    match prun next N p t with
    | .ok (some (p', t')) => ∃ s' ts d', memRun E fuel next N s t = .ok (some (s', t')) ∧
        RelP E sg oth X0 s' p' (l + 4 * N) (r + N) d' ∧ Yields next t ts t' ∧
        (∀ rest, prun listNext N p (ts ++ rest) = .ok (some (p', rest))) ∧ pot p' + d' ≤ pot p + d + colons ts
    | .ok none => memRun E fuel next N s t = .ok none
    | .ub => memRun E fuel next N s t = .ub
    | .segv => memRun E fuel next N s t = .segv := by
    intro N s p t l r d R hg
    rw [Verif.Json.prun_stop hg]
    refine ⟨s, [], d, ?_, R.more (by omega) (by omega), .nil t, fun rest => Verif.Json.prun_stop hg N rest, by simp [colons]⟩
    exact memRun_stop (R.goes.trans hg) N t
  induction N with
  | zero =>
    intro s p t l r d hok R hf
    cases hg : p.goes with
    | false => exact stop 0 s p t l r d R hg
    | true =>
      have := R.goes.trans hg
      rw [prun, memRun]
      simp [hg, this]
  | succ N ih =>
    intro s p t l r d hok R hf
    cases hg : p.goes with
    | false => exact stop (N + 1) s p t l r d R hg
    | true =>
      have hsg := R.goes.trans hg
      rw [Verif.Json.prun_go hg]
      rw [memRun_go hsg]
      obtain ⟨s1, hd⟩ : ∃ s1, delResult fuel s = .ok (some s1) := by
        obtain ⟨s1, -, -, h, -⟩ := turn (fuel := fuel) (c := .comma) al st trivial R hsg (by omega)
        exact ⟨s1, h⟩
      cases hn : next t with
      | ub => rw [hd]; rfl
      | segv => rw [hd]; rfl
      | ok ct =>
        obtain ⟨c, t1⟩ := ct
        obtain ⟨s1', s', p', h1, h2, h3, R'⟩ := turn al st (hok.step hn).1 R hsg (fuel := fuel) (by omega)
        rw [hd] at h1; cases h1
        have := ih s' p' t1 (l + 4) (r + 1) (d + dupOf p c) (hok.step hn).2 R' (by omega)
        simp only [Res.bind_ok, h3, hd, bindO, h2]
        revert this
        cases hp : prun next N p' t1 with
        | ub => exact id
        | segv => exact id
        | ok o => cases o with
          | none => exact id
          | some q =>
            obtain ⟨p2, t2⟩ := q
            rintro ⟨s2, ts, d', e1, e2, e3, e4, e5⟩
            refine ⟨s2, c :: ts, d', e1, ?_, .cons hn e3, fun rest => ?_, ?_⟩
            · have a1 : l + 4 * (N + 1) = l + 4 + 4 * N := by omega
              have a2 : r + (N + 1) = r + 1 + N := by omega
              rw [a1, a2]; exact e2
            · rw [List.cons_append, Verif.Json.prun_tok hg h3]; exact e4 rest
            · obtain ⟨-, -, -, -, hi, -⟩ := R
              have hg' := Verif.Json.goes_iff.1 hg
              have := pot_step hi hg'.2.2.2 hg'.2.2.1 h3
              rw [colons_cons]
              omega

/-- nothing refers to what is not in memory -/
theorem _root_.Verif.Rc.JsonProps.JG.rc_out {H : JHeap} (J : JG sg E.eqv oth X0 H) {y : Nat} (hy : y ∉ X0.x.s.D) : X0.x.s.rc y = 0 := by
  obtain ⟨A, G, -⟩ := J.mem
  refine rc_zero.2 ⟨?_, fun z hz he => hy (Good.tgt G hz he)⟩
  rcases Nat.eq_zero_or_pos (X0.x.s.ext y) with h | h
  · exact h
  · exact absurd (G.rel.ext y h) hy

/-- the start -/
theorem rel_init {H : JHeap} (al : AlOk E) (J : JG sg E.eqv oth X0 H) :
    RelP E sg oth X0 (memInit E H) pinit 2 0 0 := by
  have k0 : Core sg E.eqv oth X0 X0 H (fun _ => 0) 0 0 0 :=
    ⟨J, ⟨⟨[], by simp, Nat.le_refl _⟩, rfl, fun _ _ => rfl, fun _ _ => rfl, fun _ _ => rfl, fun y hy hn => absurd hy hn,
      fun _ _ => Nat.le_refl _, fun s hs => J.staticIn hs, fun y hy => by rw [J.rc_out hy]; omega⟩, fun y hy hn => absurd hy hn,
      fun y hy hn => absurd hy hn⟩
  have o0 : Own sg X0 X0 [] [] 0 := ⟨by simp, by simp, by simp, fun _ b hb hn => absurd hb hn⟩
  obtain ⟨f1, -⟩ := new_fresh (s := ⟨0, .value, [], none, none, H, 0⟩) al J []
  obtain ⟨X1, k1, o1, -, -⟩ := op_raw (eqvE E) k0 o0 f1 0
  obtain ⟨f2, -⟩ := new_fresh (s := ⟨E.al 0 H.m.h.live [], .value, [], none, none, rawMk H (E.al 0 H.m.h.live []), 1⟩) al k1.J []
  obtain ⟨X2, k2, o2, -, -⟩ := op_raw (eqvE E) k1 o1 f2 0
  refine RelP.of k2 rfl ⟨_, rfl, rfl⟩ ⟨?_, ?_, ?_⟩
  · exact o2
  · intro h; simp [memInit, pushTuple] at h
  · exact ⟨_, _, rfl, rfl, rfl, rfl, rfl⟩

end
end Verif.Rc.ParseProps
