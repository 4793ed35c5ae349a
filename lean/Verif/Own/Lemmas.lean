import Verif.Own.Model
import Verif.Hash.Props
import Verif.Chain.Props

/-! # The hash table in memory refines the table as a value -/

namespace Verif.Own

open Verif.Chain (upd)

/-- whenever only finitely many addresses are in use, the allocator returns an address that is neither NULL nor in use -/
def Malloc.Sound (al : Malloc) : Prop :=
  ∀ i u (l : List Nat), (∀ p, u p = true → p ∈ l) → al.addr i u ≠ 0 ∧ u (al.addr i u) = false

/-- finitely many addresses are in use -/
def Finite (s : St) : Prop := ∃ l : List Nat, ∀ p, used s p = true → p ∈ l

theorem upd_same (f : Nat → α) (a : Nat) (v : α) : upd f a v a = v := by simp [upd]

theorem upd_ne (f : Nat → α) {a x : Nat} (v : α) (h : x ≠ a) : upd f a v x = f x := by simp [upd, h]

theorem upd_self (f : Nat → α) (a : Nat) : upd f a (f a) = f := by
  funext x; simp only [upd]; split
  · next h => rw [h]
  · rfl

theorem upd_upd (f : Nat → α) (a : Nat) (v w : α) : upd (upd f a v) a w = upd f a w := by
  funext x; simp only [upd]; split <;> rfl

theorem upd_comm (f : Nat → α) {a b : Nat} (h : a ≠ b) (v w : α) :
    upd (upd f a v) b w = upd (upd f b w) a v := by
  funext x; simp only [upd]
  by_cases h1 : x = a
  · subst h1; simp [h]
  · simp [h1]

variable {al : Malloc} {text : Nat → Hash.Key}

/-- the entry of the value model -/
def absE (text : Nat → Hash.Key) (x : Ent) : Hash.Entry Ent := if x.1 = 0 then none else some (text x.1, x)

theorem absE_nil (text : Nat → Hash.Key) (d : Nat) : absE text (0, d) = none := rfl

theorem absE_isNone (x : Ent) : (absE text x).isNone = decide (x.1 = 0) := by
  unfold absE; split <;> simp_all

theorem rdEnt_ok {s : St} {e i : Nat} {es : List Ent} {x : Ent} (h : s.mem e = some (.ents es)) (hi : es[i]? = some x) :
    rdEnt s e i = .ok x := by simp only [rdEnt, h, hi]

theorem getTab_ok {s : St} {t e m u : Nat} (h : s.mem t = some (.tab e m u)) : getTab s t = .ok (e, m, u) := by
  simp only [getTab, h]

theorem wrEnt_ok {s : St} {e i : Nat} {es : List Ent} (x : Ent) (h : s.mem e = some (.ents es)) (hi : i < es.length) :
    wrEnt s e i x = .ok { s with mem := upd s.mem e (some (.ents (es.set i x))) } := by
  simp only [wrEnt, h, hi, if_true]

theorem probe_eq {s : St} {e : Nat} {es : List Ent} (he : s.mem e = some (.ents es)) (stop : Ent → Bool)
    (stop' : Hash.Entry Ent → Bool) (hs : ∀ x, stop' (absE text x) = stop x) (mask fuel i j : Nat) :
    probe stop s e mask fuel i j = Hash.probe stop' (es.map (absE text)) mask fuel i j := by
  induction fuel generalizing i j with
  | zero => rfl
  | succ fuel ih =>
    simp only [probe, Hash.probe, rdEnt, he, List.getElem?_map]
    cases es[i &&& mask]? with
    | none => rfl
    | some x =>
      simp only [Res.bind_ok, Option.map_some, hs]
      rw [ih]

theorem lookup_eq {s : St} {t e m u : Nat} {es : List Ent} (ht : s.mem t = some (.tab e m u))
    (he : s.mem e = some (.ents es)) (key : Nat) :
    lookup text s t key = Hash.lookup ⟨es.map (absE text), m, u⟩ (text key) (Hash.keyhash (text key)) := by
  rw [lookup, getTab_ok ht, Res.bind_ok, Hash.lookup]
  refine probe_eq he _ _ (fun x => ?_) _ _ _ _
  unfold absE
  by_cases h : x.1 = 0
  · simp [h, Hash.stopAt]
  · simp [h, Hash.stopAt]

theorem rehash_sim {old new mask : Nat} (hne : old ≠ new) (os : List Ent) (n i : Nat) (hn : n + i = os.length) {s : St}
    {ns : List Ent} (ho : s.mem old = some (.ents os)) (hw : s.mem new = some (.ents ns))
    {es : List (Hash.Entry Ent)}
    (h : Hash.rehash mask ((os.drop i).map (absE text)) (ns.map (absE text)) = .ok es) :
    ∃ ns', rehash text old new mask n i s = .ok { s with mem := upd s.mem new (some (.ents ns')) } ∧
      ns'.map (absE text) = es ∧ ns'.length = ns.length := by
  induction n generalizing i s ns with
  | zero =>
    rw [List.drop_eq_nil_of_le (by omega)] at h
    simp only [List.map_nil, Hash.rehash, Res.ok.injEq] at h
    refine ⟨ns, ?_, h, rfl⟩
    rw [← hw, upd_self]; rfl
  | succ n ih =>
    have hi : i < os.length := by omega
    rw [List.drop_eq_getElem_cons hi, List.map_cons] at h
    simp only [rehash]
    rw [rdEnt_ok ho (List.getElem?_eq_getElem hi), Res.bind_ok]
    by_cases hx : (os[i]).1 = 0
    · simp only [absE, hx, if_true, Hash.rehash] at h
      simp only [hx, ne_eq, not_true_eq_false, if_false]
      exact ih (i + 1) (by omega) ho hw h
    · have : absE text os[i] = some (text (os[i]).1, os[i]) := by simp [absE, hx]
      rw [this] at h
      simp only [Hash.rehash] at h
      rw [if_pos hx, probe_eq hw (fun y => decide (y.1 = 0)) Option.isNone (fun x => absE_isNone x)]
      cases hp : Hash.probe Option.isNone (ns.map (absE text)) mask (mask + 1) (Hash.keyhash (text (os[i]).1)) 1 with
      | ub => rw [hp] at h; simp at h
      | segv => rw [hp] at h; simp at h
      | ok p =>
        rw [hp] at h
        simp only at h
        have hpl : p < ns.length := by
          have : ∀ (f i j : Nat), Hash.probe Option.isNone (ns.map (absE text)) mask f i j = .ok p → p < ns.length := by
            intro f
            induction f with
            | zero => intro i j h; simp [Hash.probe] at h
            | succ f ihf =>
              intro i j h
              unfold Hash.probe at h
              split at h
              · simp at h
              · next x hx =>
                have := (List.getElem?_eq_some_iff.1 hx).1
                split at h
                · simp only [Res.ok.injEq] at h; subst h; simpa using this
                · exact ihf _ _ h
          exact this _ _ _ hp
        rw [Res.bind_ok, wrEnt_ok _ hw hpl, Res.bind_ok]
        have h' : Hash.rehash mask ((os.drop (i + 1)).map (absE text)) ((ns.set p os[i]).map (absE text)) = .ok es := by
          rw [List.map_set, this]; exact h
        obtain ⟨ns', h1, h2, h3⟩ := ih (i + 1) (by omega)
          (s := { s with mem := upd s.mem new (some (.ents (ns.set p os[i]))) }) (by simp only [upd_ne _ _ hne]; exact ho)
          (upd_same ..) h'
        refine ⟨ns', ?_, h2, by rw [h3, List.length_set]⟩
        rw [h1, upd_upd]

/-- what an allocation returns -/
theorem fresh (hal : al.Sound) {s : St} (hf : Finite s) :
    al.addr s.n (used s) ≠ 0 ∧ s.ch.live (al.addr s.n (used s)) = false ∧ s.mem (al.addr s.n (used s)) = none := by
  obtain ⟨l, hl⟩ := hf
  obtain ⟨h0, h1⟩ := hal s.n (used s) l hl
  simp only [used, Bool.or_eq_false_iff, Option.isSome_eq_false_iff, Option.isNone_iff_eq_none] at h1
  exact ⟨h0, h1.1, h1.2⟩

/-- a new table: `p` is where it is -/
def Fresh (s : St) (p : Nat) : Prop := p ≠ 0 ∧ s.ch.live p = false ∧ s.mem p = none

theorem freeP_ok {s : St} {p : Nat} {b : Blk} (h0 : p ≠ 0) (h : s.mem p = some b) :
    freeP s p = .ok { s with mem := upd s.mem p none } := by
  simp only [freeP, h0, if_false, h]

/-- `resize` of an existing table -/
theorem resize_sim (hal : al.Sound) {s : St} (hf : Finite s) {t e m u : Nat} {es : List Ent}
    (ht : s.mem t = some (.tab e m u)) (he : s.mem e = some (.ents es)) (hlen : es.length = m + 1)
    (h0 : e ≠ 0) (nel : Nat) {o : Option (Hash.Tab Ent)}
    (h : Hash.resize (!al.fails s.n) nel ⟨es.map (absE text), m, u⟩ = .ok o) :
    ∃ s', resize al text s t nel = .ok (s', o.isSome) ∧ s'.ch = s.ch ∧ s'.obj = s.obj ∧
      match o with
      | none => s'.mem = s.mem
      | some T => ∃ e' es', Fresh s e' ∧ es'.map (absE text) = T.entries ∧ es'.length = T.mask + 1 ∧ T.used = u ∧
          s'.mem = upd (upd (upd s.mem e none) e' (some (.ents es'))) t (some (.tab e' T.mask u)) := by
  obtain ⟨r0, rl, rm⟩ := fresh hal hf
  unfold Hash.resize at h
  simp only [resize, getTab_ok ht, Res.bind_ok, calloc]
  by_cases hc : Hash.callocOk (!al.fails s.n) (Hash.tabSize nel) = true
  · rw [if_pos hc] at h
    have hc' : (!al.fails s.n && decide (Hash.tabSize nel * 16 < 2 ^ 64)) = true := hc
    rw [if_pos hc']
    simp only [take]
    simp only [r0, h0, if_false]
    generalize hr : al.addr s.n (used s) = r at r0 rl rm
    have htr : t ≠ r := by rintro rfl; rw [rm] at ht; simp at ht
    have her : e ≠ r := by rintro rfl; rw [rm] at he; simp at he
    have hte : t ≠ e := by rintro rfl; rw [he] at ht; simp at ht
    have hpos : 0 < Hash.tabSize nel := by
      obtain ⟨k, _, hk⟩ := Hash.tabSize_pow nel
      rw [hk]; exact Nat.two_pow_pos k
    cases hh : Hash.rehash (Hash.tabSize nel - 1) (es.map (absE text)) (List.replicate (Hash.tabSize nel) none) with
    | ub => rw [hh] at h; simp at h
    | segv => rw [hh] at h; simp at h
    | ok es2 =>
      rw [hh] at h
      simp only [Res.ok.injEq] at h
      subst h
      have hh' : Hash.rehash (Hash.tabSize nel - 1) ((es.drop 0).map (absE text))
          ((List.replicate (Hash.tabSize nel) ((0, 0) : Ent)).map (absE text)) = .ok es2 := by
        simpa [absE_nil] using hh
      obtain ⟨ns', g1, g2, g3⟩ := rehash_sim (s := ⟨s.ch, s.obj, upd (upd s.mem r
          (some (.ents (List.replicate (Hash.tabSize nel) (0, 0))))) t (some (.tab r (Hash.tabSize nel - 1) u)), s.n + 1⟩)
        her es (m + 1) 0 (by omega) (by simp only [upd_ne _ _ hte.symm, upd_ne _ _ her]; exact he)
        (by simp only [upd_ne _ _ htr.symm, upd_same]) hh'
      rw [g1, Res.bind_ok]
      rw [freeP_ok (b := .ents es) h0 (by simp only [upd_ne _ _ her, upd_ne _ _ hte.symm]; exact he), Res.bind_ok]
      refine ⟨_, rfl, rfl, rfl, r, ns', ⟨r0, rl, rm⟩, g2, by rw [g3]; simp; omega, rfl, ?_⟩
      funext x
      simp only [upd]
      by_cases h1 : x = t
      · subst h1; simp [htr, hte]
      · by_cases h2 : x = e
        · subst h2; simp [h1, her]
        · by_cases h3 : x = r
          · rw [h3]; simp [htr.symm, her.symm]
          · simp [h1, h2, h3]
  · rw [if_neg hc] at h
    have hc' : ¬ (!al.fails s.n && decide (Hash.tabSize nel * 16 < 2 ^ 64)) = true := hc
    rw [if_neg hc']
    simp only [Res.ok.injEq] at h
    subst h
    exact ⟨_, rfl, rfl, rfl, rfl⟩

theorem Finite.congr {s s' : St} (hf : Finite s) (hc : s'.ch = s.ch) (hm : ∀ p, s'.mem p ≠ none → s.mem p ≠ none) :
    Finite s' := by
  obtain ⟨l, hl⟩ := hf
  refine ⟨l, fun p hp => hl p ?_⟩
  simp only [used, Bool.or_eq_true, hc, Option.isSome_iff_ne_none] at hp ⊢
  exact hp.imp id (hm p)

theorem Finite.upd {s : St} (hf : Finite s) (p : Nat) (b : Option Blk) (n : Nat) :
    Finite ⟨s.ch, s.obj, upd s.mem p b, n⟩ := by
  obtain ⟨l, hl⟩ := hf
  refine ⟨p :: l, fun q hq => ?_⟩
  simp only [used, Bool.or_eq_true, Verif.Chain.upd] at hq
  by_cases h : q = p
  · simp [h]
  · refine List.mem_cons_of_mem _ (hl q ?_)
    simpa only [used, Bool.or_eq_true, h, if_false] using hq

/-- `musl_hsearch_r(.., ENTER, ..)` -/
theorem henter_sim (hal : al.Sound) {s : St} (hf : Finite s) {t e m u : Nat} {es : List Ent}
    (ht : s.mem t = some (.tab e m u)) (he : s.mem e = some (.ents es)) (hlen : es.length = m + 1)
    (h0 : e ≠ 0) {key data : Nat} (hk : key ≠ 0) {o : Option Nat} {T : Hash.Tab Ent}
    (h : Hash.henter (!al.fails s.n) ⟨es.map (absE text), m, u⟩ (text key) (key, data) = .ok (o, T)) :
    ∃ s', henter al text s t key data = .ok (s', o.isSome) ∧ s'.ch = s.ch ∧ s'.obj = s.obj ∧
      ∃ e' es', (e' = e ∨ Fresh s e') ∧ es'.map (absE text) = T.entries ∧ es'.length = T.mask + 1 ∧
          s'.mem = upd (upd (upd s.mem e none) e' (some (.ents es'))) t (some (.tab e' T.mask T.used)) := by
  have hte : t ≠ e := by rintro rfl; rw [he] at ht; simp at ht
  have hsame : s.mem = upd (upd (upd s.mem e none) e (some (.ents es))) t (some (.tab e m u)) := by
    rw [upd_upd, ← he, upd_self, ← ht, upd_self]
  unfold Hash.henter at h
  simp only [henter, hk, if_false, lookup_eq ht he, getTab_ok ht]
  cases hl : Hash.lookup ⟨es.map (absE text), m, u⟩ (text key) (Hash.keyhash (text key)) with
  | ub => rw [hl] at h; simp at h
  | segv => rw [hl] at h; simp at h
  | ok p =>
    rw [hl] at h
    simp only [List.getElem?_map] at h
    simp only [Res.bind_ok]
    cases hx : es[p]? with
    | none => rw [hx] at h; simp at h
    | some x =>
      rw [hx] at h
      simp only [Option.map_some] at h
      rw [rdEnt_ok he hx, Res.bind_ok]
      by_cases hx0 : x.1 = 0
      · have hax : absE text x = none := by simp [absE, hx0]
        rw [hax] at h
        simp only at h
        have hpl : p < es.length := (List.getElem?_eq_some_iff.1 hx).1
        simp only [hx0, ne_eq, not_true_eq_false, if_false]
        rw [wrEnt_ok _ he hpl, Res.bind_ok]
        have hset : (es.map (absE text)).set p (some (text key, (key, data))) = (es.set p (key, data)).map (absE text) := by
          rw [List.map_set]; simp [absE, hk]
        simp only [hset] at h
        simp only
        by_cases hgrow : m - m / 4 < add64 u 1
        · rw [if_pos hgrow] at h
          rw [if_pos hgrow]
          have ht1 : (upd (upd s.mem e (some (.ents (es.set p (key, data))))) t (some (.tab e m (add64 u 1)))) t =
              some (.tab e m (add64 u 1)) := upd_same ..
          have he1 : (upd (upd s.mem e (some (.ents (es.set p (key, data))))) t (some (.tab e m (add64 u 1)))) e =
              some (.ents (es.set p (key, data))) := by rw [upd_ne _ _ hte.symm, upd_same]
          cases hres : Hash.resize (!al.fails s.n) (mul64 2 (add64 u 1))
              ⟨(es.set p (key, data)).map (absE text), m, add64 u 1⟩ with
          | ub => rw [hres] at h; simp at h
          | segv => rw [hres] at h; simp at h
          | ok r =>
            obtain ⟨s2, g1, g2, g3, g4⟩ := resize_sim hal (s := ⟨s.ch, s.obj, upd (upd s.mem e
                (some (.ents (es.set p (key, data))))) t (some (.tab e m (add64 u 1))), s.n⟩)
              ((hf.upd e _ s.n).upd t _ s.n) ht1 he1 (by simpa using hlen) h0 _ hres
            rw [g1, Res.bind_ok]
            rw [hres] at h
            cases r with
            | none =>
              simp only [Res.ok.injEq, Prod.mk.injEq] at h
              obtain ⟨rfl, rfl⟩ := h
              simp only at g4
              simp only [Option.isSome_none, Bool.false_eq_true, if_false]
              rw [rdEnt_ok (es := es.set p (key, data)) (x := (key, data))
                (by simp only [upd_ne _ _ hte.symm, g4]; exact upd_same ..) (by simp [hpl]), Res.bind_ok]
              rw [wrEnt_ok (es := es.set p (key, data)) _ (by simp only [upd_ne _ _ hte.symm, g4]; exact upd_same ..)
                (by simpa using hpl), Res.bind_ok]
              refine ⟨_, rfl, g2, g3, e, es.set p (0, data), .inl rfl, ?_, by simpa using hlen, ?_⟩
              · rw [List.map_set, List.map_set, absE_nil, List.set_set]
              · simp only [g4, List.set_set]
                funext q
                simp only [upd]
                by_cases q1 : q = t
                · subst q1; simp [hte]
                · by_cases q2 : q = e
                  · subst q2; simp [q1]
                  · simp [q1, q2]
            | some T2 =>
              simp only at g4
              obtain ⟨e', es', f1, f2, f3, f4, f5⟩ := g4
              simp only at h
              have het : e' ≠ t := by rintro rfl; have := f1.2.2; simp [upd] at this
              have hee : e' ≠ e := by rintro rfl; have := f1.2.2; simp [upd, het] at this
              cases hl2 : Hash.lookup T2 (text key) (Hash.keyhash (text key)) with
              | ub => rw [hl2] at h; simp at h
              | segv => rw [hl2] at h; simp at h
              | ok q =>
                rw [hl2] at h
                simp only [Res.ok.injEq, Prod.mk.injEq] at h
                obtain ⟨rfl, rfl⟩ := h
                have hl3 : lookup text s2 t key = .ok q := by
                  rw [lookup_eq (e := e') (es := es') (by rw [f5]; exact upd_same ..)
                    (by rw [f5, upd_ne _ _ het, upd_same]), f2, ← f4]
                  exact hl2
                simp only [Option.isSome_some, if_true]
                rw [hl3, Res.bind_ok]
                refine ⟨_, rfl, g2, g3, e', es', .inr ⟨f1.1, f1.2.1, ?_⟩, f2, f3, ?_⟩
                · have := f1.2.2
                  simpa only [upd_ne _ _ het, upd_ne _ _ hee] using this
                · rw [f5, f4]
                  funext q
                  simp only [upd]
                  by_cases q1 : q = t
                  · simp [q1]
                  · by_cases q2 : q = e
                    · subst q2; simp [q1]
                    · simp [q1, q2]
        · rw [if_neg hgrow] at h
          rw [if_neg hgrow]
          simp only [Res.ok.injEq, Prod.mk.injEq] at h
          obtain ⟨rfl, rfl⟩ := h
          refine ⟨_, rfl, rfl, rfl, e, es.set p (key, data), .inl rfl, rfl, by simpa using hlen, ?_⟩
          simp only [upd_upd]
      · have hax : absE text x = some (text x.1, x) := by simp [absE, hx0]
        rw [hax] at h
        simp only [Res.ok.injEq, Prod.mk.injEq] at h
        obtain ⟨rfl, rfl⟩ := h
        rw [if_pos hx0]
        exact ⟨s, rfl, rfl, rfl, e, es, .inl rfl, rfl, hlen, hsame⟩

/-- `musl_hcreate_r` -/
theorem hcreate_sim (hal : al.Sound) {s : St} (hf : Finite s) (nel : Nat) :
    (∃ s' t e, hcreate al text s nel = .ok (s', t) ∧ s'.ch = s.ch ∧ s'.obj = s.obj ∧ Fresh s t ∧ Fresh s e ∧ t ≠ e ∧
      s'.mem = upd (upd s.mem e (some (.ents (List.replicate (Hash.tabSize nel) (0, 0))))) t
        (some (.tab e (Hash.tabSize nel - 1) 0)) ∧ Hash.tabSize nel * 16 < 2 ^ 64) ∨
    (∃ s', hcreate al text s nel = .ok (s', 0) ∧ s'.ch = s.ch ∧ s'.obj = s.obj ∧ s'.mem = s.mem ∧
      ((∃ i, al.fails i = true) ∨ 2 ^ 64 ≤ Hash.tabSize nel * 16)) := by
  obtain ⟨r0, rl, rm⟩ := fresh hal hf
  simp only [hcreate, calloc, Bool.and_true]
  cases hf1 : al.fails s.n with
  | true => exact .inr ⟨_, rfl, rfl, rfl, rfl, .inl ⟨_, hf1⟩⟩
  | false =>
    simp only [Bool.not_false, if_true, take, r0, if_false]
    have hf2 := hf.upd (al.addr s.n (used s)) (some (.tab 0 0 0)) (s.n + 1)
    obtain ⟨q0, ql, qm⟩ := fresh hal hf2
    generalize al.addr s.n (used s) = t at *
    simp only [resize, getTab, upd_same, Res.bind_ok, calloc, take, if_true]
    by_cases hc : (!al.fails (s.n + 1) && decide (Hash.tabSize nel * 16 < 2 ^ 64)) = true
    · simp only [hc, if_true]
      simp only at q0 ql qm
      simp only [q0, if_false, Res.bind_ok, if_true]
      generalize al.addr (s.n + 1) (used ⟨s.ch, s.obj, upd s.mem t (some (.tab 0 0 0)), s.n + 1⟩) = e at *
      have het : e ≠ t := by rintro rfl; simp [upd] at qm
      rw [upd_ne _ _ het] at qm
      refine .inl ⟨_, t, e, rfl, rfl, rfl, ⟨r0, rl, rm⟩, ⟨q0, ql, qm⟩, het.symm, ?_, ?_⟩
      · simp only
        rw [upd_comm _ het.symm, upd_upd]
      · simpa using (Bool.and_eq_true_iff.1 hc).2
    · simp only [hc, Bool.false_eq_true, if_false, if_true, Res.bind_ok]
      rw [freeP_ok (b := .tab 0 0 0) r0 (by simp only [upd_same])]
      refine .inr ⟨_, rfl, rfl, rfl, ?_, ?_⟩
      · simp only [upd_upd, ← rm, upd_self]
      · rw [Bool.and_eq_true, not_and_or] at hc
        rcases hc with hc | hc
        · exact .inl ⟨s.n + 1, by simpa using hc⟩
        · exact .inr (by simpa using hc)

/-- `musl_hsearch_r(.., FIND, ..)` -/
theorem hfind_sim {s : St} {t e m u : Nat} {es : List Ent} (ht : s.mem t = some (.tab e m u))
    (he : s.mem e = some (.ents es)) {key : Nat} (hk : key ≠ 0) {o : Option Nat}
    (h : Hash.hfind ⟨es.map (absE text), m, u⟩ (text key) = .ok o) :
    ∃ x, hfind text s t key = .ok x ∧
      match o with
      | none => x = none
      | some p => ∃ y, x = some y ∧ (es.map (absE text))[p]? = some (some (text y.1, y)) := by
  unfold Hash.hfind at h
  simp only [hfind, hk, if_false, lookup_eq ht he, getTab_ok ht]
  cases hl : Hash.lookup ⟨es.map (absE text), m, u⟩ (text key) (Hash.keyhash (text key)) with
  | ub => rw [hl] at h; simp at h
  | segv => rw [hl] at h; simp at h
  | ok p =>
    rw [hl] at h
    simp only [List.getElem?_map] at h
    simp only [Res.bind_ok]
    cases hx : es[p]? with
    | none => rw [hx] at h; simp at h
    | some x =>
      rw [hx] at h
      rw [rdEnt_ok he hx, Res.bind_ok]
      by_cases hx0 : x.1 = 0
      · simp only [Option.map_some, absE, hx0, if_true, Res.ok.injEq] at h
        subst h
        exact ⟨none, by simp [hx0], rfl⟩
      · simp only [Option.map_some, absE, hx0, if_false, Res.ok.injEq] at h
        subst h
        refine ⟨some x, by simp [hx0], x, rfl, ?_⟩
        rw [List.getElem?_map, hx]
        simp [absE, hx0]

end Verif.Own
