import Verif.Json.Files

/-!
# Documents that are cut off

The texts of arrays and objects are prefix-free up to white space, whatever is read is determined by the bytes that are read, and so
what is left of a document after a failed save is never taken for another one.
-/

namespace Verif.Json

theorem space_of_isWs {c : Byte} (h : isWs c = true) : Space c := by
  simp only [isWs, Bool.or_eq_true, beq_iff_eq] at h
  unfold Space
  rcases h with ((h | h) | h) | h <;> simp [h]

theorem Lexeme.start [Libc] {w : List Byte} {t : Tok} (h : Lexeme w t) : ∃ c m, w = c :: m ∧ isWs c = false := by
  cases h with
  | num h =>
    obtain ⟨c, m, rfl, hc⟩ := h.start
    refine ⟨c, m, rfl, ?_⟩
    rw [Bool.or_eq_true, beq_iff_eq, isDigit_iff] at hc
    rcases hc with rfl | hc
    · rfl
    · have : c ≠ 10 ∧ c ≠ 13 ∧ c ≠ 32 ∧ c ≠ 9 := by
        refine ⟨?_, ?_, ?_, ?_⟩ <;> (rintro rfl; revert hc; decide)
      simp [isWs, this]
  | _ => exact ⟨_, _, rfl, rfl⟩

/-- only the brackets start with brackets -/
theorem Lexeme.bracket [Libc] {c : Byte} {m : List Byte} {t : Tok} (h : Lexeme (c :: m) t) :
    (c = 91 ↔ t = .lb) ∧ (c = 123 ↔ t = .lc) := by
  generalize hw : c :: m = w at h
  cases h with
  | num h =>
    obtain ⟨c', m', rfl, hc⟩ := h.start
    cases hw
    constructor
    · refine ⟨?_, by rintro ⟨⟩⟩; rintro rfl; exact absurd hc (by decide)
    · refine ⟨?_, by rintro ⟨⟩⟩; rintro rfl; exact absurd hc (by decide)
  | _ => cases hw; simp

theorem spells_head [Libc] {w : List Byte} {t : Tok} {ts : List Tok} (h : Spells w (t :: ts)) :
    ∃ ws l s, w = ws ++ (l ++ s) ∧ (∀ c ∈ ws, isWs c = true) ∧ Lexeme l t ∧ Spells s ts := by
  generalize hts : t :: ts = us at h
  induction h with
  | nil => cases hts
  | ws hc hs ih =>
    rename_i c s us
    obtain ⟨ws, l, s', rfl, h1, h2, h3⟩ := ih hts
    exact ⟨c :: ws, l, s', rfl, by rw [List.forall_mem_cons]; exact ⟨space_isWs hc, h1⟩, h2, h3⟩
  | tok hl hs ih => cases hts; exact ⟨[], _, _, rfl, by simp, hl, hs⟩

theorem spells_nil [Libc] {w : List Byte} (h : Spells w []) : ∀ c ∈ w, isWs c = true := by
  generalize hts : ([] : List Tok) = us at h
  induction h with
  | nil => simp
  | ws hc hs ih => rw [List.forall_mem_cons]; exact ⟨space_isWs hc, ih hts⟩
  | tok hl hs ih => cases hts

theorem spells_last [Libc] : ∀ {ts : List Tok} {w : List Byte} {t : Tok}, Spells w (ts ++ [t]) →
    ∃ q l ws, w = q ++ (l ++ ws) ∧ Spells q ts ∧ Lexeme l t ∧ ∀ c ∈ ws, isWs c = true := by
  intro ts
  induction ts with
  | nil =>
    intro w t h
    obtain ⟨ws, l, s, rfl, h1, h2, h3⟩ := spells_head h
    have := Spells.space (fun c hc => space_of_isWs (h1 c hc)) Spells.nil
    rw [List.append_nil] at this
    exact ⟨ws, l, s, rfl, this, h2, spells_nil h3⟩
  | cons u us ih =>
    intro w t h
    obtain ⟨ws, l, s, rfl, h1, h2, h3⟩ := spells_head h
    obtain ⟨q, l', ws', rfl, h4, h5, h6⟩ := ih h3
    exact ⟨ws ++ (l ++ q), l', ws', by simp, Spells.space (fun c hc => space_of_isWs (h1 c hc)) (.tok h2 h4), h5, h6⟩

/-- where white space ends -/
theorem ws_split {as bs : List Byte} {a b : Byte} {xs ys : List Byte} (ha : ∀ c ∈ as, isWs c = true) (hb : ∀ c ∈ bs, isWs c = true)
    (h1 : isWs a = false) (h2 : isWs b = false) (h : as ++ a :: xs = bs ++ b :: ys) : a = b := by
  induction as generalizing bs with
  | nil =>
    cases bs with
    | nil => simpa using (List.cons.inj h).1
    | cons c bs =>
      rw [List.forall_mem_cons] at hb
      have := (List.cons.inj h).1
      subst this
      rw [hb.1] at h1; cases h1
  | cons c as ih =>
    rw [List.forall_mem_cons] at ha
    cases bs with
    | nil =>
      have := (List.cons.inj h).1
      subst this
      rw [ha.1] at h2; cases h2
    | cons d bs =>
      rw [List.forall_mem_cons] at hb
      exact ih ha.2 hb.2 (List.cons.inj h).2

theorem Plain.front {ts us : List Tok} : ∀ {b : Bool}, Plain b (ts ++ us) → Plain b ts := by
  induction ts with
  | nil => intro b _; trivial
  | cons c ts ih =>
    intro b h
    cases c <;> first | exact ih h | exact ⟨h.1, ih h.2⟩ | exact h.elim

/-- arrays and objects -/
def Syn.isDoc : Syn → Bool
  | .arr .. => true
  | .obj .. => true
  | _ => false

theorem isDoc_iff (x : Syn) : x.isDoc = true ↔ ∀ a, x.val ≠ .atom a := by
  cases x <;> simp [Syn.isDoc, Syn.val]

theorem isDoc_last {x : Syn} (h : x.isDoc = true) : ∃ ts, x.toks = ts ++ [.rb] ∨ x.toks = ts ++ [.rc] := by
  cases x with
  | arr xs tr => exact ⟨.lb :: (List.intercalate [.comma] (toksL xs) ++ (if tr && !(toksL xs).isEmpty then [.comma] else [])), .inl rfl⟩
  | obj xs tr => exact ⟨.lc :: (List.intercalate [.comma] (toksF xs) ++ (if tr && !(toksF xs).isEmpty then [.comma] else [])), .inr rfl⟩
  | _ => cases h

theorem isDoc_first {x : Syn} : x.isDoc = true ↔ ∃ ts, x.toks = .lb :: ts ∨ x.toks = .lc :: ts := by
  cases x with
  | arr xs tr => exact ⟨fun _ => ⟨_, .inl rfl⟩, fun _ => rfl⟩
  | obj xs tr => exact ⟨fun _ => ⟨_, .inr rfl⟩, fun _ => rfl⟩
  | _ => simp [Syn.isDoc, Syn.toks]

/-- the text of an array or object is read up to its closing bracket, whatever follows -/
theorem doc_lexes [Libc] {w : List Byte} {x : Syn} (h : Spells w x.toks) (hx : x.isDoc = true) (hlen : w.length < 2 ^ 31) :
    ∃ q ws, w = q ++ ws ∧ (∀ c ∈ ws, isWs c = true) ∧ Lexes Any q x.toks := by
  have key : ∀ {ts : List Tok} {t : Tok} {b : Byte}, x.toks = ts ++ [t] → Lexes Any [b] [t] →
      (∀ l, Lexeme l t → l = [b]) → (isDigit b = false ∧ b ≠ 46 ∧ b ≠ 101 ∧ b ≠ 69) →
      ∃ q ws, w = q ++ ws ∧ (∀ c ∈ ws, isWs c = true) ∧ Lexes Any q x.toks := by
    intro ts t b e hb hl hd
    rw [e] at h
    obtain ⟨q, l, ws, rfl, h1, h2, h3⟩ := spells_last h
    cases hl l h2
    simp only [List.length_append] at hlen
    have hp : Plain false (ts ++ [t]) := by rw [← e]; exact plain_doc x
    refine ⟨q ++ [b], ws, by simp, h3, ?_⟩
    rw [e]
    exact (spells_lexes h1 hp.front (by omega)).1.append hb (fun _ _ => numEnd_cons _ hd)
  obtain ⟨ts, e | e⟩ := isDoc_last hx
  · exact key e lexes_rb (fun l h => by cases h; rfl) (by decide)
  · exact key e lexes_rc (fun l h => by cases h; rfl) (by decide)

/-- what comes from a source is determined -/
theorem yields_det {σ : Type} {next : σ → Res (Tok × σ)} {t a b : σ} {as bs : List Tok} (h : Yields next t as a) :
    Yields next t bs b → (∃ r, as ++ r = bs ∧ Yields next a r b) ∨ ∃ r, bs ++ r = as ∧ Yields next b r a := by
  induction h generalizing bs with
  | nil t => intro h; exact .inl ⟨bs, rfl, h⟩
  | @cons t t1 t2 c cs hn hs ih =>
    intro h2
    cases h2 with
    | nil => exact .inr ⟨c :: cs, rfl, .cons hn hs⟩
    | cons hn' hs' =>
      rw [hn] at hn'; cases hn'
      rcases ih hs' with ⟨r, h, hr⟩ | ⟨r, h, hr⟩
      · exact .inl ⟨r, by rw [List.cons_append, h], hr⟩
      · exact .inr ⟨r, by rw [List.cons_append, h], hr⟩

/-- a text that starts with the text of an array or object and is a document itself: it has the same value, and the
rest is white space -/
theorem doc_prefix [Libc] {p rest : List Byte} {x y : Syn} (hd : x.isDoc = true ∨ y.isDoc = true) (hlen : (p ++ rest).length < 2 ^ 31)
    (hx : Spells (p ++ rest) x.toks) (hy : Spells p y.toks) :
    x.isDoc = true ∧ y.isDoc = true ∧ x.val = y.val ∧ x.depth = y.depth ∧ ∀ c ∈ rest, isWs c = true := by
  -- both start with the same bracket
  obtain ⟨tx, us, ex⟩ : ∃ t ts, x.toks = t :: ts := by
    cases x <;> simp [Syn.toks]
  obtain ⟨ty, vs, ey⟩ : ∃ t ts, y.toks = t :: ts := by
    cases y <;> simp [Syn.toks]
  have hsame : x.isDoc = y.isDoc := by
    have h1 := hx; have h2 := hy
    rw [ex] at h1; rw [ey] at h2
    obtain ⟨w1, l1, s1, e1, a1, b1, -⟩ := spells_head h1
    obtain ⟨w2, l2, s2, e2, a2, b2, -⟩ := spells_head h2
    obtain ⟨c1, m1, rfl, g1⟩ := b1.start
    obtain ⟨c2, m2, rfl, g2⟩ := b2.start
    have : c1 = c2 := by
      refine ws_split (as := w1) (bs := w2) (xs := m1 ++ s1) (ys := m2 ++ s2 ++ rest) a1 a2 g1 g2 ?_
      rw [e2] at e1
      simpa using e1.symm
    subst this
    have k1 := b1.bracket; have k2 := b2.bracket
    rw [Bool.eq_iff_iff, isDoc_first, isDoc_first, ex, ey]
    simp only [List.cons.injEq, exists_or, exists_and_left, exists_eq', and_true]
    rw [← k1.1, ← k1.2, ← k2.1, ← k2.2]
  have hx' : x.isDoc = true := hd.elim id hsame.trans
  have hy' : y.isDoc = true := hsame.symm.trans hx'
  have hlp : p.length < 2 ^ 31 := by rw [List.length_append] at hlen; omega
  obtain ⟨q1, ws1, e1, hw1, lx⟩ := doc_lexes hx hx' hlen
  obtain ⟨q2, ws2, rfl, hw2, ly⟩ := doc_lexes hy hy' hlp
  obtain ⟨v1, l1, hv1, y1⟩ := lx ws1 ws1.length 0 trivial
  obtain ⟨v2, l2, hv2, y2⟩ := ly (ws2 ++ rest) (ws2 ++ rest).length 0 trivial
  rw [← List.length_append, ← e1] at y1
  rw [← List.length_append, ← List.append_assoc] at y2
  have fin : ∀ {r : List Tok} {a b : Tz}, Yields nextToken a r b → r = [] → a = b := by
    intro r a b h hr; subst hr; cases h; rfl
  have main : x.val = y.val ∧ x.depth = y.depth ∧
      (⟨v1 ++ ws1, v1.length + ws1.length, l1⟩ : Tz) = ⟨v2 ++ (ws2 ++ rest), v2.length + (ws2 ++ rest).length, l2⟩ := by
    rcases yields_det y1 y2 with ⟨r, h, hr⟩ | ⟨r, h, hr⟩
    · obtain ⟨h1, h2, h3⟩ := uniq x y r [] (by rw [h, List.append_nil])
      exact ⟨h1, h2, fin hr h3⟩
    · obtain ⟨h1, h2, h3⟩ := uniq y x r [] (by rw [h, List.append_nil])
      exact ⟨h1.symm, h2.symm, (fin hr h3).symm⟩
  refine ⟨hx', hy', main.1, main.2.1, fun c hc => ?_⟩
  have hm := congrArg Tz.mem main.2.2
  simp only at hm
  have : c ∈ v1 ++ ws1 := by rw [hm]; simp [hc]
  rcases List.mem_append.1 this with h | h
  · exact hv1 c h
  · exact hw1 c h

end Verif.Json

namespace Verif.Json.Props

open Verif.Json

/-! ## C108 -/

theorem buffer_refused [Libc] {n len : Nat} {mem : List Byte} (h : ∃ t, parsex n mem len true = .ok (some (.einval, t))) :
    (∃ t, parsex n mem len true = .ok (some (.einval, t))) ∧ loadBuffer n mem len = .ok (some none) := by
  refine ⟨h, ?_⟩
  obtain ⟨t, h⟩ := h
  rw [loadBuffer, h]; rfl

/-- **C108**: of the text of an array or object every beginning that lacks the closing bracket is refused -/
theorem C108_cut [Libc] (p rest extra : List Byte) (x : Syn) (hx : Spells (p ++ rest) x.toks) (hv : ∀ a, x.val ≠ .atom a)
    (hr : ∃ c ∈ rest, ¬ Space c) (hlen : (p ++ rest).length < 2 ^ 31) (hlen' : p.length + extra.length + 1 < 2 ^ 31) (n : Nat)
    (hn : p.length + extra.length + 1 ≤ n) : (∃ t, parsex n (p ++ 0 :: extra) p.length true = .ok (some (.einval, t))) ∧
      loadBuffer n (p ++ 0 :: extra) p.length = .ok (some none) := by
  have h0 : 0 ∉ p := fun h => hx.nul (List.mem_append_left _ h)
  refine buffer_refused (C92_rejects p extra h0 hlen' n hn ?_)
  rintro ⟨y, hy, -⟩
  obtain ⟨c, hc, hs⟩ := hr
  exact hs (space_of_isWs ((doc_prefix (.inl ((isDoc_iff x).2 hv)) hlen hx hy).2.2.2.2 c hc))

/-- **C108**: the text of an array or object that goes on with anything but white space is refused -/
theorem C108_more [Libc] (p rest extra : List Byte) (x : Syn) (hx : Spells p x.toks) (hv : ∀ a, x.val ≠ .atom a) (h0 : 0 ∉ rest)
    (hr : ∃ c ∈ rest, ¬ Space c) (hlen : (p ++ rest).length + extra.length + 1 < 2 ^ 31) (n : Nat)
    (hn : (p ++ rest).length + extra.length + 1 ≤ n) :
    (∃ t, parsex n (p ++ rest ++ 0 :: extra) (p ++ rest).length true = .ok (some (.einval, t))) ∧
      loadBuffer n (p ++ rest ++ 0 :: extra) (p ++ rest).length = .ok (some none) := by
  have h0' : 0 ∉ p ++ rest := by
    rw [List.mem_append, not_or]; exact ⟨hx.nul, h0⟩
  refine buffer_refused (C92_rejects (p ++ rest) extra h0' hlen n hn ?_)
  rintro ⟨y, hy, -⟩
  obtain ⟨c, hc, hs⟩ := hr
  exact hs (space_of_isWs ((doc_prefix (.inr ((isDoc_iff x).2 hv)) (by omega) hy hx).2.2.2.2 c hc))

/-- **C108**: an array or object is loaded from a buffer whatever follows its text in the memory -/
theorem C108_buffer [Libc] (p rest : List Byte) (x : Syn) (hx : Spells p x.toks) (hv : ∀ a, x.val ≠ .atom a) (hd : x.depth ≤ 511)
    (hlen : p.length < 2 ^ 31) (n : Nat) (hn : p.length ≤ n) : loadBuffer n (p ++ rest) p.length = .ok (some (some x.val)) := by
  have hl := spells_length hx
  obtain ⟨q, ws, rfl, hws, h⟩ := doc_lexes hx ((isDoc_iff x).2 hv) hlen
  obtain ⟨ws', line1, hws', hy⟩ := h (ws ++ rest) ws.length 0 trivial
  obtain ⟨line2, e⟩ := skip_ws (ws' ++ ws) (by
    intro c hc
    rcases List.mem_append.1 hc with hc | hc
    · exact hws' c hc
    · exact hws c hc) rest 0 line1
  have hp : parsex n (q ++ (ws ++ rest)) (q.length + ws.length) true = .ok (some (.value (some x.val), ⟨rest, 0, line2⟩)) := by
    refine (parsex_of_yields n hy hd (by omega)).2 ⟨rest, 0, line2⟩ ?_
    simp only [List.append_assoc, List.length_append, Nat.add_zero] at e
    rw [e]; exact nextToken_step (by rw [tokenStep, if_pos rfl])
  rw [loadBuffer, List.append_assoc, List.length_append, hp]; rfl

/-- **C108**: what the parser answers is determined by the bytes it reads: if it stays within the memory, then whatever comes
after this memory, the answer is the same, and so is the position -/
theorem C108_local [Libc] (n len : Nat) (mem extra : List Byte) (f : Bool) (r : PResult) (t : Tz)
    (h : parsex n mem len f = .ok (some (r, t))) :
    ∃ t', parsex n (mem ++ extra) len f = .ok (some (r, t')) ∧ t'.left = t.left ∧ t'.line = t.line ∧ t'.mem = t.mem ++ extra :=
  ⟨t.more extra, parsex_more h extra, rfl, rfl, rfl⟩

theorem saveSys_eq [Libc] {n : Nat} {f : Bool} {v : Val} {text : List Byte} (h : Prints n f v text) (wr : Nat → Option Nat) :
    saveSys n f v wr = .ok (some (match wr text.length with
      | none => ([], false)
      | some k => ((text.take k).map some, decide (k = text.length)))) := by
  rw [saveSys, h.snprint_null, Res.bind_ok]
  obtain ⟨b, e, h1, h2⟩ := h.snprint_buf (List.replicate (text.length + 1) none) (by simp)
  simp only [e, Res.map, Option.map, Option.getD_some, Res.ok.injEq, Option.some.injEq]
  have := congrArg (List.take text.length) h2
  rw [List.take_take, Nat.min_eq_left (by omega)] at this
  rw [this]
  cases wr text.length with
  | none => rfl
  | some k => simp [List.map_take]

/-- what is accepted is the text of a document -/
theorem accepted [Libc] {n : Nat} {p extra : List Byte} {v : Option Val} {t : Tz} (h0 : 0 ∉ p)
    (h : parsex n (p ++ 0 :: extra) p.length true = .ok (some (.value v, t))) : ∃ x : Syn, Spells p x.toks ∧ v = some x.val := by
  obtain ⟨x, t', hy, hd, hv, he⟩ := parsex_doc h
  obtain ⟨h1, h2⟩ := (plain_doc x).no_end
  obtain ⟨pre, s', rfl, hsp, hat⟩ := yields_spells (extra := extra) hy ⟨rfl, rfl⟩ h0 h1 h2
  simp only [List.mem_append, not_or] at h0
  refine ⟨x, ?_, hv⟩
  rcases nextTokenN_sound _ hat h0.2 (he rfl) with ⟨-, hws⟩ | h | ⟨h, -⟩
  · exact hsp.space_end hws
  · cases h
  · exact absurd rfl h

/-- what a value is read from is the text of it and of no other value -/
theorem load_doc [Libc] {m : Nat} {p : List Byte} {w : Val} (h0 : 0 ∉ p)
    (h : loadSys m ⟨some p.length, p⟩ = .ok (some (some w))) :
    ∃ y : Syn, Spells p y.toks ∧ y.val = w := by
  rw [loadSys] at h
  obtain ⟨r, hr, h⟩ := map_eq_ok.1 h
  cases r with
  | none => cases h
  | some r =>
    obtain ⟨r, t⟩ := r
    cases r with
    | einval => cases h
    | value v =>
      simp only [Option.map_some, Option.some.injEq] at h
      subst h
      obtain ⟨y, h1, h2⟩ := accepted h0 (parsex_more hr [0])
      exact ⟨y, h1, (Option.some.inj h2).symm⟩

theorem render_doc [Libc] (f : Bool) (v : Val) (ha : v.All rtAtom rtText) (hk : v.Distinct) (hd : v.depth ≤ 511) :
    ∃ x : Syn, Spells (render f 0 v) x.toks ∧ x.val = v := by
  obtain ⟨N, h⟩ := C35_parse f v ha hk hd []
  obtain ⟨line, e⟩ := h N (Nat.le_refl _)
  obtain ⟨y, h1, h2⟩ := accepted (render_nonul f v 0) e
  exact ⟨y, h1, (Option.some.inj h2).symm⟩

/-- **C108** (partial): saving an array or object (of values as in C35; in the pretty format up to 128 high), when `write`
stores any number of the bytes it is given, or fails.  The result is `true` exactly if the whole text is in the file, and then the value is
loaded from it.  Otherwise loading gives the value, if only white space is missing, or no value, unless it is undefined.
Missing: a file that ends in a number is read past its end (`C108_digit_false`). -/
theorem C108_partial [Libc] (f : Bool) (v : Val) (hv : ∀ a, v ≠ .atom a) (ha : v.All rtAtom rtText) (hk : v.Distinct)
    (hh : v.height < 500) (hf : f = true → v.height ≤ 128) (n : Nat) (hn : nsteps v ≤ n)
    (hlen : (render f 0 v).length < 2 ^ 31) (wr : Nat → Option Nat) (hw : ∀ s k, wr s = some k → k ≤ s) :
    ∃ content ok, saveSys n f v wr = .ok (some (content.map some, ok)) ∧
      (ok = true ↔ content = render f 0 v) ∧
      (ok = true → ∃ N, ∀ m, N ≤ m → loadSys m ⟨some content.length, content⟩ = .ok (some (some v))) ∧
      (∀ m w, loadSys m ⟨some content.length, content⟩ = .ok (some (some w)) →
        w = v ∧ ∃ ws, (∀ c ∈ ws, Space c) ∧ content ++ ws = render f 0 v) := by
  have hd := depth_le_height v
  obtain ⟨x, hx, hxv⟩ := render_doc f v ha hk (by omega)
  have e := saveSys_eq (prints_render f v hf (by omega) n hn) wr
  have good : ∃ N, ∀ m, N ≤ m → loadSys m ⟨some (render f 0 v).length, render f 0 v⟩ = .ok (some (some v)) := by
    obtain ⟨content, h1, N, h2⟩ := C61_save_load f v hv ha hk hh hf n hn
    rw [saveFileno_eq (prints_render f v hf (by omega) n hn)] at h1
    have : content = render f 0 v := by
      have h1 := Option.some.inj (Res.ok.inj h1)
      exact ((List.map_inj_right fun _ _ h => Option.some.inj h).1 h1).symm
    subst this
    exact ⟨N, h2⟩
  have bad : ∀ p rest, p ++ rest = render f 0 v → ∀ m w, loadSys m ⟨some p.length, p⟩ = .ok (some (some w)) →
      w = v ∧ ∃ ws, (∀ c ∈ ws, Space c) ∧ p ++ ws = render f 0 v := by
    intro p rest hp m w hl
    have h0 : 0 ∉ p := fun h => render_nonul f v 0 (by rw [← hp]; exact List.mem_append_left _ h)
    have hlp : p.length < 2 ^ 31 := by rw [← hp, List.length_append] at hlen; omega
    obtain ⟨y, hy, rfl⟩ := load_doc h0 hl
    rw [← hp] at hx hlen
    obtain ⟨-, -, h3, -, h5⟩ := doc_prefix (.inl ((isDoc_iff x).2 (by rw [hxv]; exact hv))) hlen hx hy
    exact ⟨by rw [← h3, hxv], rest, fun c hc => space_of_isWs (h5 c hc), hp⟩
  have hne : render f 0 v ≠ [] := by
    cases v with
    | atom a => exact absurd rfl (hv a)
    | arr xs => rw [render]; cases f <;> simp [opening]
    | obj xs => rw [render]; cases f <;> simp [opening]
  cases hwr : wr (render f 0 v).length with
  | none =>
    rw [hwr] at e
    exact ⟨[], false, e, by simpa using hne.symm, by simp, bad [] _ rfl⟩
  | some k =>
    rw [hwr] at e
    have hk := hw _ _ hwr
    refine ⟨(render f 0 v).take k, decide (k = (render f 0 v).length), e, ?_, ?_, bad _ ((render f 0 v).drop k) (List.take_append_drop ..)⟩
    · rw [decide_eq_true_iff]
      refine ⟨fun h => by rw [h, List.take_length], fun h => ?_⟩
      have := congrArg List.length h
      rw [List.length_take] at this
      omega
    · intro h
      rw [decide_eq_true_iff] at h
      subst h
      rw [List.take_length]
      exact good

/-- **C108**, negative: what is left of an array of numbers after a failed save is read past the end of the block -/
theorem C108_digit_false [Libc] (k n : Nat) : loadSys (n + 2) ⟨some (91 :: dec k).length, 91 :: dec k⟩ = .ub := by
  obtain ⟨c, cs, hc⟩ : ∃ c cs, dec k = c :: cs := by
    cases h : dec k with
    | nil => exact absurd h (dec_ne_nil k)
    | cons c cs => exact ⟨c, cs, rfl⟩
  have hd := dec_isDigit k
  have hc0 : isDigit c = true := hd c (by rw [hc]; exact List.mem_cons_self ..)
  have hn : parseNumber (dec k) = .ub := by
    have hu := digits_ub _ hd
    have h45 : (c == 45) = false := by
      simp only [beq_eq_false_iff_ne, ne_eq]; rintro rfl; revert hc0; decide
    rw [hc] at hu ⊢
    rw [parseNumber, peek, Res.bind_ok]
    simp only [h45, Bool.false_eq_true, ↓reduceIte]
    rw [hu]; rfl
  have hstep : tokenStep ⟨dec k, (dec k).length, 0⟩ = .ub := by
    rw [hc] at hn ⊢
    rw [tokenStep_num (by simp [hc0]) _ _ _ (by simp), hn]; rfl
  have hnext : nextToken ⟨dec k, (dec k).length, 0⟩ = .ub := by
    have : ∀ m t, tokenStep t = .ub → nextTokenN m t = .ub := by
      intro m t ht
      cases m <;> rw [nextTokenN, ht] <;> rfl
    exact this _ _ hstep
  have hlb : nextToken ⟨91 :: dec k, (91 :: dec k).length, 0⟩ = .ok (.lb, ⟨dec k, (dec k).length, 0⟩) := by
    refine nextToken_step ?_
    have := to_append [91] (dec k) (dec k).length 0
    rw [← this, tokenStep, if_neg (by simp), List.length_cons, List.length_singleton, Nat.add_comm 1]
    rfl
  have hs : pstep pinit .lb = .ok ⟨.arrValueOrClose, [⟨.done, some (.arr []), []⟩], [], none⟩ := rfl
  rw [loadSys]
  simp only
  rw [parsex, parseWith, prun_go (by decide), hlb, Res.bind_ok]
  simp only
  rw [hs, Res.bind_ok, prun_go (by decide), hnext]; rfl

/-- **C108**, negative: a `read` that gives fewer bytes than the file has is not noticed; the bytes that are missing are read
although nothing was stored there.  For every text of a document, there is no answer. -/
theorem C108_short_false [Libc] (p rest : List Byte) (x : Syn) (hx : Spells (p ++ rest) x.toks) (hd : x.depth ≤ 511) (hr : rest ≠ [])
    (hlen : (p ++ rest).length < 2 ^ 31) (n : Nat) (hn : (p ++ rest).length ≤ n) (r : Option (Option Val)) :
    loadSys n ⟨some (p ++ rest).length, p⟩ ≠ .ok r := by
  intro h
  rw [loadSys] at h
  obtain ⟨q, hq, -⟩ := map_eq_ok.1 h
  have hm := parsex_more hq (rest ++ [0])
  obtain ⟨line, e⟩ := parsex_lexes (spells_lexes hx (plain_doc x) hlen).1 hd [0] (numEnd_nul []) n
    (Nat.le_trans (spells_length hx) hn)
  rw [List.append_assoc] at e
  rw [hm] at e
  cases q with
  | none => cases e
  | some q =>
    simp only [Option.map_some, Res.ok.injEq, Option.some.injEq, Prod.mk.injEq] at e
    have := congrArg (fun t : Tz => t.mem.length) e.2
    simp only [Tz.more, List.length_append, List.length_cons, List.length_nil] at this
    exact hr (List.length_eq_zero_iff.1 (by omega))

/-- **C108**, negative: a file that cannot be opened, or whose size cannot be found, is not reported by a null pointer -/
theorem C108_unreadable_false [Libc] (n : Nat) (got : List Byte) (r : Option (Option Val)) :
    loadPath n none ≠ .ok r ∧ loadPath n (some ⟨none, got⟩) ≠ .ok r := ⟨nofun, nofun⟩

/-- **C108**, negative: a number that is cut off is another number -/
theorem C108_number_false [Libc] : ∃ t t', parsex 1 [49, 50, 0] 2 true = .ok (some (.value (some (.atom (.i64 12))), t)) ∧
    parsex 1 [49, 0, 0] 1 true = .ok (some (.value (some (.atom (.i64 1))), t')) :=
  ⟨⟨[0], 0, 0⟩, ⟨[0, 0], 0, 0⟩, rfl, rfl⟩

/-- `[1]` -/
theorem one_doc [Libc] : Spells [91, 49, 93] (Syn.arr [.lit (.i64 1)] false).toks :=
  .tok (w := [91]) .lb (.tok (w := [49]) (.num (.pos (ds := [49]) ⟨by simp, by simp⟩ (.inl rfl))) (.tok .rb .nil))

theorem close_char : ∃ c ∈ ([93] : List Byte), ¬ Space c := ⟨93, by simp, by unfold Space; decide⟩

/-- the hypotheses of `C108_cut` and `C108_more` are met: `[1` is refused, and so is `[1]]` -/
example [Libc] : loadBuffer 3 ([91, 49] ++ 0 :: []) 2 = .ok (some none) ∧
    loadBuffer 5 ([91, 49, 93] ++ [93] ++ 0 :: []) 4 = .ok (some none) :=
  ⟨(C108_cut [91, 49] [93] [] _ one_doc (by simp [Syn.val]) close_char (by decide) (by decide) 3 (by decide)).2,
    (C108_more [91, 49, 93] [93] [] _ one_doc (by simp [Syn.val]) (by decide) close_char (by decide) 5 (by decide)).2⟩

/-- the hypotheses of `C108_buffer` are met by `[1]` that a `2` follows in the memory -/
example [Libc] : loadBuffer 3 ([91, 49, 93] ++ [50]) 3 = .ok (some (some (.arr [.atom (.i64 1)]))) :=
  C108_buffer [91, 49, 93] [50] _ one_doc (by simp [Syn.val]) (by decide) (by decide) 3 (by decide)

/-- the hypotheses of `C108_short_false` are met by a `read` that gives `[1` of `[1]` -/
example [Libc] (r : Option (Option Val)) : loadSys 3 ⟨some 3, [91, 49]⟩ ≠ .ok r :=
  C108_short_false [91, 49] [93] _ one_doc (by decide) (by simp) (by decide) 3 (by decide) r

/-- the hypotheses of `C108_local` are met -/
example [Libc] : ∃ t, parsex 1 [49, 0] 1 true = .ok (some (.value (some (.atom (.i64 1))), t)) := ⟨⟨[0], 0, 0⟩, rfl⟩

/-- the hypotheses of `C108_partial` are met by `[7,true]` with a `write` that stores 3 bytes at most -/
example [Libc] : let v := Val.arr [.atom (.i64 7), .atom (.bool true)]
    ∃ content ok, saveSys 10 false v (fun s => some (min s 3)) = .ok (some (content.map some, ok)) ∧
      ∀ m w, loadSys m ⟨some content.length, content⟩ = .ok (some (some w)) → w = v := by
  intro v
  obtain ⟨content, ok, h1, -, -, h4⟩ := C108_partial false v (by simp [v])
    (by simp only [v, Val.All, AllL, rtAtom]; decide) (by simp [v, Val.Distinct, DistinctL]) (by decide) (by simp) 10 (by decide)
    (by simp [v, render, renderL, opening, closing, comma, padding, atomBytes, intText, dec]) (fun s => some (min s 3)) (fun s k h => by cases h; exact Nat.min_le_left ..)
  exact ⟨content, ok, h1, fun m w h => (h4 m w h).1⟩

end Verif.Json.Props
