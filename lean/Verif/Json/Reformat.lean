import Verif.Json.LexemeProps
import Verif.Json.MergeAllProps

/-!
# Printed texts as lexemes

Lemmas for C125 and C126: the text the printer gives, in both formats, as the lexemes of a document.
-/

namespace Verif.Json

/-- a text made of lexemes of `L` -/
inductive SpellsBy (L : List Byte → Tok → Prop) : List Byte → List Tok → Prop where
  | nil : SpellsBy L [] []
  | ws {c s ts} : Space c → SpellsBy L s ts → SpellsBy L (c :: s) ts
  | tok {w t s ts} : L w t → SpellsBy L s ts → SpellsBy L (w ++ s) (t :: ts)

theorem SpellsBy.spells [Libc] {w : List Byte} {ts : List Tok} (h : SpellsBy Lexeme w ts) : Spells w ts := by
  induction h with
  | nil => exact .nil
  | ws hc _ ih => exact .ws hc ih
  | tok hl _ ih => exact .tok hl ih

theorem SpellsBy.rfc [Libc] {w : List Byte} {ts : List Tok} (h : SpellsBy RfcLexeme w ts) : RfcSpells w ts := by
  induction h with
  | nil => exact .nil
  | ws hc _ ih => exact .ws hc ih
  | tok hl _ ih => exact .tok hl ih

variable {L : List Byte → Tok → Prop}

theorem SpellsBy.append {w1 w2 : List Byte} {ts1 ts2 : List Tok} (h1 : SpellsBy L w1 ts1) (h2 : SpellsBy L w2 ts2) :
    SpellsBy L (w1 ++ w2) (ts1 ++ ts2) := by
  induction h1 with
  | nil => exact h2
  | ws hc _ ih => exact .ws hc ih
  | tok hl _ ih => rw [List.append_assoc]; exact .tok hl ih

theorem SpellsBy.one {w : List Byte} {t : Tok} (h : L w t) : SpellsBy L w [t] := by
  have := SpellsBy.tok h .nil
  simpa using this

theorem SpellsBy.blank {ws : List Byte} (h : ∀ c ∈ ws, Space c) : SpellsBy L ws [] := by
  induction ws with
  | nil => exact .nil
  | cons c ws ih =>
    rw [List.forall_mem_cons] at h
    exact .ws h.1 (ih h.2)

mutual
/-- the document of a value whose atoms stand for the documents `g` gives -/
def synBy (g : Atom → Syn) : Val → Syn
  | .atom a => g a
  | .arr xs => .arr (synByL g xs) false
  | .obj kvs => .obj (synByF g kvs) false
/-- the documents of elements -/
def synByL (g : Atom → Syn) : List Val → List Syn
  | [] => []
  | x :: xs => synBy g x :: synByL g xs
/-- the documents of entries -/
def synByF (g : Atom → Syn) : List (List Byte × Val) → List (List Byte × Syn)
  | [] => []
  | (k, x) :: xs => (k, synBy g x) :: synByF g xs
end

theorem synBy_synOf (v : Val) : synBy (fun a => synOf (.atom a)) v = synOf v := by
  induction v using Val.ind with
  | h0 a => rw [synBy]
  | ha xs ih =>
    rw [synBy, synOf]
    congr 1
    induction xs with
    | nil => rfl
    | cons x xs ih' =>
      rw [List.forall_mem_cons] at ih
      rw [synByL, synL, ih.1, ih' ih.2]
  | ho kvs ih =>
    rw [synBy, synOf]
    congr 1
    induction kvs with
    | nil => rfl
    | cons x xs ih' =>
      rw [List.forall_mem_cons] at ih
      rw [synByF, synF, ih.1, ih' ih.2]

/-- the structural lexemes -/
structure Marks (L : List Byte → Tok → Prop) : Prop where
  lb : L [91] .lb
  rb : L [93] .rb
  lc : L [123] .lc
  rc : L [125] .rc
  colon : L [58] .colon
  comma : L [44] .comma

theorem marks_lexeme [Libc] : Marks Lexeme := ⟨.lb, .rb, .lc, .rc, .colon, .comma⟩
theorem marks_rfc [Libc] : Marks RfcLexeme := ⟨.lb, .rb, .lc, .rc, .colon, .comma⟩

theorem space_tabs {f : Bool} {t : Nat} : ∀ c ∈ padding f t, Space c := by
  intro c hc
  cases f with
  | false => simp [padding] at hc
  | true => rw [padding, if_pos rfl] at hc; rw [(List.mem_replicate.1 hc).2]; exact .inr (.inl rfl)

theorem by_opening {f : Bool} {c : Byte} {tok : Tok} (h : L [c] tok) : SpellsBy L (opening f c) [tok] := by
  cases f with
  | false => exact .one h
  | true =>
    have := (SpellsBy.one h).append (SpellsBy.blank (L := L) (ws := [10]) (by simp [Space]))
    simpa [opening] using this

theorem by_closing {f : Bool} {t : Nat} {c : Byte} {tok : Tok} (h : L [c] tok) : SpellsBy L (closing f t c) [tok] := by
  cases f with
  | false => exact .one h
  | true =>
    have h2 := (SpellsBy.blank (L := L) (ws := 10 :: List.replicate t 9) (by
        rw [List.forall_mem_cons]
        exact ⟨.inr (.inr (.inl rfl)), fun c hc => by rw [(List.mem_replicate.1 hc).2]; exact .inr (.inl rfl)⟩)).append
      ((SpellsBy.one h).append (SpellsBy.blank (L := L) (ws := [10]) (by simp [Space])))
    simpa [closing] using h2

theorem by_colon {f : Bool} (h : L [58] .colon) : SpellsBy L (colon f) [.colon] := by
  cases f with
  | false => exact .one h
  | true =>
    have h2 := (SpellsBy.blank (L := L) (ws := [32]) (by simp [Space])).append
      ((SpellsBy.one h).append (SpellsBy.blank (L := L) (ws := [9]) (by simp [Space])))
    simpa [colon] using h2

theorem by_comma {f : Bool} (h : L [44] .comma) : SpellsBy L (comma f) [.comma] := by
  cases f with
  | false => exact .one h
  | true =>
    have := (SpellsBy.one h).append (SpellsBy.blank (L := L) (ws := [10]) (by simp [Space]))
    simpa [comma] using this

theorem by_elems [Libc] (M : Marks L) (g : Atom → Syn) (f : Bool) (t : Nat) (xs : List Val)
    (h : ∀ x ∈ xs, SpellsBy L (render f (t + 1) x) (synBy g x).toks) :
    SpellsBy L (renderL f t xs ++ closing f t 93) (body (toksL (synByL g xs)) false .rb) := by
  induction xs with
  | nil => rw [renderL, synByL, toksL, body_nil]; exact by_closing M.rb
  | cons x xs ih =>
    rw [List.forall_mem_cons] at h
    rw [renderL, synByL, toksL, body_cons]
    cases xs with
    | nil =>
      have := h.1.append (by_closing (f := f) (t := t) M.rb)
      simpa [renderL, synByL, toksL, bodyTail] using this
    | cons y ys =>
      have h3 := h.1.append ((by_comma (f := f) M.comma).append (ih h.2))
      have e : bodyTail (toksL (synByL g (y :: ys))) false .rb = .comma :: body (toksL (synByL g (y :: ys))) false .rb := rfl
      rw [e]
      simpa using h3

theorem by_fields [Libc] (M : Marks L) (g : Atom → Syn) (f : Bool) (t : Nat) (xs : List (List Byte × Val))
    (h : ∀ x ∈ xs, L (quoted x.1) (.str x.1) ∧ SpellsBy L (render f (t + 1) x.2) (synBy g x.2).toks) :
    SpellsBy L (renderF f t xs ++ closing f t 125) (body (toksF (synByF g xs)) false .rc) := by
  induction xs with
  | nil => rw [renderF, synByF, toksF, body_nil]; exact by_closing M.rc
  | cons x xs ih =>
    obtain ⟨k, x⟩ := x
    rw [List.forall_mem_cons] at h
    obtain ⟨⟨hk, hx⟩, h⟩ := h
    simp only at hk hx
    have hkey : SpellsBy L (padding f t ++ quoted k ++ colon f) [.str k, .colon] := by
      have := (SpellsBy.blank (L := L) (space_tabs (f := f) (t := t))).append
        ((SpellsBy.one hk).append (by_colon (f := f) M.colon))
      simpa using this
    rw [renderF, synByF, toksF, body_cons]
    cases xs with
    | nil =>
      have := hkey.append (hx.append (by_closing (f := f) (t := t) M.rc))
      simpa [renderF, synByF, toksF, bodyTail] using this
    | cons y ys =>
      have h4 := hkey.append (hx.append ((by_comma (f := f) M.comma).append (ih h)))
      have e : bodyTail (toksF (synByF g (y :: ys))) false .rc = .comma :: body (toksF (synByF g (y :: ys))) false .rc := by
        obtain ⟨ky, y⟩ := y; rfl
      rw [e]
      simpa using h4

/-- what is printed is the lexemes of the document -/
theorem by_render [Libc] (M : Marks L) (g : Atom → Syn) (f : Bool) (v : Val) :
    v.All (fun a => SpellsBy L (atomBytes a) (g a).toks) (fun k => L (quoted k) (.str k)) →
    ∀ t, SpellsBy L (render f t v) (synBy g v).toks := by
  induction v using Val.ind with
  | h0 a =>
    intro h t
    rw [render, synBy]
    exact (SpellsBy.blank (L := L) space_tabs).append h
  | ha xs ih =>
    intro h t
    rw [Val.All, allL_mem] at h
    rw [render, synBy, Syn.toks]
    exact (by_opening (f := f) M.lb).append (by_elems M g f t xs fun x hx => ih x hx (h x hx) (t + 1))
  | ho kvs ih =>
    intro h t
    rw [Val.All, allF_mem] at h
    rw [render, synBy, Syn.toks]
    exact (by_opening (f := f) M.lc).append
      (by_fields M g f t kvs fun x hx => ⟨(h x hx).1, ih x hx (h x hx).2 (t + 1)⟩)

/-! ## atoms -/

theorem quoted_escape {s : List Byte} (h0 : 0 ∉ s) : Quoted (escape s) := by
  induction s with
  | nil => exact .nil
  | cons c s ih =>
    simp only [List.mem_cons, not_or] at h0
    have ih := ih h0.2
    have e : escape (c :: s) = (addon c).getD [c] ++ escape s := rfl
    rw [e]
    cases ha : addon c with
    | none =>
      have h1 : c ≠ 34 ∧ c ≠ 92 := by
        constructor <;> (rintro rfl; revert ha; decide)
      exact .raw (fun h => h0.1 h.symm) h1.1 h1.2 ih
    | some a =>
      simp only [Option.getD_some]
      unfold addon at ha
      repeat' split at ha
      all_goals first
        | (cases ha; exact .esc (by decide) ih)
        | (cases ha; done)
        | skip
      rename_i h8
      cases ha
      have hle : c.toNat < 32 := by
        have := (le1f_iff c).1 h8
        omega
      obtain ⟨a1, a2, a3⟩ := toHex_ne (c.toNat / 16) (by omega)
      obtain ⟨b1, b2, b3⟩ := toHex_ne (c.toNat % 16) (by omega)
      exact .esc (by decide) (.raw (by decide) (by decide) (by decide) (.raw (by decide) (by decide) (by decide)
        (.raw a1 a2 a3 (.raw b1 b2 b3 ih))))

theorem digits_dec (n : Nat) : Digits (dec n) :=
  ⟨dec_ne_nil n, fun c hc => (isDigit_iff c).1 (dec_isDigit n c hc)⟩

theorem dec_rfc (n : Nat) : dec n = [48] ∨ (dec n).head? ≠ some 48 := by
  by_cases h : (dec n).length = 1
  · by_cases h0 : n = 0
    · left; subst h0; rw [dec]; rfl
    · right
      have hn : n < 10 := by
        rw [dec] at h
        split at h
        · assumption
        · have := dec_ne_nil (n / 10)
          rw [List.length_append, List.length_singleton] at h
          have := List.length_pos_iff.2 this
          omega
      rw [dec, if_pos hn]
      simp only [List.head?_cons, ne_eq, Option.some.injEq]
      intro e
      have := congrArg UInt8.toNat e
      rw [toNat_ofNat_small (by omega)] at this
      have : (48 : Byte).toNat = 48 := rfl
      omega
  · exact .inr (dec_head n h)

theorem tenVal_dec (n : Nat) : tenVal (dec n) = n := by rw [← decVal_eq, decVal_dec]

theorem clamp_of {i : Int} (h1 : -2 ^ 63 ≤ i) (h2 : i < 2 ^ 63) : clamp64 i = i := by unfold clamp64; omega

theorem rfc_int [Libc] {i : Int} (h1 : -2 ^ 63 ≤ i) (h2 : i < 2 ^ 63) : RfcNumber (intText i) (.i64 i) := by
  unfold intText
  split
  · have := RfcNumber.neg (digits_dec (-i).toNat) (dec_rfc _)
    rw [tenVal_dec, show (-(((-i).toNat : Nat) : Int)) = i by omega, clamp_of h1 h2] at this
    exact this
  · have := RfcNumber.pos (digits_dec i.toNat) (dec_rfc _)
    rw [tenVal_dec, show ((i.toNat : Nat) : Int) = i by omega, clamp_of h1 h2] at this
    exact this

theorem rfc_quote [Libc] {s : List Byte} {cs : List Char} (h0 : ∀ c ∈ cs, c.toNat ≠ 0)
    (h : s = cs.flatMap String.utf8EncodeChar) : RfcLexeme (quote s) (.str s) := by
  subst h
  exact .str (quoted_escape (utf8_nul h0)) h0 (escape_decodes _)

/-- bytes that are written as they are -/
def PlainText (s : List Byte) : Prop := ∀ c ∈ s, 0x20 ≤ c.toNat ∧ c ≠ 34 ∧ c ≠ 92

theorem addon_plain {c : Byte} (h : 0x20 ≤ c.toNat ∧ c ≠ 34 ∧ c ≠ 92) : addon c = none := by
  have h8 : ¬ c ≤ 0x1F := by rw [le1f_iff]; omega
  have hne : ∀ x : Byte, x.toNat < 0x20 → c ≠ x := by rintro x hx rfl; omega
  simp [addon, h.2.1, h.2.2, h8, hne 8 (by decide), hne 12 (by decide), hne 10 (by decide), hne 13 (by decide),
    hne 9 (by decide)]

theorem PlainText.escape {s : List Byte} (h : PlainText s) : Json.escape s = s := by
  induction s with
  | nil => rfl
  | cons c s ih =>
    unfold PlainText at h
    rw [List.forall_mem_cons] at h
    have e : Json.escape (c :: s) = (addon c).getD [c] ++ Json.escape s := rfl
    rw [e, ih h.2, addon_plain h.1]; rfl

theorem PlainText.lexeme [Libc] {s : List Byte} (h : PlainText s) : Lexeme (quote s) (.str s) := by
  have e := h.escape
  have h0 : 0 ∉ s := fun h1 => by have := (h 0 h1).1; simp at this
  have hq := quoted_escape h0
  rw [e] at hq
  unfold quote
  rw [e]
  refine .str hq (.inl ⟨fun h1 => (h 92 h1).2.2 rfl, fun c hc => (h c hc).1, rfl⟩)

/-- text that a string literal of the parser can denote: Unicode text without NUL, or bytes that need no escape -/
def keptText (s : List Byte) : Prop :=
  ((∃ cs : List Char, (∀ c ∈ cs, c.toNat ≠ 0) ∧ s = cs.flatMap String.utf8EncodeChar) ∨ PlainText s) ∧ s.length < 2 ^ 31

theorem keptText.lexeme [Libc] {s : List Byte} (h : keptText s) : Lexeme (quoted s) (.str s) := by
  obtain ⟨h, hl⟩ := h
  rw [quoted_short (by omega)]
  rcases h with ⟨cs, h0, h⟩ | h
  · exact (rfc_quote h0 h).lexeme
  · exact h.lexeme

/-- atoms that are read as they are printed -/
def keptAtom [Libc] : Atom → Prop
  | .null => True
  | .bool _ => True
  | .i64 i => -2 ^ 63 ≤ i ∧ i < 2 ^ 63
  | .str s => keptText s
  | .dbl d => Number (Libc.lg d) (.dbl d)
  | _ => False

theorem keptAtom.spells [Libc] {a : Atom} (h : keptAtom a) : SpellsBy Lexeme (atomBytes a) (synOf (.atom a)).toks := by
  cases a with
  | null => exact .one .null
  | bool b => cases b with
    | true => exact .one .yes
    | false => exact .one .no
  | i64 i => exact .one (.num (rfc_int h.1 h.2).number)
  | dbl d => exact .one (.num h)
  | str s => exact .one (keptText.lexeme h)
  | undef => cases h
  | u64 n => cases h
  | strn s => cases h
  | blob n => cases h

theorem Val.All.mono {pa qa : Atom → Prop} {pk qk : List Byte → Prop} (ha : ∀ a, pa a → qa a) (hk : ∀ k, pk k → qk k)
    {v : Val} (h : v.All pa pk) : v.All qa qk := by
  induction v using Val.ind with
  | h0 a => exact ha a h
  | ha xs ih =>
    rw [Val.All, allL_mem] at h ⊢
    exact fun x hx => ih x hx (h x hx)
  | ho kvs ih =>
    rw [Val.All, allF_mem] at h ⊢
    exact fun x hx => ⟨hk _ (h x hx).1, ih x hx (h x hx).2⟩

theorem Val.All.and {pa qa : Atom → Prop} {pk qk : List Byte → Prop} {v : Val} (h : v.All pa pk) (h' : v.All qa qk) :
    v.All (fun a => pa a ∧ qa a) (fun k => pk k ∧ qk k) := by
  induction v using Val.ind with
  | h0 a => exact ⟨h, h'⟩
  | ha xs ih =>
    rw [Val.All, allL_mem] at h h' ⊢
    exact fun x hx => ih x hx (h x hx) (h' x hx)
  | ho kvs ih =>
    rw [Val.All, allF_mem] at h h' ⊢
    exact fun x hx => ⟨⟨(h x hx).1, (h' x hx).1⟩, ih x hx (h x hx).2 (h' x hx).2⟩

theorem kept_short [Libc] {v : Val} (h : v.All keptAtom keptText) : v.All shortAtom shortKey := by
  refine h.mono (fun a h => ?_) (fun k h => ?_)
  · cases a with
    | str s => have := h.2; show s.length < 2 ^ 32; omega
    | strn s => cases h
    | _ => trivial
  · have := h.2; show k.length < 2 ^ 32; omega

theorem kept_spells [Libc] (f : Bool) {v : Val} (h : v.All keptAtom keptText) : Spells (render f 0 v) (synOf v).toks := by
  rw [← synBy_synOf]
  exact (by_render marks_lexeme _ f v (h.mono (fun _ h => keptAtom.spells h) (fun _ h => keptText.lexeme h)) 0).spells

/-! ## what is read -/

/-- what holds of all tokens of a document holds of its value -/
theorem toks_all {pa : Atom → Prop} {pk : List Byte → Prop} (x : Syn)
    (hl : ∀ a, .lit a ∈ x.toks → pa a) (hs : ∀ s, .str s ∈ x.toks → pa (.str s) ∧ pk s) : x.val.All pa pk := by
  have hbody : ∀ (ps : List (List Tok)) (tr : Bool) (cl : Tok) (p : List Tok) (t : Tok), p ∈ ps → t ∈ p → t ∈ body ps tr cl := by
    intro ps tr cl p t hp ht
    induction ps with
    | nil => cases hp
    | cons q ps ih =>
      rw [body_cons, List.mem_append]
      rcases List.mem_cons.1 hp with rfl | hp
      · exact .inl ht
      · right
        cases ps with
        | nil => cases hp
        | cons r ps =>
          have e : bodyTail (r :: ps) tr cl = .comma :: body (r :: ps) tr cl := rfl
          rw [e]
          exact List.mem_cons_of_mem _ (ih hp)
  induction x using Syn.ind with
  | hs s => exact (hs s (by simp [Syn.toks])).1
  | hl a => exact hl a (by simp [Syn.toks])
  | ha xs tr ih =>
    rw [Syn.val, Val.All, allL_mem]
    have hmem : ∀ (xs : List Syn), ∀ x ∈ xs, x.toks ∈ toksL xs := by
      intro xs
      induction xs with
      | nil => intro x hx; cases hx
      | cons y xs ih =>
        intro x hx
        rw [toksL, List.mem_cons]
        rcases List.mem_cons.1 hx with rfl | hx
        · exact .inl rfl
        · exact .inr (ih x hx)
    have hsub : ∀ x ∈ xs, ∀ t ∈ x.toks, t ∈ (Syn.arr xs tr).toks := by
      intro x hx t ht
      rw [Syn.toks]
      exact List.mem_cons_of_mem _ (hbody _ _ _ _ _ (hmem xs x hx) ht)
    have hall : ∀ x ∈ xs, x.val.All pa pk := fun x hx =>
      ih x hx (fun a ha => hl a (hsub x hx _ ha)) (fun s h => hs s (hsub x hx _ h))
    clear hl hs ih hmem hsub hbody
    induction xs with
    | nil => intro v hv; cases hv
    | cons x xs ih =>
      intro v hv
      rw [valL, List.mem_cons] at hv
      rcases hv with rfl | hv
      · exact hall x (by simp)
      · exact ih (fun y hy => hall y (by simp [hy])) v hv
  | ho kvs tr ih =>
    rw [Syn.val, Val.All, allF_mem]
    have hmem : ∀ (xs : List (List Byte × Syn)), ∀ x ∈ xs, .str x.1 :: .colon :: x.2.toks ∈ toksF xs := by
      intro xs
      induction xs with
      | nil => intro x hx; cases hx
      | cons y xs ih =>
        intro x hx
        obtain ⟨ky, y⟩ := y
        rw [toksF, List.mem_cons]
        rcases List.mem_cons.1 hx with rfl | hx
        · exact .inl rfl
        · exact .inr (ih x hx)
    have hsub : ∀ x ∈ kvs, ∀ t ∈ Tok.str x.1 :: .colon :: x.2.toks, t ∈ (Syn.obj kvs tr).toks := by
      intro x hx t ht
      rw [Syn.toks]
      exact List.mem_cons_of_mem _ (hbody _ _ _ _ _ (hmem kvs x hx) ht)
    have hall : ∀ x ∈ kvs, pk x.1 ∧ x.2.val.All pa pk := fun x hx =>
      ⟨(hs x.1 (hsub x hx _ (by simp))).2, ih x hx (fun a ha => hl a (hsub x hx _ (by simp [ha])))
        (fun s h => hs s (hsub x hx _ (by simp [h])))⟩
    clear hl hs ih hmem hsub hbody
    have hins : ∀ (k : List Byte) (v : Val) (acc : List (List Byte × Val)), pk k ∧ v.All pa pk →
        (∀ e ∈ acc, pk e.1 ∧ e.2.All pa pk) → ∀ e ∈ insertKey k v acc, pk e.1 ∧ e.2.All pa pk := by
      intro k v acc hv
      induction acc with
      | nil => intro _ e he; rw [insertKey, List.mem_singleton] at he; subst he; exact hv
      | cons kv acc ih =>
        obtain ⟨k', v'⟩ := kv
        intro hacc e he
        rw [List.forall_mem_cons] at hacc
        rw [insertKey] at he
        split at he
        · rename_i hk
          rcases List.mem_cons.1 he with rfl | he
          · exact ⟨hacc.1.1, hv.2⟩
          · exact hacc.2 e he
        · rcases List.mem_cons.1 he with rfl | he
          · exact hacc.1
          · exact ih hacc.2 e he
    have key : ∀ (l : List (List Byte × Syn)) (acc : List (List Byte × Val)), (∀ x ∈ l, pk x.1 ∧ x.2.val.All pa pk) →
        (∀ e ∈ acc, pk e.1 ∧ e.2.All pa pk) → ∀ e ∈ valF l acc, pk e.1 ∧ e.2.All pa pk := by
      intro l
      induction l with
      | nil => intro acc _ h; exact h
      | cons x l ih =>
        obtain ⟨k, x⟩ := x
        intro acc hl hacc
        rw [List.forall_mem_cons] at hl
        rw [valF]
        exact ih _ hl.2 (hins k _ acc hl.1 hacc)
    exact key kvs [] hall (by simp)

/-! ## the length of what is read -/

theorem escape_append (s t : List Byte) : escape (s ++ t) = escape s ++ escape t := by
  unfold escape; rw [List.flatMap_append]

theorem escape_takeWhile (p : Byte → Bool) (s : List Byte) : (escape (s.takeWhile p)).length ≤ (escape s).length := by
  conv => rhs; rw [← List.takeWhile_append_dropWhile (p := p) (l := s), escape_append]
  simp

theorem addon_high {c : Byte} (h : 0x80 ≤ c.toNat) : addon c = none :=
  addon_plain ⟨by omega, by rintro rfl; simp at h, by rintro rfl; simp at h⟩

theorem escape_byte (c : Byte) : (escape [c]).length ≤ 6 := by
  have e : escape [c] = (addon c).getD [c] := by
    show (addon c).getD [c] ++ [] = _
    simp
  rw [e]
  unfold addon
  repeat' split
  all_goals simp

theorem escape_high {s : List Byte} (h : ∀ c ∈ s, 0x80 ≤ c.toNat) : (escape s).length = s.length := by
  have : escape s = s := by
    induction s with
    | nil => rfl
    | cons c s ih =>
      rw [List.forall_mem_cons] at h
      have e : escape (c :: s) = (addon c).getD [c] ++ escape s := rfl
      rw [e, ih h.2, addon_high h.1]; rfl
  rw [this]

theorem escape_encode {x : Nat} (hx : x ≤ 0x10FFFF) : (escape (encode x)).length ≤ 6 ∧
    (0x80 ≤ x → (escape (encode x)).length ≤ 4) := by
  have key : ∀ n, 0x80 ≤ n → n < 256 → 0x80 ≤ (UInt8.ofNat n).toNat := by
    intro n h1 h2; rw [toNat_ofNat_small h2]; exact h1
  rw [encode_arith x hx]
  split
  · exact ⟨escape_byte _, fun h => by omega⟩
  · split
    · rw [escape_high (by
        intro c hc
        simp only [List.mem_cons, List.not_mem_nil, or_false] at hc
        rcases hc with rfl | rfl <;> exact key _ (by omega) (by omega))]
      simp
    · split
      · rw [escape_high (by
          intro c hc
          simp only [List.mem_cons, List.not_mem_nil, or_false] at hc
          rcases hc with rfl | rfl | rfl <;> exact key _ (by omega) (by omega))]
        simp
      · rw [escape_high (by
          intro c hc
          simp only [List.mem_cons, List.not_mem_nil, or_false] at hc
          rcases hc with rfl | rfl | rfl | rfl <;> exact key _ (by omega) (by omega))]
        simp

theorem hex4_lt {h : List Byte} {x : Nat} (hh : Hex4 h x) : x < 0x10000 ∧ h.length = 4 := by
  obtain ⟨a, b, c, d, na, nb, nc, nd, rfl, ha, hb, hc, hd, rfl⟩ := hh
  unfold HexDigit at ha hb hc hd
  refine ⟨?_, rfl⟩
  omega

theorem HexDigit.plain {c : Byte} {n : Nat} (h : HexDigit c n) : c ≠ 92 ∧ c ≠ 34 := by
  unfold HexDigit at h
  constructor <;> (rintro rfl; simp at h; omega)

theorem quoted_hex {h s : List Byte} {x : Nat} (hh : Hex4 h x) (hq : Quoted (h ++ s)) : Quoted s := by
  obtain ⟨a, b, c, d, na, nb, nc, nd, rfl, ha, hb, hc, hd, rfl⟩ := hh
  have step : ∀ {c : Byte} {n : Nat} {s : List Byte}, HexDigit c n → Quoted (c :: s) → Quoted s := by
    intro c n s h hq
    cases hq with
    | raw _ _ _ hq => exact hq
    | esc _ _ => exact absurd rfl h.plain.1
  exact step hd (step hc (step hb (step ha hq)))

theorem quoted_raw {c : Byte} {s : List Byte} (hq : Quoted (c :: s)) (h : c ≠ 92) : c ≠ 34 ∧ Quoted s := by
  cases hq with
  | raw _ h34 _ hq => exact ⟨h34, hq⟩
  | esc _ _ => exact absurd rfl h

/-- escaping does not make a literal longer -/
theorem decodes_length {s t r : List Byte} (h : Decodes s t) : Quoted (s ++ r) → (escape t).length ≤ s.length := by
  induction h with
  | nil => intro _; exact Nat.le_refl _
  | @raw c s t h1 h2 _ ih =>
    intro hq
    obtain ⟨h34, hq⟩ := quoted_raw hq h2
    have := ih hq
    have e : escape (c :: t) = (addon c).getD [c] ++ escape t := rfl
    rw [e, addon_plain ⟨h1, h34, h2⟩]
    simp; omega
  | @esc e b s t h1 _ ih =>
    intro hq
    cases hq with
    | raw _ _ h _ => exact absurd rfl h
    | esc _ hq =>
      have := ih hq
      have e' : escape (b :: t) = (addon b).getD [b] ++ escape t := rfl
      rw [e']
      have : ((addon b).getD [b]).length ≤ 2 := by
        simp only [EscLetter, List.mem_cons, Prod.mk.injEq, List.not_mem_nil, or_false] at h1
        rcases h1 with ⟨-, rfl⟩ | ⟨-, rfl⟩ | ⟨-, rfl⟩ | ⟨-, rfl⟩ | ⟨-, rfl⟩ | ⟨-, rfl⟩ | ⟨-, rfl⟩ | ⟨-, rfl⟩ <;> decide
      simp only [List.length_append, List.length_cons]; omega
  | @uni h x s t hh _ _ ih =>
    intro hq
    cases hq with
    | raw _ _ h _ => exact absurd rfl h
    | esc _ hq =>
      obtain ⟨hx, hl⟩ := hex4_lt hh
      have := ih (quoted_hex hh (by simpa using hq))
      have := (escape_encode (x := x) (by omega)).1
      rw [escape_append]
      simp only [List.length_append, List.length_cons]; omega
  | @pair h x k y s t hh h1 h2 hk h3 h4 _ ih =>
    intro hq
    cases hq with
    | raw _ _ h _ => exact absurd rfl h
    | esc _ hq =>
      obtain ⟨hx, hl⟩ := hex4_lt hh
      obtain ⟨hy, hl'⟩ := hex4_lt hk
      have hq2 := quoted_hex hh (s := 92 :: 117 :: (k ++ s) ++ r) (by simpa using hq)
      cases hq2 with
      | raw _ _ h _ => exact absurd rfl h
      | esc _ hq2 =>
        have := ih (quoted_hex hk (by simpa using hq2))
        have := (escape_encode (x := 0x10000 + (x - 0xD800) * 0x400 + (y - 0xDC00)) (by omega)).1
        rw [escape_append]
        simp only [List.length_append, List.length_cons]; omega

theorem escape_length (s : List Byte) : s.length ≤ (escape s).length := by
  induction s with
  | nil => exact Nat.le_refl _
  | cons c s ih =>
    have e : escape (c :: s) = (addon c).getD [c] ++ escape s := rfl
    rw [e]
    have : 1 ≤ ((addon c).getD [c]).length := by
      unfold addon
      repeat' split
      all_goals simp
    simp only [List.length_append, List.length_cons]; omega

theorem literal_length {s text : List Byte} (hq : Quoted s) (h : Literal s text) : (escape text).length ≤ s.length := by
  rcases h with ⟨hb, hc, rfl⟩ | ⟨-, t, rfl, -, h⟩
  · have : Decodes text text := by
      have := escape_decodes text
      rwa [PlainText.escape] at this
      intro c hm
      refine ⟨hc c hm, ?_, fun e => hb (e ▸ hm)⟩
      rintro rfl
      clear hc this
      induction hq with
      | nil => cases hm
      | raw _ h34 _ _ ih =>
        simp only [List.mem_cons, not_or] at hb hm
        exact ih hb.2 (hm.resolve_left fun e => h34 e.symm)
      | esc _ _ _ => simp at hb
    exact decodes_length (r := []) this (by simpa using hq)
  · refine Nat.le_trans (escape_takeWhile _ _) ?_
    rcases h with h | ⟨s0, h, x, rfl, -, -, -, hd⟩
    · exact decodes_length (r := []) h (by simpa using hq)
    · have := decodes_length hd hq
      simp only [List.length_append]; omega

theorem literal_kept {s text : List Byte} (hq : Quoted s) (h : Literal s text) (hl : s.length < 2 ^ 31) : keptText text := by
  have h1 := literal_length hq h
  have h2 := escape_length text
  refine ⟨?_, by omega⟩
  rcases h with ⟨hb, hc, rfl⟩ | ⟨-, t, rfl, ⟨cs, rfl⟩, -⟩
  · right
    intro c hm
    refine ⟨hc c hm, ?_, fun e => hb (e ▸ hm)⟩
    rintro rfl
    clear hc h1 h2 hl
    induction hq with
    | nil => cases hm
    | raw _ h34 _ _ ih =>
      simp only [List.mem_cons, not_or] at hb hm
      exact ih hb.2 (hm.resolve_left fun e => h34 e.symm)
    | esc _ _ _ => simp at hb
  · left
    clear h1 h2
    induction cs with
    | nil => exact ⟨[], by simp, by simp⟩
    | cons c cs ih =>
      obtain ⟨ds, h0, e⟩ := ih
      by_cases hc : c.toNat = 0
      · refine ⟨[], by simp, ?_⟩
        have : c = Char.ofNat 0 := by
          rw [← hc, Char.ofNat_toNat]
        subst this
        rfl
      · refine ⟨c :: ds, by rw [List.forall_mem_cons]; exact ⟨hc, h0⟩, ?_⟩
        have h1 : 0 ∉ [c].flatMap String.utf8EncodeChar := utf8_nul (by simpa using hc)
        rw [List.flatMap_cons, List.flatMap_cons, ← e, List.takeWhile_append_of_pos]
        intro b hb
        simp only [bne_iff_ne, ne_eq]
        rintro rfl
        exact h1 (by simpa using hb)

theorem dec_short : ∀ (k n : Nat), n < 10 ^ (k + 1) → (dec n).length ≤ k + 1 := by
  intro k
  induction k with
  | zero => intro n hn; rw [dec, if_pos (by omega)]; simp
  | succ k ih =>
    intro n hn
    rw [dec]
    split
    · simp
    · have := ih (n / 10) (by rw [Nat.div_lt_iff_lt_mul (by omega)]; rw [← Nat.pow_succ]; exact hn)
      simp only [List.length_append, List.length_singleton]; omega

theorem tenVal_lt {ds : List Byte} (h : ∀ c ∈ ds, 48 ≤ c.toNat ∧ c.toNat ≤ 57) : tenVal ds < 10 ^ ds.length := by
  induction ds with
  | nil => simp [tenVal]
  | cons c ds ih =>
    rw [List.forall_mem_cons] at h
    have := ih h.2
    rw [tenVal, List.length_cons, Nat.pow_succ]
    have : (c.toNat - 48) * 10 ^ ds.length ≤ 9 * 10 ^ ds.length := Nat.mul_le_mul_right _ (by omega)
    omega

theorem dec_digits_le {ds : List Byte} (h : Digits ds) {n : Nat} (hn : n ≤ tenVal ds) : (dec n).length ≤ ds.length := by
  obtain ⟨hne, hd⟩ := h
  have := tenVal_lt hd
  cases ds with
  | nil => exact absurd rfl hne
  | cons c ds => exact dec_short ds.length n (by rw [List.length_cons] at this; omega)

theorem number_length [Libc] {w : List Byte} {a : Atom} (h : Number w a) :
    (∃ i, a = .i64 i ∧ -2 ^ 63 ≤ i ∧ i < 2 ^ 63 ∧ (intText i).length ≤ w.length) ∨ ∃ d, a = .dbl d := by
  cases h with
  | @pos ds hD _ =>
    refine .inl ⟨_, rfl, by unfold clamp64; omega, by unfold clamp64; omega, ?_⟩
    rw [intText, if_neg (by unfold clamp64; omega)]
    exact dec_digits_le hD (by unfold clamp64; omega)
  | @neg ds hD _ =>
    refine .inl ⟨_, rfl, by unfold clamp64; omega, by unfold clamp64; omega, ?_⟩
    rw [intText]
    split
    · have := dec_digits_le hD (n := (-(clamp64 (-(tenVal ds : Int)))).toNat) (by unfold clamp64; omega)
      simp only [List.length_cons]; omega
    · have := dec_digits_le hD (n := (clamp64 (-(tenVal ds : Int))).toNat) (by unfold clamp64; omega)
      simp only [List.length_cons]; omega
  | dbl => exact .inr ⟨_, rfl⟩

/-- the length of the shortest lexeme of a token -/
def tokLen [Libc] : Tok → Nat
  | .str s => (quote s).length
  | .lit a => (atomSpec a).length
  | _ => 1

/-- the lengths together -/
def toksLen [Libc] (ts : List Tok) : Nat := (ts.map tokLen).sum

theorem toksLen_cons [Libc] (t : Tok) (ts : List Tok) : toksLen (t :: ts) = tokLen t + toksLen ts := by
  simp [toksLen]

theorem toksLen_append [Libc] (ts us : List Tok) : toksLen (ts ++ us) = toksLen ts + toksLen us := by
  simp [toksLen]

theorem lexeme_length [Libc] {w : List Byte} {t : Tok} (h : Lexeme w t) (hlg : ∀ d, (Libc.lg d).length ≤ 1) :
    tokLen t ≤ w.length := by
  cases h with
  | num h =>
    obtain ⟨c, m, rfl, -⟩ := h.start
    rcases number_length h with ⟨i, rfl, -, -, h⟩ | ⟨d, rfl⟩
    · exact h
    · exact Nat.le_trans (hlg d) (by simp)
  | str hq h =>
    have := literal_length hq h
    simp only [tokLen, quote, List.length_cons, List.length_append, List.length_nil]; omega
  | _ => exact Nat.le_refl _

theorem lexeme_kept [Libc] {w : List Byte} {t : Tok} (h : Lexeme w t) (hl : w.length < 2 ^ 31) :
    (∀ s, t = .str s → keptText s) ∧ ∀ a, t = .lit a → keptAtom a ∨ ∃ d, a = .dbl d := by
  cases h with
  | num h =>
    refine ⟨fun s e => (by cases e), fun a e => ?_⟩
    cases e
    rcases number_length h with ⟨i, rfl, h1, h2, -⟩ | h
    · exact .inl ⟨h1, h2⟩
    · exact .inr h
  | str hq h =>
    refine ⟨fun s e => ?_, fun a e => (by cases e)⟩
    cases e
    exact literal_kept hq h (by simp only [List.length_cons, List.length_append, List.length_nil] at hl; omega)
  | null => exact ⟨fun s e => (by cases e), fun a e => (by cases e; exact .inl trivial)⟩
  | yes => exact ⟨fun s e => (by cases e), fun a e => (by cases e; exact .inl trivial)⟩
  | no => exact ⟨fun s e => (by cases e), fun a e => (by cases e; exact .inl trivial)⟩
  | _ => exact ⟨fun s e => (by cases e), fun a e => (by cases e)⟩

theorem spells_kept [Libc] {w : List Byte} {ts : List Tok} (h : Spells w ts) (hl : w.length < 2 ^ 31) :
    ∀ t ∈ ts, (∀ s, t = .str s → keptText s) ∧ ∀ a, t = .lit a → keptAtom a ∨ ∃ d, a = .dbl d := by
  induction h with
  | nil => intro t ht; cases ht
  | ws _ _ ih => exact ih (by rw [List.length_cons] at hl; omega)
  | tok hx _ ih =>
    rw [List.length_append] at hl
    rw [List.forall_mem_cons]
    exact ⟨lexeme_kept hx (by omega), ih (by omega)⟩

theorem spells_toksLen [Libc] {w : List Byte} {ts : List Tok} (h : Spells w ts)
    (hlg : ∀ d, (Libc.lg d).length ≤ 1) : toksLen ts ≤ w.length := by
  induction h with
  | nil => exact Nat.le_refl _
  | ws _ _ ih => rw [List.length_cons]; omega
  | tok hx _ ih =>
    have h2 := lexeme_length hx hlg
    rw [toksLen_cons, List.length_append]; omega

/-- the lengths of pieces with a comma behind each -/
def pieceSum (l : List (List Byte)) : Nat := (l.map fun p => p.length + 1).sum

theorem intercalate_length (l : List (List Byte)) : (List.intercalate [44] l).length = pieceSum l - 1 := by
  induction l with
  | nil => rfl
  | cons p l ih =>
    cases l with
    | nil => simp [pieceSum]
    | cons q l =>
      rw [List.intercalate_cons_cons]
      simp only [List.length_append, ih, List.length_singleton]
      simp [pieceSum]; omega

theorem body_length [Libc] (ps : List (List Tok)) (tr : Bool) (cl : Tok) (hc : tokLen cl = 1) :
    (ps.map fun p => toksLen p + 1).sum - 1 + 1 ≤ toksLen (body ps tr cl) := by
  induction ps with
  | nil => rw [body_nil]; simp [toksLen, hc]
  | cons p ps ih =>
    rw [body_cons, toksLen_append]
    cases ps with
    | nil =>
      have : 1 ≤ toksLen (bodyTail [] tr cl) := by
        unfold bodyTail
        cases tr <;> simp [toksLen, hc]
      simp only [List.map_cons, List.map_nil, List.sum_cons, List.sum_nil]; omega
    | cons q ps =>
      have e : bodyTail (q :: ps) tr cl = .comma :: body (q :: ps) tr cl := rfl
      rw [e, toksLen_cons]
      simp only [List.map_cons, List.sum_cons, tokLen] at ih ⊢
      omega

/-- the text of the value is not longer than the lexemes of the document -/
theorem compact_toksLen [Libc] (x : Syn) : (compact x.val).length ≤ toksLen x.toks := by
  induction x using Syn.ind with
  | hs s => simp [Syn.val, Syn.toks, compact, toksLen, tokLen, atomSpec]
  | hl a => simp [Syn.val, Syn.toks, compact, toksLen, tokLen]
  | ha xs tr ih =>
    have h1 : pieceSum (compactL (valL xs)) ≤ ((toksL xs).map fun p => toksLen p + 1).sum := by
      induction xs with
      | nil => simp [valL, compactL, pieceSum]
      | cons x xs ih' =>
        rw [List.forall_mem_cons] at ih
        have := ih' ih.2
        have := ih.1
        simp only [valL, compactL, toksL, pieceSum, List.map_cons, List.sum_cons] at *
        omega
    have h2 := body_length (toksL xs) tr .rb rfl
    rw [Syn.val, compact, Syn.toks, toksLen_cons]
    simp only [List.length_append, List.length_singleton, intercalate_length, tokLen]
    omega
  | ho kvs tr ih =>
    have hins : ∀ (k : List Byte) (v : Val) (acc : List (List Byte × Val)),
        pieceSum (compactF (insertKey k v acc)) ≤ pieceSum (compactF acc) + ((quote k).length + 1 + (compact v).length + 1) := by
      intro k v acc
      induction acc with
      | nil => simp [insertKey, compactF, pieceSum]; omega
      | cons kv acc ih =>
        obtain ⟨k', v'⟩ := kv
        rw [insertKey]
        split
        · rename_i e
          subst e
          simp only [compactF, pieceSum, List.map_cons, List.sum_cons, List.length_append, List.length_singleton]
          omega
        · simp only [compactF, pieceSum, List.map_cons, List.sum_cons, List.length_append, List.length_singleton] at *
          omega
    have key : ∀ (l : List (List Byte × Syn)) (acc : List (List Byte × Val)),
        (∀ e ∈ l, (compact e.2.val).length ≤ toksLen e.2.toks) →
        pieceSum (compactF (valF l acc)) ≤ pieceSum (compactF acc) + ((toksF l).map fun p => toksLen p + 1).sum := by
      intro l
      induction l with
      | nil => intro acc _; simp [valF, toksF]
      | cons e l ih =>
        obtain ⟨k, x⟩ := e
        intro acc hl
        rw [List.forall_mem_cons] at hl
        have h1 := ih (insertKey k x.val acc) hl.2
        have h2 := hins k x.val acc
        have h3 := hl.1
        rw [valF, toksF]
        simp only [List.map_cons, List.sum_cons, toksLen_cons, tokLen] at *
        omega
    have h1 := key kvs [] ih
    have h2 := body_length (toksF kvs) tr .rc rfl
    rw [Syn.val, compact, Syn.toks, toksLen_cons]
    have h0 : pieceSum (compactF ([] : List (List Byte × Val))) = 0 := by simp [compactF, pieceSum]
    simp only [List.length_append, List.length_singleton, intercalate_length, tokLen]
    omega

/-! ## values without doubles -/

/-- no double in the value -/
def noDbl : Atom → Prop
  | .dbl _ => False
  | _ => True

/-- the library with another `printf("%lg")` -/
def flat (i : Libc) : Libc where
  lg _ := [48]
  lg_ne _ := by simp
  lg_nul _ := by simp
  strtod := i.strtod

theorem number_flat {i : Libc} {w : List Byte} {a : Atom} (h : @Number i w a) : @Number (flat i) w a := by
  cases h with
  | pos h1 h2 => exact @Number.pos (flat i) _ h1 h2
  | neg h1 h2 => exact @Number.neg (flat i) _ h1 h2
  | dbl h1 h2 h3 h4 h5 => exact @Number.dbl (flat i) _ _ _ _ h1 h2 h3 h4 h5

theorem lexeme_flat {i : Libc} {w : List Byte} {t : Tok} (h : @Lexeme i w t) : @Lexeme (flat i) w t := by
  cases h with
  | num h => exact @Lexeme.num (flat i) _ _ (number_flat h)
  | str h1 h2 => exact @Lexeme.str (flat i) _ _ h1 h2
  | lb => exact @Lexeme.lb (flat i)
  | rb => exact @Lexeme.rb (flat i)
  | lc => exact @Lexeme.lc (flat i)
  | rc => exact @Lexeme.rc (flat i)
  | colon => exact @Lexeme.colon (flat i)
  | comma => exact @Lexeme.comma (flat i)
  | null => exact @Lexeme.null (flat i)
  | yes => exact @Lexeme.yes (flat i)
  | no => exact @Lexeme.no (flat i)

theorem spells_flat {i : Libc} {w : List Byte} {ts : List Tok} (h : @Spells i w ts) : @Spells (flat i) w ts := by
  induction h with
  | nil => exact @Spells.nil (flat i)
  | ws hc _ ih => exact @Spells.ws (flat i) _ _ _ hc ih
  | tok hx _ ih => exact @Spells.tok (flat i) _ _ _ _ (lexeme_flat hx) ih

theorem compact_flat (i : Libc) {v : Val} {pk : List Byte → Prop} (h : v.All noDbl pk) : @compact (flat i) v = @compact i v := by
  induction v using Val.ind with
  | h0 a =>
    rw [Val.All] at h
    simp only [compact]
    cases a with
    | dbl d => cases h
    | bool b => cases b <;> rfl
    | _ => rfl
  | ha xs ih =>
    rw [Val.All, allL_mem] at h
    simp only [compact]
    congr 3
    induction xs with
    | nil => simp only [compactL]
    | cons x xs ih' =>
      rw [List.forall_mem_cons] at h ih
      simp only [compactL]
      rw [ih.1 h.1, ih' ih.2 h.2]
  | ho kvs ih =>
    rw [Val.All, allF_mem] at h
    simp only [compact]
    congr 3
    induction kvs with
    | nil => simp only [compactF]
    | cons x xs ih' =>
      rw [List.forall_mem_cons] at h ih
      simp only [compactF]
      rw [ih.1 h.1.2, ih' ih.2 h.2]

/-- a document without doubles in its value is not shorter than the compact text of its value -/
theorem spells_compact {i : Libc} {w : List Byte} {x : Syn} {pk : List Byte → Prop} (h : @Spells i w x.toks)
    (hd : x.val.All noDbl pk) : (@compact i x.val).length ≤ w.length := by
  rw [← compact_flat i hd]
  exact Nat.le_trans (@compact_toksLen (flat i) x) (@spells_toksLen (flat i) w x.toks (spells_flat h) fun _ => Nat.le_refl _)

/-! ## RFC 8259 -/

theorem rfc_any_int [Libc] (i : Int) : RfcNumber (intText i) (.i64 (clamp64 i)) := by
  unfold intText
  split
  · have := RfcNumber.neg (digits_dec (-i).toNat) (dec_rfc _)
    rwa [tenVal_dec, show (-(((-i).toNat : Nat) : Int)) = i by omega] at this
  · have := RfcNumber.pos (digits_dec i.toNat) (dec_rfc _)
    rwa [tenVal_dec, show ((i.toNat : Nat) : Int) = i by omega] at this

theorem ascii_text {s : List Byte} (h : ∀ c ∈ s, c ≠ 0 ∧ c.toNat < 128) :
    ∃ cs : List Char, (∀ c ∈ cs, c.toNat ≠ 0) ∧ s = cs.flatMap String.utf8EncodeChar := by
  induction s with
  | nil => exact ⟨[], by simp, by simp⟩
  | cons c s ih =>
    rw [List.forall_mem_cons] at h
    obtain ⟨cs, h0, rfl⟩ := ih h.2
    have key : ∀ c : Byte, c.toNat < 128 → [c] = String.utf8EncodeChar (Char.ofNat c.toNat) ∧ (Char.ofNat c.toNat).toNat = c.toNat := by
      apply byte_forall; decide +kernel
    obtain ⟨k1, k2⟩ := key c h.1.2
    refine ⟨Char.ofNat c.toNat :: cs, ?_, by rw [List.flatMap_cons, ← k1]; rfl⟩
    rw [List.forall_mem_cons]
    refine ⟨?_, h0⟩
    rw [k2]
    intro e
    exact h.1.1 (UInt8.toNat_inj.1 e)

theorem blob_text (n : Nat) : rtText (blobText n) := by
  refine ⟨ascii_text ?_, ?_⟩
  · have hdec : ∀ n, ∀ c ∈ dec n, c ≠ 0 ∧ c.toNat < 128 := by
      intro n c hc
      obtain ⟨h1, h2⟩ := (isDigit_iff c).1 (dec_isDigit n c hc)
      exact ⟨by rintro rfl; simp at h1, by omega⟩
    intro c hc
    unfold blobText intText at hc
    simp only [List.mem_append] at hc
    rcases hc with (hc | hc) | hc
    · revert c; decide
    · split at hc
      · rcases List.mem_cons.1 hc with rfl | hc
        · decide
        · exact hdec _ c hc
      · exact hdec _ c hc
    · revert c; decide
  · have := intText_length _ (cInt_bound n)
    unfold blobText
    simp only [List.length_append, List.length_cons, List.length_nil]
    omega

/-- atoms whose text is JSON: everything but `undefined`, strings that are not UTF-8 and doubles without a
number as their text -/
def rfcAtom [Libc] : Atom → Prop
  | .undef => False
  | .dbl d => ∃ a, RfcNumber (Libc.lg d) a
  | .str s => rtText s
  | .strn s => rtText s
  | _ => True

open Classical in
/-- the document an atom is printed as -/
noncomputable def rfcSyn [Libc] : Atom → Syn
  | .dbl d => if h : ∃ a, RfcNumber (Libc.lg d) a then .lit h.choose else .lit .null
  | .i64 i => .lit (.i64 (clamp64 i))
  | .u64 n => .lit (.i64 (clamp64 n))
  | .str s => .str s
  | .strn s => .str s
  | .blob n => .str (blobText n)
  | a => .lit a

theorem rtText.rfc [Libc] {s : List Byte} (h : rtText s) : RfcLexeme (quoted s) (.str s) := by
  obtain ⟨⟨cs, h0, h⟩, hl⟩ := h
  rw [quoted_short (by omega)]
  exact rfc_quote h0 h

theorem rfcAtom.spells [Libc] {a : Atom} (h : rfcAtom a) : SpellsBy RfcLexeme (atomBytes a) (rfcSyn a).toks := by
  cases a with
  | undef => cases h
  | null => exact .one .null
  | bool b => cases b with
    | true => exact .one .yes
    | false => exact .one .no
  | dbl d =>
    have h : ∃ a, RfcNumber (Libc.lg d) a := h
    rw [rfcSyn, dif_pos h]
    exact .one (.num h.choose_spec)
  | i64 i => exact .one (.num (rfc_any_int i))
  | u64 n => exact .one (.num (RfcNumber.pos (digits_dec n) (dec_rfc n) |> fun h => by rwa [tenVal_dec] at h))
  | str s => exact .one (rtText.rfc h)
  | strn s => exact .one (rtText.rfc h)
  | blob n => exact .one (rtText.rfc (blob_text n))

mutual
/-- a document of RFC 8259: without commas at the end -/
def Syn.Strict : Syn → Prop
  | .arr xs tr => tr = false ∧ strictL xs
  | .obj kvs tr => tr = false ∧ strictF kvs
  | _ => True
/-- all elements -/
def strictL : List Syn → Prop
  | [] => True
  | x :: xs => x.Strict ∧ strictL xs
/-- all entries -/
def strictF : List (List Byte × Syn) → Prop
  | [] => True
  | (_, x) :: xs => x.Strict ∧ strictF xs
end

theorem synBy_strict (g : Atom → Syn) (hg : ∀ a, (g a).Strict) (v : Val) : (synBy g v).Strict := by
  induction v using Val.ind with
  | h0 a => exact hg a
  | ha xs ih =>
    rw [synBy, Syn.Strict]
    refine ⟨rfl, ?_⟩
    induction xs with
    | nil => rw [synByL]; trivial
    | cons x xs ih' =>
      rw [List.forall_mem_cons] at ih
      rw [synByL]; exact ⟨ih.1, ih' ih.2⟩
  | ho kvs ih =>
    rw [synBy, Syn.Strict]
    refine ⟨rfl, ?_⟩
    induction kvs with
    | nil => rw [synByF]; trivial
    | cons x xs ih' =>
      rw [List.forall_mem_cons] at ih
      rw [synByF]; exact ⟨ih.1, ih' ih.2⟩

theorem rfcSyn_strict [Libc] (a : Atom) : (rfcSyn a).Strict := by
  cases a with
  | dbl d => rw [rfcSyn]; split <;> trivial
  | _ => trivial

theorem rfc_short [Libc] {v : Val} (h : v.All rfcAtom rtText) : v.All shortAtom shortKey := by
  refine h.mono (fun a h => ?_) (fun k h => ?_)
  · cases a with
    | str s => have := h.2; show s.length < 2 ^ 32; omega
    | strn s => have := h.2; show s.length < 2 ^ 32; omega
    | _ => trivial
  · have := h.2; show k.length < 2 ^ 32; omega

theorem rfc_render [Libc] (f : Bool) {v : Val} (h : v.All rfcAtom rtText) :
    (synBy rfcSyn v).Strict ∧ RfcSpells (render f 0 v) (synBy rfcSyn v).toks :=
  ⟨synBy_strict _ rfcSyn_strict v,
    (by_render marks_rfc _ f v (h.mono (fun _ h => rfcAtom.spells h) (fun _ h => rtText.rfc h)) 0).rfc⟩

/-! ## texts that are no documents -/

/-- a text of lexemes starts with white space or the first byte of a lexeme -/
theorem spells_start [Libc] {c : Byte} {s : List Byte} {ts : List Tok} (h : Spells (c :: s) ts) :
    c ∈ [(32 : Byte), 9, 10, 13, 91, 93, 123, 125, 58, 44, 110, 116, 102, 34, 45] ∨ isDigit c = true := by
  generalize hw : c :: s = w at h
  cases h with
  | nil => cases hw
  | ws hc _ =>
    cases hw
    rcases hc with rfl | rfl | rfl | rfl <;> simp
  | tok hl _ =>
    cases hl with
    | num h =>
      obtain ⟨d, m, rfl, hd⟩ := h.start
      simp only [List.cons_append, List.cons.injEq] at hw
      obtain ⟨rfl, -⟩ := hw
      rw [Bool.or_eq_true, beq_iff_eq] at hd
      rcases hd with rfl | hd
      · simp
      · exact .inr hd
    | _ =>
      simp only [List.cons_append, List.cons.injEq] at hw
      obtain ⟨rfl, -⟩ := hw
      simp

end Verif.Json
