import Verif.Json.Reformat

/-! # Properties C125 and C126: printing what was read, and printing JSON -/

namespace Verif.Json.Props

open Verif.Json

/-! ## C125 -/

/-- what is known of a value that was read -/
theorem read_kept [Libc] {text : List Byte} {x : Syn} (hx : Spells text x.toks) (hlen : text.length < 2 ^ 31)
    (hd : x.val.All (fun a => ∀ d, a = .dbl d → Number (Libc.lg d) (.dbl d)) (fun _ => True)) :
    x.val.All keptAtom keptText := by
  have h := spells_kept hx hlen
  have h1 : x.val.All (fun a => keptAtom a ∨ ∃ d, a = .dbl d) keptText :=
    toks_all x (fun a ha => (h _ ha).2 a rfl) (fun s hs => ⟨.inl ((h _ hs).1 s rfl), (h _ hs).1 s rfl⟩)
  refine (h1.and hd).mono (fun a h => ?_) (fun k h => h.1)
  rcases h.1 with h' | ⟨d, rfl⟩
  · exact h'
  · exact h.2 d rfl

/-- reading the printed text, in both formats -/
theorem read_back [Libc] (f : Bool) {x : Syn} (hk : x.val.All keptAtom keptText) (hd : x.val.depth ≤ 511)
    (hl : (render f 0 x.val).length < 2 ^ 31) (extra : List Byte) (n : Nat) (hn : (render f 0 x.val).length ≤ n) :
    ∃ t, parsex n (render f 0 x.val ++ 0 :: extra) (render f 0 x.val).length true = .ok (some (.value (some x.val), t)) := by
  have hs := kept_spells f hk
  refine (C92_accepts_iff _ extra hs.nul hl n hn _).2 ⟨synOf x.val, hs, ?_, ?_⟩
  · rw [synOf_depth]; exact hd
  · rw [synOf_val _ (syn_distinct x)]

/-- **C125**, the part that holds: when a text was read, its value is less than 500 values high, and each of its
doubles is printed as a number with a fraction or an exponent that `strtod` reads as the same double, then
`cee_json_asprint` gives a text (shorter than 2^31) which `cee_json_parsex` reads as the same value, whatever
comes after it.  Missing from the full claim: other doubles and higher values. -/
theorem C125_compact_partial [Libc] (text extra : List Byte) (h0 : 0 ∉ text) (hlen : text.length < 2 ^ 31) (n : Nat)
    (hn : text.length ≤ n) (v : Val) (t : Tz)
    (hp : parsex n (text ++ 0 :: extra) text.length true = .ok (some (.value (some v), t)))
    (hd : v.All (fun a => ∀ d, a = .dbl d → Number (Libc.lg d) (.dbl d)) (fun _ => True))
    (hh : v.height < 500) (hl : (compact v).length < 2 ^ 31) :
    ∃ text', 0 ∉ text' ∧ (∀ m, nsteps v ≤ m → ∃ b, asprint m false v = .ok (some (b, text'.length)) ∧
        b.take (text'.length + 1) = (text' ++ [0]).map some) ∧
      ∀ extra' m, text'.length ≤ m → ∃ t', parsex m (text' ++ 0 :: extra') text'.length true =
        .ok (some (.value (some v), t')) := by
  obtain ⟨x, hx, -, hv⟩ := (C92_accepts_iff text extra h0 hlen n hn _).1 ⟨t, hp⟩
  cases hv
  have hk := read_kept hx hlen hd
  have hs := kept_short hk
  refine ⟨compact x.val, (C33_no_nul _ hs).1, fun m hm => C33_compact _ hh hs m hm, fun extra' m hm => ?_⟩
  have := depth_le_height x.val
  have e := render_compact x.val hs 0
  have := read_back false hk (by omega) (by rw [e]; exact hl) extra' m (by rw [e]; exact hm)
  rwa [e] at this

/-- **C125** for the pretty format, for values at most 128 high -/
theorem C125_pretty_partial [Libc] (text extra : List Byte) (h0 : 0 ∉ text) (hlen : text.length < 2 ^ 31) (n : Nat)
    (hn : text.length ≤ n) (v : Val) (t : Tz)
    (hp : parsex n (text ++ 0 :: extra) text.length true = .ok (some (.value (some v), t)))
    (hd : v.All (fun a => ∀ d, a = .dbl d → Number (Libc.lg d) (.dbl d)) (fun _ => True))
    (hh : v.height ≤ 128) (hl : (render true 0 v).length < 2 ^ 31) :
    ∃ text', 0 ∉ text' ∧ (∀ m, nsteps v ≤ m → ∃ b, asprint m true v = .ok (some (b, text'.length)) ∧
        b.take (text'.length + 1) = (text' ++ [0]).map some) ∧
      ∀ extra' m, text'.length ≤ m → ∃ t', parsex m (text' ++ 0 :: extra') text'.length true =
        .ok (some (.value (some v), t')) := by
  obtain ⟨x, hx, -, hv⟩ := (C92_accepts_iff text extra h0 hlen n hn _).1 ⟨t, hp⟩
  cases hv
  have hk := read_kept hx hlen hd
  refine ⟨render true 0 x.val, (C33_no_nul _ (kept_short hk)).2 0, fun m hm => C33_pretty _ hh m hm, fun extra' m hm => ?_⟩
  have := depth_le_height x.val
  exact read_back true hk (by omega) hl extra' m hm

/-- **C125**, without doubles: the printed text is in addition not longer than the text that was read, so that
nothing is left to assume of its length -/
theorem C125_not_longer [Libc] (text extra : List Byte) (h0 : 0 ∉ text) (hlen : text.length < 2 ^ 31) (n : Nat)
    (hn : text.length ≤ n) (v : Val) (t : Tz)
    (hp : parsex n (text ++ 0 :: extra) text.length true = .ok (some (.value (some v), t)))
    (hd : v.All (fun a => ∀ d, a ≠ .dbl d) (fun _ => True)) (hh : v.height < 500) :
    ∃ text', text'.length ≤ text.length ∧ 0 ∉ text' ∧
      (∀ m, nsteps v ≤ m → ∃ b, asprint m false v = .ok (some (b, text'.length)) ∧
        b.take (text'.length + 1) = (text' ++ [0]).map some) ∧
      ∀ extra' m, text'.length ≤ m → ∃ t', parsex m (text' ++ 0 :: extra') text'.length true =
        .ok (some (.value (some v), t')) := by
  obtain ⟨x, hx, -, hv⟩ := (C92_accepts_iff text extra h0 hlen n hn _).1 ⟨t, hp⟩
  cases hv
  have hk := read_kept hx hlen (hd.mono (fun a h d e => absurd e (h d)) fun _ h => h)
  have hs := kept_short hk
  have hle := spells_compact hx (hd.mono (qa := noDbl) (fun a h => by
    cases a with
    | dbl d => exact absurd rfl (h d)
    | _ => trivial) fun _ h => h)
  refine ⟨compact x.val, hle, (C33_no_nul _ hs).1, fun m hm => C33_compact _ hh hs m hm, fun extra' m hm => ?_⟩
  have := depth_le_height x.val
  have e := render_compact x.val hs 0
  have := read_back false hk (by omega) (by rw [e]; omega) extra' m (by rw [e]; exact hm)
  rwa [e] at this

/-- the hypotheses of `C125_not_longer` are met by `{"a":2.5, "a":[-0,"\/"],}`, which has a double in it, but
not in its value `{"a":[0,"/"]}` -/
theorem C125_example [Libc] (extra : List Byte) :
    let text : List Byte := [123, 34, 97, 34, 58, 50, 46, 53, 44, 32, 34, 97, 34, 58, 91, 45, 48, 44, 34, 92, 47, 34, 93, 44, 125]
    let v : Val := .obj [([97], .arr [.atom (.i64 0), .atom (.str [47])])]
    0 ∉ text ∧ (∃ t, parsex text.length (text ++ 0 :: extra) text.length true = .ok (some (.value (some v), t))) ∧
      v.All (fun a => ∀ d, a ≠ .dbl d) (fun _ => True) ∧ v.height < 500 ∧ (compact v).length = 13 := by
  intro text v
  have ha : Lexeme [34, 97, 34] (.str [97]) :=
    Lexeme.str (s := [97]) (.raw (by decide) (by decide) (by decide) .nil) (.inl ⟨by decide, by decide, rfl⟩)
  have hn : Number [50, 46, 53] (.dbl (Libc.strtod [50, 46, 53])) :=
    Number.dbl (sg := []) (ds := [50]) (fr := [46, 53]) (ex := []) (.inl rfl) (digits_one (by decide))
      (.inr ⟨[53], rfl, digits_one (by decide)⟩) (.inl rfl) (by simp)
  have hz : Number [45, 48] (.i64 0) := Number.neg (ds := [48]) (digits_one (by decide)) (.inl rfl)
  have hs : Lexeme [34, 92, 47, 34] (.str [47]) :=
    Lexeme.str (s := [92, 47]) (.esc (by decide) .nil)
      (.inr ⟨by decide, [47], by decide, ⟨['/'], by decide⟩, .inl (.esc (by unfold EscLetter; decide) .nil)⟩)
  have hsp : Spells text (Syn.obj [([97], .lit (.dbl (Libc.strtod [50, 46, 53]))),
      ([97], .arr [.lit (.i64 0), .str [47]] false)] true).toks :=
    .tok .lc (.tok ha (.tok .colon (.tok (.num hn) (.tok .comma (.ws (.inl rfl) (.tok ha (.tok .colon (.tok .lb (.tok (.num hz)
      (.tok .comma (.tok hs (.tok .rb (.tok .comma (.tok .rc .nil))))))))))))))
  refine ⟨by decide, (C92_accepts_iff text extra (by decide) (by decide) _ (Nat.le_refl _) _).2 ⟨_, hsp, ?_, rfl⟩,
    ?_, by decide, ?_⟩
  · simp [Syn.depth, depthL, depthF]
  · simp [v, Val.All, AllL, AllF]
  · have e : intText 0 = [48] := by rw [intText, if_neg (by decide), dec]; rfl
    have e1 : quote [97] = [34, 97, 34] := rfl
    have e2 : quote [47] = [34, 47, 34] := rfl
    simp [v, compact, compactF, compactL, atomSpec, e, e1, e2]

/-- a library in which `%lg` and `strtod` agree on `2.5`: the hypotheses of `C125_compact_partial` and
`C125_pretty_partial` for `[ 2.5,"a"]` -/
example : ∃ i : Libc, ∃ v : Val, (∃ t, parsex 20 ([91, 32, 50, 46, 53, 44, 34, 97, 34, 93] ++ 0 :: []) 10 true =
      .ok (some (.value (some v), t))) ∧
    v.All (fun a => ∀ d, a = .dbl d → Number (Libc.lg d) (.dbl d)) (fun _ => True) ∧ v.height ≤ 128 ∧
    (compact v).length < 2 ^ 31 ∧ (render true 0 v).length < 2 ^ 31 ∧ v.All keptAtom keptText := by
  let i : Libc := ⟨fun _ => [50, 46, 53], by simp, by simp, fun _ => 0x4004000000000000⟩
  have hn : Number (Libc.lg (0x4004000000000000 : UInt64)) (.dbl 0x4004000000000000) :=
    Number.dbl (sg := []) (ds := [50]) (fr := [46, 53]) (ex := []) (.inl rfl) (digits_one (by decide))
      (.inr ⟨[53], rfl, digits_one (by decide)⟩) (.inl rfl) (by simp)
  refine ⟨i, .arr [.atom (.dbl 0x4004000000000000), .atom (.str [97])], ⟨_, rfl⟩, ?_, by decide, ?_, ?_, ?_⟩
  · simp only [Val.All, AllL, and_true]
    refine ⟨fun d e => ?_, fun d e => by cases e⟩
    cases e; exact hn
  · show 9 < 2 ^ 31; omega
  · show 15 < 2 ^ 31; omega
  · simp only [Val.All, AllL, and_true]
    exact ⟨hn, .inl ⟨['a'], by decide, by decide⟩, by simp⟩

/-- **C125**, negative: a number out of the range of doubles is read, and what is printed for it (`inf`) is
refused -/
theorem C125_inf_false [Libc] (h : Libc.lg (Libc.strtod [49, 101, 57, 57, 57]) = [105, 110, 102]) :
    ∃ v t b t', parsex 5 [49, 101, 57, 57, 57, 0] 5 true = .ok (some (.value (some v), t)) ∧
      asprint 1 false v = .ok (some (b, 3)) ∧ b.take 4 = ([105, 110, 102, 0] : List Byte).map some ∧
      parsex 5 [105, 110, 102, 0] 3 true = .ok (some (.einval, t')) := by
  obtain ⟨b, h1, h2⟩ := C33_compact (.atom (.dbl (Libc.strtod [49, 101, 57, 57, 57]))) (by rw [Val.height]; omega) trivial 1 (by rw [nsteps]; omega)
  have e : compact (.atom (.dbl (Libc.strtod [49, 101, 57, 57, 57]))) = [105, 110, 102] := by
    rw [compact]; exact h
  rw [e] at h1 h2
  exact ⟨_, _, b, _, rfl, h1, h2, rfl⟩

/-- **C125**, negative: `1.0` is read as a double, printed as `1` and then read as an integer -/
theorem C125_integer_false [Libc] (h : Libc.lg (Libc.strtod [49, 46, 48]) = [49]) :
    ∃ d t b t', parsex 5 [49, 46, 48, 0] 3 true = .ok (some (.value (some (.atom (.dbl d))), t)) ∧
      asprint 1 false (.atom (.dbl d)) = .ok (some (b, 1)) ∧ b.take 2 = ([49, 0] : List Byte).map some ∧
      parsex 5 [49, 0] 1 true = .ok (some (.value (some (.atom (.i64 1))), t')) := by
  obtain ⟨b, h1, h2⟩ := C33_compact (.atom (.dbl (Libc.strtod [49, 46, 48]))) (by rw [Val.height]; omega) trivial 1 (by rw [nsteps]; omega)
  have e : compact (.atom (.dbl (Libc.strtod [49, 46, 48]))) = [49] := by rw [compact]; exact h
  rw [e] at h1 h2
  exact ⟨_, _, b, _, rfl, h1, h2, rfl⟩

/-- **C125**, negative: six digits are printed, so that of `0.1234567` the double of `0.123457` comes back -/
theorem C125_digits_false [Libc] (h : Libc.lg (Libc.strtod [48, 46, 49, 50, 51, 52, 53, 54, 55]) = [48, 46, 49, 50, 51, 52, 53, 55])
    (hne : Libc.strtod [48, 46, 49, 50, 51, 52, 53, 55] ≠ Libc.strtod [48, 46, 49, 50, 51, 52, 53, 54, 55]) :
    ∃ d d' t b t', parsex 5 [48, 46, 49, 50, 51, 52, 53, 54, 55, 0] 9 true = .ok (some (.value (some (.atom (.dbl d))), t)) ∧
      asprint 1 false (.atom (.dbl d)) = .ok (some (b, 8)) ∧
      b.take 9 = ([48, 46, 49, 50, 51, 52, 53, 55, 0] : List Byte).map some ∧
      parsex 5 [48, 46, 49, 50, 51, 52, 53, 55, 0] 8 true = .ok (some (.value (some (.atom (.dbl d'))), t')) ∧ d' ≠ d := by
  obtain ⟨b, h1, h2⟩ := C33_compact (.atom (.dbl (Libc.strtod [48, 46, 49, 50, 51, 52, 53, 54, 55]))) (by rw [Val.height]; omega) trivial 1 (by rw [nsteps]; omega)
  have e : compact (.atom (.dbl (Libc.strtod [48, 46, 49, 50, 51, 52, 53, 54, 55]))) = [48, 46, 49, 50, 51, 52, 53, 55] := by
    rw [compact]; exact h
  rw [e] at h1 h2
  exact ⟨_, _, _, b, _, rfl, h1, h2, rfl, hne⟩

/-- libraries like that -/
example : ∃ i : Libc, i.lg (i.strtod [49, 101, 57, 57, 57]) = [105, 110, 102] :=
  ⟨⟨fun _ => [105, 110, 102], by simp, by simp, fun _ => 0⟩, rfl⟩
example : ∃ i : Libc, i.lg (i.strtod [49, 46, 48]) = [49] := ⟨⟨fun _ => [49], by simp, by simp, fun _ => 0⟩, rfl⟩
example : ∃ i : Libc, i.lg (i.strtod [48, 46, 49, 50, 51, 52, 53, 54, 55]) = [48, 46, 49, 50, 51, 52, 53, 55] ∧
    i.strtod [48, 46, 49, 50, 51, 52, 53, 55] ≠ i.strtod [48, 46, 49, 50, 51, 52, 53, 54, 55] :=
  ⟨⟨fun _ => [48, 46, 49, 50, 51, 52, 53, 55], by simp, by simp, fun s => UInt64.ofNat s.length⟩, rfl, by decide⟩

/-! ## C126 -/

/-- **C126**: what `cee_json_asprint` prints is a JSON text of RFC 8259, in the compact and in the pretty
format, for every value without `undefined` whose strings and keys are Unicode text and whose doubles are printed
as numbers (blobs and unsigned integers included): the lexemes of a document without commas before a closing
bracket, with white space between them only. -/
theorem C126_rfc [Libc] (f : Bool) (v : Val) (ha : v.All rfcAtom rtText)
    (hh : if f then v.height ≤ 128 else v.height < 500) (n : Nat) (hn : nsteps v ≤ n) :
    ∃ b text, asprint n f v = .ok (some (b, text.length)) ∧ b.take (text.length + 1) = (text ++ [0]).map some ∧
      ∃ x : Syn, x.Strict ∧ RfcSpells text x.toks := by
  obtain ⟨h1, h2⟩ := rfc_render f ha
  cases f with
  | true =>
    obtain ⟨b, e1, e2⟩ := C33_pretty v (by simpa using hh) n hn
    exact ⟨b, _, e1, e2, _, h1, h2⟩
  | false =>
    have hs := rfc_short ha
    obtain ⟨b, e1, e2⟩ := C33_compact v (by simpa using hh) hs n hn
    rw [render_compact v hs] at h2
    exact ⟨b, _, e1, e2, _, h1, h2⟩

/-- `[18446744073709551615,{"k":<blob of 3 bytes>}]` is such a value -/
example [Libc] : (Val.arr [.atom (.u64 (2 ^ 64 - 1)), .obj [([107], .atom (.blob 3))]]).All rfcAtom rtText ∧
    (Val.arr [.atom (.u64 (2 ^ 64 - 1)), .obj [([107], .atom (.blob 3))]]).height ≤ 128 := by
  refine ⟨?_, by decide⟩
  simp only [Val.All, AllL, AllF, and_true]
  exact ⟨trivial, ⟨⟨['k'], by decide, by decide⟩, by simp⟩, trivial⟩

/-- **C126**, negative: the text of `undefined` is no JSON -/
theorem C126_undefined_false [Libc] : ∃ b text, asprint 1 false (.atom .undef) = .ok (some (b, text.length)) ∧
    b.take (text.length + 1) = (text ++ [0]).map some ∧ ¬ ∃ x : Syn, RfcSpells text x.toks := by
  obtain ⟨b, h1, h2⟩ := C33_compact (.atom .undef) (by decide) trivial 1 (by decide)
  refine ⟨b, _, h1, h2, ?_⟩
  rintro ⟨x, h⟩
  have h := h.spells
  rw [compact, atomSpec] at h
  have := spells_start h
  revert this
  decide

/-- **C126**, negative: neither is that of an infinite double -/
theorem C126_inf_false [Libc] (d : UInt64) (h : Libc.lg d = [105, 110, 102]) :
    ∃ b text, asprint 1 false (.atom (.dbl d)) = .ok (some (b, text.length)) ∧
      b.take (text.length + 1) = (text ++ [0]).map some ∧ ¬ ∃ x : Syn, RfcSpells text x.toks := by
  obtain ⟨b, h1, h2⟩ := C33_compact (.atom (.dbl d)) (by rw [Val.height]; omega) trivial 1 (by rw [nsteps]; omega)
  refine ⟨b, _, h1, h2, ?_⟩
  rintro ⟨x, hx⟩
  have hx := hx.spells
  rw [compact, atomSpec, h] at hx
  have := spells_start hx
  revert this
  decide

/-- **C126**, negative: a string that is not UTF-8 is printed as it is, which is no JSON -/
theorem C126_latin1_false [Libc] : ∃ b text, asprint 1 false (.atom (.str [255])) = .ok (some (b, text.length)) ∧
    b.take (text.length + 1) = (text ++ [0]).map some ∧ ¬ ∃ x : Syn, RfcSpells text x.toks := by
  obtain ⟨b, h1, h2⟩ := C33_compact (.atom (.str [255])) (by decide) (by show [255].length < 2 ^ 32; decide) 1 (by decide)
  refine ⟨b, _, h1, h2, ?_⟩
  rintro ⟨x, hx⟩
  generalize x.toks = ts at hx
  have e : compact (.atom (.str [255])) = [34, 255, 34] := rfl
  rw [e] at hx
  generalize hw : ([34, 255, 34] : List Byte) = w at hx
  cases hx with
  | nil => cases hw
  | ws hc _ => cases hw; rcases hc with h | h | h | h <;> cases h
  | @tok w1 t s ts hl _ =>
    cases hl with
    | num h =>
      obtain ⟨c, m, rfl, hd⟩ := h.number.start
      simp only [List.cons_append, List.cons.injEq] at hw
      obtain ⟨rfl, -⟩ := hw
      revert hd; decide
    | @str q cs hq h0 hd =>
      rw [List.cons_append, List.cons.injEq] at hw
      have hw := hw.2
      cases q with
      | nil => cases hw
      | cons c q =>
        simp only [List.cons_append, List.cons.injEq] at hw
        obtain ⟨rfl, hw⟩ := hw
        cases q with
        | nil => exact C92_not_rfc ⟨_, .str hq h0 hd⟩
        | cons c q =>
          simp only [List.cons_append, List.cons.injEq] at hw
          obtain ⟨-, hw⟩ := hw
          simp at hw
    | _ => simp at hw

end Verif.Json.Props
