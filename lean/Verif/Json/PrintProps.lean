import Verif.Json.Print
import Verif.Json.UnescapeProps

/-! # Properties C32, C33 and C34: printing -/

namespace Verif.Json

/-! ## what an operation writes -/

/-- `o'` is `o` with `w` written at the offset, which is past it now; cells after that are not specified -/
def Wrote (o o' : Out) (w : List Byte) : Prop :=
  o'.off = o.off + w.length ∧
    match o.buf with
    | none => o'.buf = none
    | some b => ∃ b', o'.buf = some b' ∧ b'.length = b.length ∧
        b'.take (o.off + w.length) = b.take o.off ++ w.map some

/-- there are `n` cells left from the offset on -/
def Room (o : Out) (n : Nat) : Prop := ∀ b, o.buf = some b → o.off + n ≤ b.length

/-- the operation writes `w` if there are `m` cells left -/
def Does (op : Out → Res Out) (w : List Byte) (m : Nat) : Prop :=
  w.length ≤ m ∧ ∀ o, Room o m → ∃ o', op o = .ok o' ∧ Wrote o o' w

theorem Room.mono {o : Out} {n m : Nat} (h : Room o n) (hm : m ≤ n) : Room o m :=
  fun b hb => by have := h b hb; omega

theorem Wrote.room {o o' : Out} {w : List Byte} (h : Wrote o o' w) {n : Nat}
    (hr : Room o (w.length + n)) : Room o' n := by
  intro b' hb'
  obtain ⟨h1, h2⟩ := h
  match hb : o.buf with
  | none => rw [hb] at h2; simp only at h2; rw [h2] at hb'; cases hb'
  | some b =>
    rw [hb] at h2
    obtain ⟨b2, e1, e2, -⟩ := h2
    rw [e1] at hb'
    cases hb'
    have := hr b hb
    omega

theorem Wrote.refl (o : Out) : Wrote o o [] := by
  refine ⟨by simp, ?_⟩
  match o.buf with
  | none => rfl
  | some b => exact ⟨b, rfl, rfl, by simp⟩

theorem Wrote.trans {o o1 o2 : Out} {w1 w2 : List Byte} (h1 : Wrote o o1 w1) (h2 : Wrote o1 o2 w2) :
    Wrote o o2 (w1 ++ w2) := by
  obtain ⟨a1, b1⟩ := h1
  obtain ⟨a2, b2⟩ := h2
  refine ⟨by rw [a2, a1]; simp; omega, ?_⟩
  match hb : o.buf with
  | none =>
    rw [hb] at b1; simp only at b1
    rw [b1] at b2; exact b2
  | some b =>
    rw [hb] at b1
    obtain ⟨b', e1, e2, e3⟩ := b1
    rw [e1] at b2
    obtain ⟨b'', e4, e5, e6⟩ := b2
    refine ⟨b'', e4, by omega, ?_⟩
    rw [a1, e3] at e6
    rw [List.length_append, ← Nat.add_assoc, e6]
    simp

theorem overwrite_length {b : List (Option Byte)} {i : Nat} {bs : List Byte} (h : i + bs.length ≤ b.length) :
    (overwrite b i bs).length = b.length := by
  simp [overwrite]; omega

theorem overwrite_take {b : List (Option Byte)} {i : Nat} {bs : List Byte} (h : i + bs.length ≤ b.length) :
    (overwrite b i bs).take (i + bs.length) = b.take i ++ bs.map some := by
  unfold overwrite
  rw [List.take_append_of_le_length (by simp; omega), List.take_of_length_le (by simp; omega)]

/-- writing somewhere after the offset changes nothing before it -/
theorem overwrite_take_le {b : List (Option Byte)} {i n : Nat} {bs : List Byte}
    (h : i + bs.length ≤ b.length) (hn : n ≤ i) : (overwrite b i bs).take n = b.take n := by
  unfold overwrite
  rw [List.append_assoc, List.take_append_of_le_length (by simp; omega), List.take_take,
    Nat.min_eq_left hn]

theorem Does.mono {op : Out → Res Out} {w : List Byte} {m m' : Nat} (h : Does op w m) (hm : m ≤ m') :
    Does op w m' := ⟨by have := h.1; omega, fun o ho => h.2 o (ho.mono hm)⟩

theorem Does.seq {op1 op2 : Out → Res Out} {w1 w2 : List Byte} {m1 m2 m : Nat} (h1 : Does op1 w1 m1)
    (h2 : Does op2 w2 m2) (hm1 : m1 ≤ m) (hm2 : w1.length + m2 ≤ m) :
    Does (fun o => (op1 o).bind op2) (w1 ++ w2) m := by
  refine ⟨by have := h2.1; simp; omega, fun o ho => ?_⟩
  obtain ⟨o1, e1, r1⟩ := h1.2 o (ho.mono hm1)
  obtain ⟨o2, e2, r2⟩ := h2.2 o1 (r1.room (ho.mono hm2))
  exact ⟨o2, by simp only [e1, Res.bind_ok, e2], r1.trans r2⟩

theorem does_ok : Does (fun o => .ok o) [] 0 :=
  ⟨Nat.le_refl _, fun o _ => ⟨o, rfl, Wrote.refl o⟩⟩

theorem does_emit (w : List Byte) : Does (fun o => o.emit w) w w.length := by
  refine ⟨Nat.le_refl _, fun o ho => ?_⟩
  unfold Out.emit Out.write
  obtain ⟨buf, off⟩ := o
  cases buf with
  | none => exact ⟨_, rfl, rfl, rfl⟩
  | some b =>
    have := ho b rfl
    simp only at this
    simp only [if_pos this, Res.map_ok']
    exact ⟨_, rfl, rfl, _, rfl, overwrite_length this, overwrite_take this⟩

theorem does_pad_off (t : Int) : Does (pad false t) [] 0 :=
  ⟨Nat.le_refl _, fun o _ => ⟨o, rfl, Wrote.refl o⟩⟩

theorem does_pad (t : Nat) : Does (pad true t) (List.replicate t 9) t := by
  have h := does_emit (List.replicate t 9)
  rw [List.length_replicate] at h
  refine ⟨h.1, fun o ho => ?_⟩
  obtain ⟨o', e, r⟩ := h.2 o ho
  refine ⟨o', ?_, r⟩
  rw [← e]
  unfold pad Out.emit addTabs
  simp only [Bool.not_true, Bool.false_eq_true, if_false, Int.toNat_natCast, List.length_replicate]
  congr 1

theorem does_delim_off (t : Int) (c : Byte) : Does (delimiter false t c) [c] 1 := does_emit [c]

theorem does_open (t : Nat) (c : Byte) (hc : c = 91 ∨ c = 123) :
    Does (delimiter true t c) [c, 10] (max t 2) := by
  refine ⟨by simp only [List.length_cons, List.length_nil]; omega, fun o ho => ?_⟩
  have hcc : (c == 91 || c == 123) = true := by rcases hc with rfl | rfl <;> rfl
  obtain ⟨o1, e1, r1⟩ := (does_pad t).2 o (ho.mono (by omega))
  unfold delimiter
  simp only [Bool.not_true, Bool.false_eq_true, if_false, hcc, if_true, e1, Res.bind_ok]
  unfold Out.write
  obtain ⟨h1, h2⟩ := r1
  match hb : o.buf with
  | none =>
    rw [hb] at h2; simp only at h2
    rw [h2]
    refine ⟨_, rfl, rfl, ?_⟩
    rw [hb]
    exact h2
  | some b =>
    rw [hb] at h2
    obtain ⟨b', e2, e3, e4⟩ := h2
    have hl := ho b hb
    have hl2 : o.off + [c, 10].length ≤ b'.length := by
      simp only [List.length_cons, List.length_nil]; omega
    rw [e2]
    simp only [if_pos hl2, Res.map_ok']
    refine ⟨_, rfl, rfl, ?_⟩
    rw [hb]
    refine ⟨_, rfl, by rw [overwrite_length hl2, e3], ?_⟩
    rw [overwrite_take hl2]
    have := congrArg (List.take o.off) e4
    rw [List.take_take, Nat.min_eq_left (by omega), List.take_append_of_le_length (by simp; omega),
      List.take_take, Nat.min_self] at this
    rw [this]

theorem does_close (t : Nat) (c : Byte) (hc : c = 93 ∨ c = 125) :
    Does (delimiter true t c) (10 :: List.replicate t 9 ++ [c, 10]) (t + 3) := by
  have h : Does (fun o => (o.emit [10]).bind fun o => (pad true t o).bind fun o => (o.emit [c]).bind
      fun o => o.emit [10]) ([10] ++ (List.replicate t 9 ++ ([c] ++ [10]))) (t + 3) := by
    refine (does_emit [10]).seq (m2 := t + 2) ((does_pad t).seq (m2 := 2) ((does_emit [c]).seq
      (does_emit [10]) ?_ ?_) ?_ ?_) ?_ ?_ <;> simp <;> omega
  have h2 : (fun o : Out => (o.emit [10]).bind fun o => (pad true t o).bind fun o => (o.emit [c]).bind
      fun o => o.emit [10]) = delimiter true t c := by
    funext o
    unfold delimiter
    rcases hc with rfl | rfl <;> rfl
  rw [h2] at h
  simpa using h

theorem does_colon (t : Int) : Does (delimiter true t 58) [32, 58, 9] 3 := does_emit [32, 58, 9]

theorem does_comma (t : Int) : Does (delimiter true t 44) [44, 10] 2 := does_emit [44, 10]

theorem does_strLoop (s : List Byte) : ∀ last : List Byte,
    Does (fun o => strLoop o last s) (last ++ escape s) (last ++ escape s).length := by
  induction s with
  | nil => intro last; simpa [strLoop, escape] using does_emit last
  | cons c s ih =>
    intro last
    have e : escape (c :: s) = (addon c).getD [c] ++ escape s := rfl
    rw [e]
    cases ha : addon c with
    | none =>
      have := ih (last ++ [c])
      simp only [strLoop, ha, Option.getD_none]
      rw [List.append_assoc] at this
      exact this
    | some a =>
      simp only [strLoop, ha, Option.getD_some]
      have := ih []
      simp only [List.nil_append] at this
      refine (does_emit last).seq ((does_emit a).seq this (m := (a ++ escape s).length) ?_ ?_) ?_ ?_ <;> simp

/-- the literal written for a string: `len` is truncated to 32 bits -/
def quoted (s : List Byte) : List Byte := [34] ++ (escape (s.take (s.length % 2 ^ 32)) ++ [34])

theorem does_strAppend (s : List Byte) : Does (strAppend s) (quoted s) (quoted s).length := by
  have := does_strLoop (s.take (s.length % 2 ^ 32)) []
  simp only [List.nil_append] at this
  unfold strAppend quoted
  refine (does_emit [34]).seq (this.seq (does_emit [34]) (m := _) (Nat.le_of_lt (Nat.lt_succ_self _)) ?_) ?_ ?_
  all_goals simp
  omega

theorem does_num (t : List Byte) : Does (numAppend t) t (t.length + 1) := by
  refine ⟨by omega, fun o ho => ?_⟩
  unfold numAppend Out.write
  obtain ⟨buf, off⟩ := o
  cases buf with
  | none => exact ⟨_, rfl, rfl, rfl⟩
  | some b =>
    have h := ho b rfl
    simp only at h
    have h' : off + (t ++ [0]).length ≤ b.length := by simp; omega
    simp only [if_pos h', Res.map_ok']
    refine ⟨_, rfl, rfl, _, rfl, overwrite_length h', ?_⟩
    have := congrArg (List.take (off + t.length)) (overwrite_take h')
    rw [List.take_take, Nat.min_eq_left (by simp)] at this
    simp only at this ⊢
    rw [this, List.map_append, ← List.append_assoc, List.take_append_of_le_length (by simp; omega),
      List.take_of_length_le (by simp; omega)]

/-! ## the text of a value -/

/-- indentation -/
def padding (f : Bool) (t : Nat) : List Byte := if f then List.replicate t 9 else []

/-- the text of an atom -/
def atomBytes [Libc] : Atom → List Byte
  | .null => [110, 117, 108, 108]
  | .bool b => if b then [116, 114, 117, 101] else [102, 97, 108, 115, 101]
  | .undef => [117, 110, 100, 101, 102, 105, 110, 101, 100]
  | .str s => quoted s
  | .strn s => quoted s
  | .blob n => quoted (blobText n)
  | .dbl d => Libc.lg d
  | .i64 n => intText n
  | .u64 n => dec n

/-- opening bracket -/
def opening (f : Bool) (c : Byte) : List Byte := if f then [c, 10] else [c]
/-- closing bracket on a line of its own -/
def closing (f : Bool) (t : Nat) (c : Byte) : List Byte :=
  if f then 10 :: List.replicate t 9 ++ [c, 10] else [c]
/-- comma -/
def comma (f : Bool) : List Byte := if f then [44, 10] else [44]
/-- colon -/
def colon (f : Bool) : List Byte := if f then [32, 58, 9] else [58]

mutual
/-- the text of a value at indentation `t` -/
def render [Libc] (f : Bool) (t : Nat) : Val → List Byte
  | .atom a => padding f t ++ atomBytes a
  | .arr xs => opening f 91 ++ (renderL f t xs ++ closing f t 93)
  | .obj kvs => opening f 123 ++ (renderF f t kvs ++ closing f t 125)
/-- the elements of an array, separated by commas -/
def renderL [Libc] (f : Bool) (t : Nat) : List Val → List Byte
  | [] => []
  | x :: xs => render f (t + 1) x ++ (if xs.isEmpty then [] else comma f) ++ renderL f t xs
/-- the entries of an object, separated by commas -/
def renderF [Libc] (f : Bool) (t : Nat) : List (List Byte × Val) → List Byte
  | [] => []
  | (k, x) :: xs => padding f t ++ quoted k ++ colon f ++
      (render f (t + 1) x ++ (if xs.isEmpty then [] else comma f)) ++ renderF f t xs
end

mutual
/-- number of iterations of the loop for a value -/
def nsteps : Val → Nat
  | .atom _ => 1
  | .arr xs => 1 + nstepsL xs
  | .obj kvs => 1 + nstepsF kvs
/-- number of iterations for the elements -/
def nstepsL : List Val → Nat
  | [] => 0
  | x :: xs => nsteps x + 1 + nstepsL xs
/-- number of iterations for the entries -/
def nstepsF : List (List Byte × Val) → Nat
  | [] => 0
  | (_, x) :: xs => nsteps x + 1 + nstepsF xs
end

theorem does_atom [Libc] (a : Atom) : Does (atomText a) (atomBytes a) ((atomBytes a).length + 1) := by
  cases a with
  | undef => exact (does_emit _).mono (Nat.le_succ _)
  | null => exact (does_emit _).mono (Nat.le_succ _)
  | bool b => exact (does_emit _).mono (Nat.le_succ _)
  | dbl d => exact does_num _
  | i64 n => exact does_num _
  | u64 n => exact does_num _
  | str s => exact (does_strAppend s).mono (Nat.le_succ _)
  | strn s => exact (does_strAppend s).mono (Nat.le_succ _)
  | blob n => exact (does_strAppend _).mono (Nat.le_succ _)

/-- the tabs of a frame are what the specification says; only looked at in the pretty format -/
def Tabs (f : Bool) (τ : Int) (t : Nat) : Prop := f = true → τ = t

theorem does_padding {f : Bool} {τ : Int} {t : Nat} (h : Tabs f τ t) :
    Does (pad f τ) (padding f t) (padding f t).length := by
  cases f with
  | false => exact does_pad_off τ
  | true => rw [h rfl]; simpa [padding] using does_pad t

theorem does_comma' (f : Bool) (τ : Int) : Does (delimiter f τ 44) (comma f) (comma f).length := by
  cases f with
  | false => exact does_delim_off τ 44
  | true => exact does_comma τ

theorem does_colon' (f : Bool) (τ : Int) : Does (delimiter f τ 58) (colon f) (colon f).length := by
  cases f with
  | false => exact does_delim_off τ 58
  | true => exact does_colon τ

theorem does_opening {f : Bool} {τ : Int} {t : Nat} (h : Tabs f τ t) (c : Byte) (hc : c = 91 ∨ c = 123) :
    Does (delimiter f τ c) (opening f c) (max (if f then t else 0) (opening f c).length) := by
  cases f with
  | false => exact (does_delim_off τ c).mono (by simp [opening])
  | true => rw [h rfl]; exact does_open t c hc

theorem does_closing {f : Bool} {τ : Int} {t : Nat} (h : Tabs f τ t) (c : Byte) (hc : c = 93 ∨ c = 125) :
    Does (delimiter f τ c) (closing f t c) (closing f t c).length := by
  cases f with
  | false => exact does_delim_off τ c
  | true =>
    rw [h rfl]
    have := does_close t c hc
    simpa [closing] using this

theorem does_sep (f : Bool) (fr : Frame) :
    Does (sep f fr) (if fr.more then comma f else []) (if fr.more then comma f else []).length := by
  unfold sep
  cases fr.more with
  | false => exact does_ok
  | true => exact does_comma' f fr.tabs

theorem closing_length (f : Bool) (t : Nat) (c : Byte) :
    (closing f t c).length = if f then t + 3 else 1 := by
  cases f <;> simp [closing]

theorem toChar_small {i : Int} (h0 : 0 ≤ i) (h : i ≤ 127) : toChar i = i := by
  unfold toChar
  rw [Int.bmod_eq_of_le] <;> omega

theorem run_succ [Libc] (f : Bool) (n : Nat) (fr : Frame) (stk : List Frame) (o : Out)
    (h : stk.length + 1 < 500) :
    run f (n + 1) (fr :: stk) o = (step f fr stk o).bind fun r => run f n r.1 r.2 := by
  rw [run, if_neg (by omega)]

/-- what the simulation says of a value -/
def Sim [Libc] (v : Val) : Prop :=
  ∀ (f : Bool) (t : Nat) (τ : Int) (more : Bool) (stk : List Frame), Tabs f τ t →
    (f = true → t + v.height ≤ 128) → stk.length + v.height ≤ 499 →
    ∀ o, Room o ((render f t v ++ if more then comma f else []).length + 1) →
    ∃ o', Wrote o o' (render f t v ++ if more then comma f else []) ∧
      ∀ n, run f (n + nsteps v) (⟨0, τ, more, v⟩ :: stk) o = run f n stk o'

theorem tabs_succ {f : Bool} {τ : Int} {t : Nat} (h : Tabs f τ t) (hf : f = true → t + 1 ≤ 127) :
    Tabs f (toChar (τ + 1)) (t + 1) := by
  intro e
  rw [h e, toChar_small (by omega) (by have := hf e; omega)]
  omega

theorem afterArr_none (f : Bool) (xs : List Val) (fr : Frame) (stk : List Frame) (o : Out)
    (h : xs.length ≤ fr.next) :
    afterArr f xs fr stk o = (delimiter f fr.tabs 93 o).bind fun o => (sep f fr o).map fun o => (stk, o) := by
  unfold afterArr
  rw [List.getElem?_eq_none h]

theorem afterObj_none (f : Bool) (xs : List (List Byte × Val)) (fr : Frame) (stk : List Frame) (o : Out)
    (h : xs.length ≤ fr.next) :
    afterObj f xs fr stk o = (delimiter f fr.tabs 125 o).bind fun o => (sep f fr o).map fun o => (stk, o) := by
  unfold afterObj
  rw [List.getElem?_eq_none h]

/-- the elements from the `i`-th on, and the closing bracket -/
theorem sim_elems [Libc] (f : Bool) (t : Nat) (τ : Int) (more : Bool) (stk : List Frame) (ht : Tabs f τ t)
    (ys : List Val) : ∀ (pre : List Val), (∀ y ∈ ys, Sim y) →
    (∀ y ∈ ys, f = true → t + 1 + y.height ≤ 128) → (∀ y ∈ ys, stk.length + 1 + y.height ≤ 499) →
    stk.length + 1 < 500 →
    ∀ o, Room o ((renderL f t ys ++ (closing f t 93 ++ if more then comma f else [])).length + 1) →
    ∃ o', Wrote o o' (renderL f t ys ++ (closing f t 93 ++ if more then comma f else [])) ∧
      ∀ n, ((afterArr f (pre ++ ys) ⟨pre.length, τ, more, .arr (pre ++ ys)⟩ stk o).bind
        fun r => run f (n + nstepsL ys) r.1 r.2) = run f n stk o' := by
  induction ys with
  | nil =>
    intro pre _ _ _ _ o ho
    rw [List.append_nil]
    have hd := (does_closing ht 93 (.inl rfl)).seq (does_sep f ⟨pre.length, τ, more, .arr pre⟩)
      (m := _) (Nat.le_add_right _ _) (Nat.le_refl _)
    obtain ⟨o', e, r⟩ := hd.2 o (ho.mono (by simp [renderL]))
    refine ⟨o', by simpa [renderL] using r, fun n => ?_⟩
    rw [afterArr_none _ _ _ _ _ (Nat.le_refl _)]
    obtain ⟨o1, e1, e2⟩ := Res.bind_eq_ok.1 e
    simp only [e1, Res.bind_ok, e2, Res.map_ok', nstepsL, Nat.add_zero]
  | cons y ys ih =>
    intro pre hs hh hl hstk o ho
    have hr : renderL f t (y :: ys) ++ (closing f t 93 ++ if more then comma f else []) =
        (render f (t + 1) y ++ if (!ys.isEmpty) = true then comma f else []) ++
          (renderL f t ys ++ (closing f t 93 ++ if more then comma f else [])) := by
      rw [renderL]
      cases ys <;> simp
    rw [hr] at ho ⊢
    have hy := y.height_pos
    have h1 := hh y (List.mem_cons_self ..)
    have h2 := hl y (List.mem_cons_self ..)
    have ht' : Tabs f (toChar (τ + 1)) (t + 1) := tabs_succ ht (fun e => by have := h1 e; omega)
    obtain ⟨o1, r1, e1⟩ := hs y (List.mem_cons_self ..) f (t + 1) (toChar (τ + 1)) (!ys.isEmpty)
      (⟨pre.length + 1, τ, more, .arr (pre ++ y :: ys)⟩ :: stk) ht' h1 (by simpa using h2) o
      (ho.mono (by simp only [List.length_append]; omega))
    have ho1 : Room o1 ((renderL f t ys ++ (closing f t 93 ++ if more then comma f else [])).length + 1) :=
      r1.room (ho.mono (by simp only [List.length_append]; omega))
    obtain ⟨o2, r2, e2⟩ := ih (pre ++ [y]) (fun z hz => hs z (List.mem_cons_of_mem _ hz))
      (fun z hz => hh z (List.mem_cons_of_mem _ hz)) (fun z hz => hl z (List.mem_cons_of_mem _ hz)) hstk o1 ho1
    refine ⟨o2, r1.trans r2, fun n => ?_⟩
    have ha : afterArr f (pre ++ y :: ys) ⟨pre.length, τ, more, .arr (pre ++ y :: ys)⟩ stk o =
        .ok (⟨0, toChar (τ + 1), !ys.isEmpty, y⟩ ::
          ⟨pre.length + 1, τ, more, .arr (pre ++ y :: ys)⟩ :: stk, o) := by
      unfold afterArr mkFrame
      have : (pre ++ y :: ys)[pre.length]? = some y := by simp
      simp only [this]
      congr 3
      cases ys <;> simp
    rw [ha, Res.bind_ok]
    have hn : n + nstepsL (y :: ys) = (n + nstepsL ys + 1) + nsteps y := by rw [nstepsL]; omega
    simp only [hn, e1]
    rw [run_succ _ _ _ _ _ hstk]
    have hst : step f ⟨pre.length + 1, τ, more, .arr (pre ++ y :: ys)⟩ stk o1 =
        afterArr f (pre ++ y :: ys) ⟨pre.length + 1, τ, more, .arr (pre ++ y :: ys)⟩ stk o1 := by
      unfold step
      simp [Res.bind_ok]
    rw [hst]
    have := e2 n
    simpa using this

/-- the entries from the `i`-th on, and the closing brace -/
theorem sim_fields [Libc] (f : Bool) (t : Nat) (τ : Int) (more : Bool) (stk : List Frame) (ht : Tabs f τ t)
    (ys : List (List Byte × Val)) : ∀ (pre : List (List Byte × Val)), (∀ y ∈ ys, Sim y.2) →
    (∀ y ∈ ys, f = true → t + 1 + y.2.height ≤ 128) → (∀ y ∈ ys, stk.length + 1 + y.2.height ≤ 499) →
    stk.length + 1 < 500 →
    ∀ o, Room o ((renderF f t ys ++ (closing f t 125 ++ if more then comma f else [])).length + 1) →
    ∃ o', Wrote o o' (renderF f t ys ++ (closing f t 125 ++ if more then comma f else [])) ∧
      ∀ n, ((afterObj f (pre ++ ys) ⟨pre.length, τ, more, .obj (pre ++ ys)⟩ stk o).bind
        fun r => run f (n + nstepsF ys) r.1 r.2) = run f n stk o' := by
  induction ys with
  | nil =>
    intro pre _ _ _ _ o ho
    rw [List.append_nil]
    have hd := (does_closing ht 125 (.inr rfl)).seq (does_sep f ⟨pre.length, τ, more, .obj pre⟩)
      (m := _) (Nat.le_add_right _ _) (Nat.le_refl _)
    obtain ⟨o', e, r⟩ := hd.2 o (ho.mono (by simp [renderF]))
    refine ⟨o', by simpa [renderF] using r, fun n => ?_⟩
    rw [afterObj_none _ _ _ _ _ (Nat.le_refl _)]
    obtain ⟨o1, e1, e2⟩ := Res.bind_eq_ok.1 e
    simp only [e1, Res.bind_ok, e2, Res.map_ok', nstepsF, Nat.add_zero]
  | cons y ys ih =>
    intro pre hs hh hl hstk o ho
    obtain ⟨k, y⟩ := y
    have hr : renderF f t ((k, y) :: ys) ++ (closing f t 125 ++ if more then comma f else []) =
        (padding f t ++ (quoted k ++ colon f)) ++
        ((render f (t + 1) y ++ if (!ys.isEmpty) = true then comma f else []) ++
          (renderF f t ys ++ (closing f t 125 ++ if more then comma f else []))) := by
      rw [renderF]
      cases ys <;> simp
    rw [hr] at ho ⊢
    have hy := y.height_pos
    have h1 := hh (k, y) (List.mem_cons_self ..)
    have h2 := hl (k, y) (List.mem_cons_self ..)
    simp only at h1 h2
    have ht' : Tabs f (toChar (τ + 1)) (t + 1) := tabs_succ ht (fun e => by have := h1 e; omega)
    have hd : Does (fun o => (pad f τ o).bind fun o => (strAppend k o).bind fun o => delimiter f τ 58 o)
        (padding f t ++ (quoted k ++ colon f)) (padding f t ++ (quoted k ++ colon f)).length := by
      refine (does_padding ht).seq ((does_strAppend k).seq (does_colon' f τ) (m := (quoted k ++ colon f).length)
        ?_ ?_) ?_ ?_ <;> simp
    obtain ⟨o0, e0, r0⟩ := hd.2 o (ho.mono (by simp only [List.length_append]; omega))
    have ho0 := r0.room (n := ((render f (t + 1) y ++ if (!ys.isEmpty) = true then comma f else []) ++
          (renderF f t ys ++ (closing f t 125 ++ if more then comma f else []))).length + 1)
          (ho.mono (by simp only [List.length_append]; omega))
    obtain ⟨o1, r1, e1⟩ := hs (k, y) (List.mem_cons_self ..) f (t + 1) (toChar (τ + 1)) (!ys.isEmpty)
      (⟨pre.length + 1, τ, more, .obj (pre ++ (k, y) :: ys)⟩ :: stk) ht' h1 (by simpa using h2) o0
      (ho0.mono (by simp only [List.length_append]; omega))
    have ho1 : Room o1 ((renderF f t ys ++ (closing f t 125 ++ if more then comma f else [])).length + 1) :=
      r1.room (ho0.mono (by simp only [List.length_append]; omega))
    obtain ⟨o2, r2, e2⟩ := ih (pre ++ [(k, y)]) (fun z hz => hs z (List.mem_cons_of_mem _ hz))
      (fun z hz => hh z (List.mem_cons_of_mem _ hz)) (fun z hz => hl z (List.mem_cons_of_mem _ hz)) hstk o1 ho1
    refine ⟨o2, r0.trans (r1.trans r2), fun n => ?_⟩
    have ha : afterObj f (pre ++ (k, y) :: ys) ⟨pre.length, τ, more, .obj (pre ++ (k, y) :: ys)⟩ stk o =
        .ok (⟨0, toChar (τ + 1), !ys.isEmpty, y⟩ ::
          ⟨pre.length + 1, τ, more, .obj (pre ++ (k, y) :: ys)⟩ :: stk, o0) := by
      unfold afterObj mkFrame
      have : (pre ++ (k, y) :: ys)[pre.length]? = some (k, y) := by simp
      simp only [this]
      obtain ⟨oa, ea, e0⟩ := Res.bind_eq_ok.1 e0
      obtain ⟨ob, eb, e0⟩ := Res.bind_eq_ok.1 e0
      simp only [ea, Res.bind_ok, eb, e0, Res.map_ok']
      congr 3
      cases ys <;> simp
    rw [ha, Res.bind_ok]
    have hn : n + nstepsF ((k, y) :: ys) = (n + nstepsF ys + 1) + nsteps y := by rw [nstepsF]; omega
    simp only at e1
    simp only [hn, e1]
    rw [run_succ _ _ _ _ _ hstk]
    have hst : step f ⟨pre.length + 1, τ, more, .obj (pre ++ (k, y) :: ys)⟩ stk o1 =
        afterObj f (pre ++ (k, y) :: ys) ⟨pre.length + 1, τ, more, .obj (pre ++ (k, y) :: ys)⟩ stk o1 := by
      unfold step
      simp [Res.bind_ok]
    rw [hst]
    have := e2 n
    simpa using this

/-- running the loop on a value writes its text and removes its frame -/
theorem sim [Libc] (v : Val) : Sim v := by
  induction v using Val.ind with
  | h0 a =>
    intro f t τ more stk ht hf hl o ho
    have hd : Does (fun o => (pad f τ o).bind fun o => (atomText a o).bind fun o =>
        sep f ⟨0, τ, more, .atom a⟩ o)
        (padding f t ++ (atomBytes a ++ if more then comma f else []))
        ((padding f t ++ (atomBytes a ++ if more then comma f else [])).length + 1) := by
      refine (does_padding ht).seq ((does_atom a).seq (does_sep f ⟨0, τ, more, .atom a⟩)
        (m := (atomBytes a ++ if more then comma f else []).length + 1) ?_ ?_) ?_ ?_
      all_goals simp only [List.length_append]
      all_goals omega
    have hw : render f t (.atom a) ++ (if more then comma f else []) =
        padding f t ++ (atomBytes a ++ if more then comma f else []) := by simp [render]
    rw [hw] at ho ⊢
    obtain ⟨o', e, r⟩ := hd.2 o ho
    refine ⟨o', r, fun n => ?_⟩
    rw [Val.height] at hl
    rw [nsteps, run_succ _ _ _ _ _ (by omega)]
    obtain ⟨oa, ea, e⟩ := Res.bind_eq_ok.1 e
    obtain ⟨ob, eb, e⟩ := Res.bind_eq_ok.1 e
    simp only [step, ea, Res.bind_ok, eb, e, Res.map_ok']
  | ha xs ih =>
    intro f t τ more stk ht hf hl o ho
    rw [Val.height] at hf hl
    have hw : render f t (.arr xs) ++ (if more then comma f else []) =
        opening f 91 ++ (renderL f t xs ++ (closing f t 93 ++ if more then comma f else [])) := by
      simp [render]
    rw [hw] at ho ⊢
    have hc := closing_length f t 93
    obtain ⟨o1, e1, r1⟩ := (does_opening ht 91 (.inl rfl)).2 o (ho.mono (by
      simp only [List.length_append]
      split <;> simp_all <;> omega))
    have ho1 := r1.room (n := (renderL f t xs ++ (closing f t 93 ++ if more then comma f else [])).length + 1)
      (ho.mono (by simp only [List.length_append]; omega))
    obtain ⟨o2, r2, e2⟩ := sim_elems f t τ more stk ht xs [] ih
      (fun y hy e => by have := heightL_mem hy; have := hf e; omega)
      (fun y hy => by have := heightL_mem hy; omega) (by omega) o1 ho1
    refine ⟨o2, r1.trans r2, fun n => ?_⟩
    have hn : n + nsteps (.arr xs) = (n + nstepsL xs) + 1 := by rw [nsteps]; omega
    rw [hn, run_succ _ _ _ _ _ (by omega)]
    have := e2 n
    simp only [List.nil_append, List.length_nil] at this
    simp only [step, if_true, e1, Res.bind_ok]
    exact this
  | ho kvs ih =>
    intro f t τ more stk ht hf hl o ho
    rw [Val.height] at hf hl
    have hw : render f t (.obj kvs) ++ (if more then comma f else []) =
        opening f 123 ++ (renderF f t kvs ++ (closing f t 125 ++ if more then comma f else [])) := by
      simp [render]
    rw [hw] at ho ⊢
    have hc := closing_length f t 125
    obtain ⟨o1, e1, r1⟩ := (does_opening ht 123 (.inr rfl)).2 o (ho.mono (by
      simp only [List.length_append]
      split <;> simp_all <;> omega))
    have ho1 := r1.room (n := (renderF f t kvs ++ (closing f t 125 ++ if more then comma f else [])).length + 1)
      (ho.mono (by simp only [List.length_append]; omega))
    obtain ⟨o2, r2, e2⟩ := sim_fields f t τ more stk ht kvs [] ih
      (fun y hy e => by have := heightF_mem hy; have := hf e; omega)
      (fun y hy => by have := heightF_mem hy; omega) (by omega) o1 ho1
    refine ⟨o2, r1.trans r2, fun n => ?_⟩
    have hn : n + nsteps (.obj kvs) = (n + nstepsF kvs) + 1 := by rw [nsteps]; omega
    rw [hn, run_succ _ _ _ _ _ (by omega)]
    have := e2 n
    simp only [List.nil_append, List.length_nil] at this
    simp only [step, if_true, e1, Res.bind_ok]
    exact this

/-! ## the compact format at any depth -/

/-- iterations left for a frame -/
def frameSteps (fr : Frame) : Nat :=
  match fr.j with
  | .atom _ => 1
  | .arr xs => 1 + nstepsL (xs.drop fr.next)
  | .obj kvs => 1 + nstepsF (kvs.drop fr.next)

/-- iterations left for a stack -/
def stackSteps : List Frame → Nat
  | [] => 0
  | fr :: stk => frameSteps fr + stackSteps stk

theorem frameSteps_mk (t : Int) (m : Bool) (j : Val) : frameSteps (mkFrame t m j) = nsteps j := by
  cases j <;> simp [frameSteps, mkFrame, nsteps]

/-- turning a `Does` into a step that ends with a fixed stack -/
theorem does_map {op : Out → Res Out} {w : List Byte} {m : Nat} (h : Does op w m) (hm : m ≤ w.length + 1)
    (stk : List Frame) : ∀ o, Room o (w.length + 1) →
    ∃ o', ((op o).map fun o => (stk, o)) = .ok (stk, o') ∧ Wrote o o' w := by
  intro o ho
  obtain ⟨o', e, r⟩ := h.2 o (ho.mono hm)
  exact ⟨o', by rw [e, Res.map_ok'], r⟩

theorem bind_map {α β γ : Type} (x : Res α) (g : α → Res β) (h : β → γ) :
    (x.bind fun a => (g a).map h) = (x.bind g).map h := by
  cases x <;> rfl

theorem bind_bind {α β γ : Type} (x : Res α) (g : α → Res β) (h : β → Res γ) :
    ((x.bind g).bind h) = x.bind fun a => (g a).bind h := by
  cases x <;> rfl

/-- one step in the compact format: what is written does not depend on the output -/
theorem step_compact [Libc] (fr : Frame) (stk : List Frame) :
    ∃ stk' w, stackSteps stk' < stackSteps (fr :: stk) ∧ ∀ o, Room o (w.length + 1) →
      ∃ o', step false fr stk o = .ok (stk', o') ∧ Wrote o o' w := by
  obtain ⟨next, τ, more, j⟩ := fr
  have hopen : ∀ c : Byte, (c = 91 ∨ c = 123) →
      Does (fun o => if next = 0 then delimiter false τ c o else .ok o)
        (if next = 0 then [c] else []) (if next = 0 then [c] else []).length := by
    intro c _
    by_cases h : next = 0
    · simp only [h, if_true]; exact does_delim_off τ c
    · simp only [h, if_false]; exact does_ok
  have hsep := does_sep false ⟨next, τ, more, j⟩
  simp only at hsep
  cases j with
  | atom a =>
    refine ⟨stk, atomBytes a ++ (if more then comma false else []), by simp [stackSteps, frameSteps], ?_⟩
    have hd : Does (fun o => (pad false τ o).bind fun o => (atomText a o).bind (sep false ⟨next, τ, more, .atom a⟩))
        ([] ++ (atomBytes a ++ (if more then comma false else [])))
        ((atomBytes a ++ (if more then comma false else [])).length + 1) := by
      refine (does_pad_off τ).seq ((does_atom a).seq hsep
        (m := (atomBytes a ++ (if more then comma false else [])).length + 1) ?_ ?_) (Nat.zero_le _) ?_
      all_goals simp only [List.length_append, List.length_nil]
      all_goals omega
    simp only [List.nil_append] at hd
    intro o ho
    obtain ⟨o', e, r⟩ := does_map hd (Nat.le_refl _) stk o ho
    refine ⟨o', ?_, r⟩
    rw [← e]
    simp only [step, bind_map]
  | arr xs =>
    cases hx : xs[next]? with
    | some x =>
      refine ⟨mkFrame (τ + 1) (next + 1 < xs.length) x :: ⟨next + 1, τ, more, .arr xs⟩ :: stk,
        (if next = 0 then [91] else []), ?_, ?_⟩
      · obtain ⟨hlt, rfl⟩ := List.getElem?_eq_some_iff.1 hx
        simp only [stackSteps, frameSteps_mk]
        simp only [frameSteps]
        rw [List.drop_eq_getElem_cons hlt, nstepsL]
        omega
      · intro o ho
        obtain ⟨o', e, r⟩ := (hopen 91 (.inl rfl)).2 o (ho.mono (Nat.le_succ _))
        refine ⟨o', ?_, r⟩
        simp only at e
        simp only [step, e, Res.bind_ok, afterArr, hx]
    | none =>
      refine ⟨stk, (if next = 0 then [91] else []) ++ ([93] ++ (if more then comma false else [])),
        by simp only [stackSteps, frameSteps]; omega, ?_⟩
      have hd := (hopen 91 (.inl rfl)).seq ((does_delim_off τ 93).seq hsep
        (m := ([93] ++ (if more then comma false else [])).length) (by simp) (by simp; omega))
        (m := ((if next = 0 then [91] else []) ++ ([93] ++ (if more then comma false else []))).length)
        (by simp) (by simp)
      intro o ho
      obtain ⟨o', e, r⟩ := does_map hd (Nat.le_succ _) stk o ho
      refine ⟨o', ?_, r⟩
      rw [← e]
      simp only [step, afterArr, hx, bind_map]
  | obj kvs =>
    cases hx : kvs[next]? with
    | some kx =>
      obtain ⟨k, x⟩ := kx
      refine ⟨mkFrame (τ + 1) (next + 1 < kvs.length) x :: ⟨next + 1, τ, more, .obj kvs⟩ :: stk,
        (if next = 0 then [123] else []) ++ ([] ++ (quoted k ++ [58])), ?_, ?_⟩
      · obtain ⟨hlt, hx'⟩ := List.getElem?_eq_some_iff.1 hx
        simp only [stackSteps, frameSteps_mk]
        simp only [frameSteps]
        rw [List.drop_eq_getElem_cons hlt, hx', nstepsF]
        omega
      · have hd := (hopen 123 (.inr rfl)).seq ((does_pad_off τ).seq ((does_strAppend k).seq
          (does_delim_off τ 58) (m := (quoted k ++ [58]).length) (by simp) (by simp))
          (m := (quoted k ++ [58]).length) (by simp) (by simp))
          (m := ((if next = 0 then [123] else []) ++ ([] ++ (quoted k ++ [58]))).length)
          (by simp) (by simp)
        intro o ho
        obtain ⟨o', e, r⟩ := does_map hd (Nat.le_succ _)
          (mkFrame (τ + 1) (next + 1 < kvs.length) x :: ⟨next + 1, τ, more, .obj kvs⟩ :: stk) o ho
        refine ⟨o', ?_, r⟩
        rw [← e]
        simp only [step, afterObj, hx, bind_map]
    | none =>
      refine ⟨stk, (if next = 0 then [123] else []) ++ ([125] ++ (if more then comma false else [])),
        by simp only [stackSteps, frameSteps]; omega, ?_⟩
      have hd := (hopen 123 (.inr rfl)).seq ((does_delim_off τ 125).seq hsep
        (m := ([125] ++ (if more then comma false else [])).length) (by simp) (by simp; omega))
        (m := ((if next = 0 then [123] else []) ++ ([125] ++ (if more then comma false else []))).length)
        (by simp) (by simp)
      intro o ho
      obtain ⟨o', e, r⟩ := does_map hd (Nat.le_succ _) stk o ho
      refine ⟨o', ?_, r⟩
      rw [← e]
      simp only [step, afterObj, hx, bind_map]

/-- the loop in the compact format -/
theorem run_compact [Libc] (n : Nat) : ∀ stk, ∃ (fin : Bool) (w : List Byte),
    (stackSteps stk ≤ n → fin = true) ∧ ∀ o, Room o (w.length + 1) →
      ∃ o', Wrote o o' w ∧ run false n stk o = .ok (if fin then some o' else none) := by
  induction n with
  | zero =>
    intro stk
    cases stk with
    | nil => exact ⟨true, [], fun _ => rfl, fun o _ => ⟨o, Wrote.refl o, by rw [run]; rfl⟩⟩
    | cons fr stk =>
      by_cases h : 500 ≤ stk.length + 1
      · exact ⟨true, [], fun _ => rfl, fun o _ => ⟨o, Wrote.refl o, by rw [run, if_pos h]; rfl⟩⟩
      · refine ⟨false, [], fun hs => ?_, fun o _ => ⟨o, Wrote.refl o, by rw [run, if_neg h]; rfl⟩⟩
        exfalso
        have : 1 ≤ frameSteps fr := by unfold frameSteps; split <;> omega
        rw [stackSteps] at hs
        omega
  | succ n ih =>
    intro stk
    cases stk with
    | nil => exact ⟨true, [], fun _ => rfl, fun o _ => ⟨o, Wrote.refl o, by rw [run]; rfl⟩⟩
    | cons fr stk =>
      by_cases h : 500 ≤ stk.length + 1
      · exact ⟨true, [], fun _ => rfl, fun o _ => ⟨o, Wrote.refl o, by rw [run, if_pos h]; rfl⟩⟩
      · obtain ⟨stk', w, hlt, hst⟩ := step_compact fr stk
        obtain ⟨fin, w2, hfin, hrun⟩ := ih stk'
        refine ⟨fin, w ++ w2, fun hs => hfin (by omega), fun o ho => ?_⟩
        obtain ⟨o1, e1, r1⟩ := hst o (ho.mono (by simp))
        obtain ⟨o2, r2, e2⟩ := hrun o1 (r1.room (ho.mono (by simp; omega)))
        exact ⟨o2, r1.trans r2, by rw [run_succ _ _ _ _ _ (by omega), e1, Res.bind_ok, e2]⟩

/-! ## the two passes -/

/-- the loop started on `v` writes `w` -/
def Prints [Libc] (n : Nat) (f : Bool) (v : Val) (w : List Byte) : Prop :=
  ∀ o, Room o (w.length + 1) → ∃ o', Wrote o o' w ∧ run f n [mkFrame 0 false v] o = .ok (some o')

theorem Prints.snprint_null [Libc] {n : Nat} {f : Bool} {v : Val} {w : List Byte} (h : Prints n f v w) :
    snprint n f none v = .ok (some (none, w.length)) := by
  obtain ⟨o', r, e⟩ := h ⟨none, 0⟩ (by intro b hb; cases hb)
  unfold snprint
  rw [e, Res.bind_ok]
  obtain ⟨h1, h2⟩ := r
  simp only at h2
  unfold Out.write
  simp only [h2, Res.map_ok', h1, Nat.zero_add]

theorem Prints.snprint_buf [Libc] {n : Nat} {f : Bool} {v : Val} {w : List Byte} (h : Prints n f v w)
    (b : List (Option Byte)) (hb : w.length + 1 ≤ b.length) :
    ∃ b', snprint n f (some b) v = .ok (some (some b', w.length)) ∧ b'.length = b.length ∧
      b'.take (w.length + 1) = (w ++ [0]).map some := by
  obtain ⟨o', r, e⟩ := h ⟨some b, 0⟩ (by intro b' hb'; cases hb'; simpa using hb)
  unfold snprint
  rw [e, Res.bind_ok]
  obtain ⟨h1, b1, h2, h3, h4⟩ := r
  simp only [Nat.zero_add] at h1 h4
  have hl : o'.off + ([0] : List Byte).length ≤ b1.length := by
    rw [h1, h3]; simpa using hb
  rw [h1] at hl
  unfold Out.write
  simp only [h2, h1, if_pos hl, Res.map_ok']
  refine ⟨_, rfl, by rw [overwrite_length hl, h3], ?_⟩
  have := overwrite_take hl
  simp only [List.length_cons, List.length_nil, Nat.zero_add] at this
  rw [this, h4]
  simp

theorem Prints.asprint [Libc] {n : Nat} {f : Bool} {v : Val} {w : List Byte} (h : Prints n f v w) :
    ∃ b, asprint n f v = .ok (some (b, w.length)) ∧ b.length = w.length + 8 ∧
      b.take (w.length + 1) = (w ++ [0]).map some := by
  obtain ⟨b, e, h1, h2⟩ := h.snprint_buf (List.replicate (w.length + 8) none) (by simp)
  refine ⟨b, ?_, by rw [h1]; simp, h2⟩
  unfold Json.asprint
  rw [h.snprint_null, Res.bind_ok]
  simp only [e, Res.map_ok']

theorem prints_render [Libc] (f : Bool) (v : Val) (hf : f = true → v.height ≤ 128) (h : v.height ≤ 499)
    (n : Nat) (hn : nsteps v ≤ n) : Prints n f v (render f 0 v) := by
  intro o ho
  obtain ⟨o', r, e⟩ := sim v f 0 (toChar 0) false [] (fun _ => rfl) (fun e => by simpa using hf e)
    (by simpa using h) o (by simpa using ho)
  simp only [Bool.false_eq_true, if_false, List.append_nil] at r
  refine ⟨o', r, ?_⟩
  obtain ⟨k, rfl⟩ : ∃ k, n = k + nsteps v := ⟨n - nsteps v, by omega⟩
  have := e k
  rw [mkFrame, this]
  cases k <;> rw [run]

theorem prints_compact [Libc] (v : Val) (n : Nat) (hn : nsteps v ≤ n) : ∃ w, Prints n false v w := by
  obtain ⟨fin, w, h1, h2⟩ := run_compact n [mkFrame 0 false v]
  have := h1 (by simpa [stackSteps, frameSteps_mk] using hn)
  subst this
  exact ⟨w, fun o ho => by simpa using h2 o ho⟩

/-! ## the specification of the compact format -/

mutual
/-- every atom has `pa` and every key `pk` -/
def Val.All (pa : Atom → Prop) (pk : List Byte → Prop) : Val → Prop
  | .atom a => pa a
  | .arr xs => AllL pa pk xs
  | .obj kvs => AllF pa pk kvs
/-- the same for all elements -/
def AllL (pa : Atom → Prop) (pk : List Byte → Prop) : List Val → Prop
  | [] => True
  | x :: xs => x.All pa pk ∧ AllL pa pk xs
/-- the same for all entries -/
def AllF (pa : Atom → Prop) (pk : List Byte → Prop) : List (List Byte × Val) → Prop
  | [] => True
  | (k, x) :: xs => pk k ∧ x.All pa pk ∧ AllF pa pk xs
end

theorem allL_mem {pa : Atom → Prop} {pk : List Byte → Prop} {xs : List Val} :
    AllL pa pk xs ↔ ∀ x ∈ xs, x.All pa pk := by
  induction xs with
  | nil => simp [AllL]
  | cons x xs ih => simp [AllL, ih]

theorem allF_mem {pa : Atom → Prop} {pk : List Byte → Prop} {xs : List (List Byte × Val)} :
    AllF pa pk xs ↔ ∀ x ∈ xs, pk x.1 ∧ x.2.All pa pk := by
  induction xs with
  | nil => simp [AllF]
  | cons x xs ih => obtain ⟨k, x⟩ := x; simp [AllF, ih, and_assoc]

/-- the literal of a string -/
def quote (s : List Byte) : List Byte := 34 :: escape s ++ [34]

/-- the text of an atom -/
def atomSpec [Libc] : Atom → List Byte
  | .null => [110, 117, 108, 108]
  | .bool true => [116, 114, 117, 101]
  | .bool false => [102, 97, 108, 115, 101]
  | .undef => [117, 110, 100, 101, 102, 105, 110, 101, 100]
  | .str s => quote s
  | .strn s => quote s
  | .blob n => quote ([98, 108, 111, 98, 58] ++ intText (cInt n) ++ [32, 98, 121, 116, 101, 115])
  | .dbl d => Libc.lg d
  | .i64 n => intText n
  | .u64 n => dec n

mutual
/-- the JSON text of a value, without white space -/
def compact [Libc] : Val → List Byte
  | .atom a => atomSpec a
  | .arr xs => [91] ++ List.intercalate [44] (compactL xs) ++ [93]
  | .obj kvs => [123] ++ List.intercalate [44] (compactF kvs) ++ [125]
/-- the texts of the elements -/
def compactL [Libc] : List Val → List (List Byte)
  | [] => []
  | x :: xs => compact x :: compactL xs
/-- the texts of the entries -/
def compactF [Libc] : List (List Byte × Val) → List (List Byte)
  | [] => []
  | (k, x) :: xs => (quote k ++ [58] ++ compact x) :: compactF xs
end

/-- strings that fit the 32-bit length of `str_append` -/
def shortAtom : Atom → Prop
  | .str s => s.length < 2 ^ 32
  | .strn s => s.length < 2 ^ 32
  | _ => True

/-- keys that fit the 32-bit length of `str_append` -/
def shortKey (k : List Byte) : Prop := k.length < 2 ^ 32

theorem quoted_short {s : List Byte} (h : s.length < 2 ^ 32) : quoted s = quote s := by
  unfold quoted quote
  rw [Nat.mod_eq_of_lt h, List.take_length]
  rfl

theorem intText_length (i : Int) (h : i.natAbs < 2 ^ 31 + 1) : (intText i).length ≤ 12 := by
  have key : ∀ k n, n < 10 ^ (k + 1) → (dec n).length ≤ k + 1 := by
    intro k
    induction k with
    | zero => intro n hn; rw [dec, if_pos (by omega)]; simp
    | succ k ih =>
      intro n hn
      rw [dec]
      split
      · simp
      · have := ih (n / 10) (by rw [Nat.pow_succ] at hn; omega)
        simp; omega
  unfold intText
  split
  · have := key 9 (-i).toNat (by omega)
    simp; omega
  · have := key 9 i.toNat (by omega)
    omega

theorem cInt_bound (n : Nat) : (cInt n).natAbs < 2147483649 := by
  unfold cInt
  have h1 := Int.bmod_lt (x := (n : Int)) (m := 2 ^ 32) (by decide)
  have h2 := Int.le_bmod (x := (n : Int)) (m := 2 ^ 32) (by decide)
  generalize Int.bmod (n : Int) (2 ^ 32) = z at *
  omega

theorem blobText_short (n : Nat) : (blobText n).length < 2 ^ 32 := by
  have := intText_length _ (cInt_bound n)
  unfold blobText
  generalize intText (cInt n) = s at *
  simp only [List.length_append, List.length_cons, List.length_nil]
  omega

theorem atomBytes_short [Libc] {a : Atom} (h : shortAtom a) : atomBytes a = atomSpec a := by
  cases a with
  | bool b => cases b <;> rfl
  | str s => exact quoted_short h
  | strn s => exact quoted_short h
  | blob n => exact quoted_short (blobText_short n)
  | _ => rfl

theorem intercalate_cons (s x : List Byte) (xs : List (List Byte)) :
    List.intercalate s (x :: xs) = x ++ (if xs.isEmpty then [] else s) ++ List.intercalate s xs := by
  cases xs with
  | nil => simp
  | cons y ys => simp [List.intercalate]

theorem compactL_isEmpty [Libc] (xs : List Val) : (compactL xs).isEmpty = xs.isEmpty := by
  cases xs <;> rfl

theorem compactF_isEmpty [Libc] (xs : List (List Byte × Val)) : (compactF xs).isEmpty = xs.isEmpty := by
  cases xs with
  | nil => rfl
  | cons x xs => obtain ⟨k, x⟩ := x; rfl

theorem render_compact [Libc] (v : Val) : v.All shortAtom shortKey → ∀ t, render false t v = compact v := by
  induction v using Val.ind with
  | h0 a => intro h t; rw [render, compact, atomBytes_short h]; rfl
  | ha xs ih =>
    intro h t
    rw [Val.All, allL_mem] at h
    have : ∀ ys, (∀ y ∈ ys, y ∈ xs) → renderL false t ys = List.intercalate [44] (compactL ys) := by
      intro ys
      induction ys with
      | nil => intro _; rfl
      | cons y ys ih2 =>
        intro hy
        have hy1 := hy y (List.mem_cons_self ..)
        rw [renderL, compactL, intercalate_cons, ih y hy1 (h y hy1) (t + 1),
          ih2 (fun z hz => hy z (List.mem_cons_of_mem _ hz)), compactL_isEmpty]
        rfl
    rw [render, compact, this xs (fun _ h => h)]
    simp [opening, closing]
  | ho kvs ih =>
    intro h t
    rw [Val.All, allF_mem] at h
    have : ∀ ys, (∀ y ∈ ys, y ∈ kvs) → renderF false t ys = List.intercalate [44] (compactF ys) := by
      intro ys
      induction ys with
      | nil => intro _; rfl
      | cons y ys ih2 =>
        intro hy
        obtain ⟨k, y⟩ := y
        have hy1 := hy (k, y) (List.mem_cons_self ..)
        rw [renderF, compactF, intercalate_cons, ih (k, y) hy1 (h _ hy1).2 (t + 1),
          ih2 (fun z hz => hy z (List.mem_cons_of_mem _ hz)), compactF_isEmpty,
          quoted_short (h _ hy1).1]
        simp [padding, colon, comma]
    rw [render, compact, this kvs (fun _ h => h)]
    simp [opening, closing]

/-! ## no NUL in the text -/

theorem dec_digits (n : Nat) : ∀ c ∈ dec n, 48 ≤ c.toNat ∧ c.toNat ≤ 57 := by
  induction n using Nat.strongRecOn with
  | ind n ih =>
    intro c hc
    rw [dec] at hc
    split at hc
    · simp only [List.mem_singleton] at hc
      subst hc
      rw [toNat_ofNat_small (by omega)]; omega
    · rcases List.mem_append.1 hc with h | h
      · exact ih _ (by omega) c h
      · simp only [List.mem_singleton] at h
        subst h
        rw [toNat_ofNat_small (by omega)]; omega

theorem intText_nonul (i : Int) : 0 ∉ intText i := by
  unfold intText
  intro h
  split at h
  · rcases List.mem_cons.1 h with h | h
    · exact absurd h (by decide)
    · have := dec_digits _ _ h; exact absurd this.1 (by decide)
  · have := dec_digits _ _ h; exact absurd this.1 (by decide)

theorem escape_nonul (s : List Byte) : 0 ∉ escape s := by
  intro h
  obtain ⟨c, -, h⟩ := List.mem_flatMap.1 h
  have : ∀ c : Byte, (0 : Byte) ∉ (addon c).getD [c] := byte_forall (by decide +kernel)
  exact this c h

theorem quoted_nonul (s : List Byte) : 0 ∉ quoted s := by
  unfold quoted
  have := escape_nonul (s.take (s.length % 2 ^ 32))
  simp only [List.mem_append, List.mem_singleton, not_or]
  exact ⟨by decide, this, by decide⟩

theorem atomBytes_nonul [Libc] (a : Atom) : 0 ∉ atomBytes a := by
  cases a with
  | bool b => cases b <;> simp [atomBytes]
  | undef => simp [atomBytes]
  | null => simp [atomBytes]
  | str s => exact quoted_nonul s
  | strn s => exact quoted_nonul s
  | blob n => exact quoted_nonul _
  | dbl d => exact Libc.lg_nul d
  | i64 n => exact intText_nonul n
  | u64 n =>
    intro h
    have := dec_digits _ _ h; exact absurd this.1 (by decide)

theorem misc_nonul (f : Bool) (t : Nat) (c : Byte) (hc : c ≠ 0) :
    0 ∉ padding f t ∧ 0 ∉ opening f c ∧ 0 ∉ closing f t c ∧ 0 ∉ comma f ∧ 0 ∉ colon f := by
  have h : ¬ 0 = c := fun e => hc e.symm
  cases f <;> simp [padding, opening, closing, comma, colon, List.mem_replicate, h]

theorem render_nonul [Libc] (f : Bool) (v : Val) : ∀ t, 0 ∉ render f t v := by
  induction v using Val.ind with
  | h0 a =>
    intro t
    rw [render]
    simp only [List.mem_append, not_or]
    exact ⟨(misc_nonul f t 1 (by decide)).1, atomBytes_nonul a⟩
  | ha xs ih =>
    intro t
    have key : ∀ ys, (∀ y ∈ ys, y ∈ xs) → 0 ∉ renderL f t ys := by
      intro ys
      induction ys with
      | nil => intro _; simp [renderL]
      | cons y ys ih2 =>
        intro hy
        rw [renderL]
        simp only [List.mem_append, not_or]
        refine ⟨⟨ih y (hy y (List.mem_cons_self ..)) _, ?_⟩, ih2 fun z hz => hy z (List.mem_cons_of_mem _ hz)⟩
        split
        · simp
        · exact (misc_nonul f t 1 (by decide)).2.2.2.1
    rw [render]
    simp only [List.mem_append, not_or]
    exact ⟨(misc_nonul f t 91 (by decide)).2.1, key xs (fun _ h => h), (misc_nonul f t 93 (by decide)).2.2.1⟩
  | ho xs ih =>
    intro t
    have key : ∀ ys, (∀ y ∈ ys, y ∈ xs) → 0 ∉ renderF f t ys := by
      intro ys
      induction ys with
      | nil => intro _; simp [renderF]
      | cons y ys ih2 =>
        intro hy
        obtain ⟨k, y⟩ := y
        have hm := misc_nonul f t 1 (by decide)
        rw [renderF]
        simp only [List.mem_append, not_or]
        refine ⟨⟨⟨⟨hm.1, quoted_nonul k⟩, hm.2.2.2.2⟩, ih _ (hy _ (List.mem_cons_self ..)) _, ?_⟩,
          ih2 fun z hz => hy z (List.mem_cons_of_mem _ hz)⟩
        split
        · simp
        · exact hm.2.2.2.1
    rw [render]
    simp only [List.mem_append, not_or]
    exact ⟨(misc_nonul f t 123 (by decide)).2.1, key xs (fun _ h => h), (misc_nonul f t 125 (by decide)).2.2.1⟩

/-! ## deep nesting -/

/-- `d + 1` empty arrays nested into one another -/
def nest : Nat → Val
  | 0 => .arr []
  | d + 1 => .arr [nest d]

theorem nest_height (d : Nat) : (nest d).height = d + 1 := by
  induction d with
  | zero => rfl
  | succ d ih => rw [nest, Val.height, heightL, heightL, ih]; omega

theorem compact_nest [Libc] (d : Nat) : compact (nest d) = List.replicate (d + 1) 91 ++ List.replicate (d + 1) 93 := by
  induction d with
  | zero => simp [nest, compact, compactL]
  | succ d ih =>
    rw [nest, compact, compactL, compactL, ih, List.replicate_succ (n := d + 1) (a := (91 : Byte)),
      List.replicate_succ' (n := d + 1) (a := (93 : Byte))]
    simp

theorem run_nest [Libc] (j : Nat) : ∀ (m : Nat) (τ : Int) (stk : List Frame), stk.length + 1 + j = 500 →
    j ≤ m → ∀ n o, Room o j → ∃ o', Wrote o o' (List.replicate j 91) ∧
    run false (n + j) (⟨0, τ, false, nest m⟩ :: stk) o = .ok (some o') := by
  induction j with
  | zero =>
    intro m τ stk hl _ n o _
    refine ⟨o, Wrote.refl o, ?_⟩
    cases n <;> rw [Nat.add_zero, run, if_pos (by omega)]
  | succ j ih =>
    intro m τ stk hl hm n o ho
    obtain ⟨m, rfl⟩ : ∃ k, m = k + 1 := ⟨m - 1, by omega⟩
    obtain ⟨o1, e1, r1⟩ := (does_delim_off τ 91).2 o (ho.mono (by omega))
    obtain ⟨o2, r2, e2⟩ := ih m (toChar (τ + 1)) (⟨1, τ, false, nest (m + 1)⟩ :: stk) (by simp; omega)
      (by omega) n o1 (r1.room (ho.mono (by simp; omega)))
    refine ⟨o2, r1.trans r2, ?_⟩
    rw [← Nat.add_assoc, run_succ _ _ _ _ _ (by omega)]
    have : step false ⟨0, τ, false, nest (m + 1)⟩ stk o =
        .ok (⟨0, toChar (τ + 1), false, nest m⟩ :: ⟨1, τ, false, nest (m + 1)⟩ :: stk, o1) := by
      simp only [nest, step, if_true, e1, Res.bind_ok, afterArr, mkFrame]
      rfl
    rw [this, Res.bind_ok]
    exact e2

theorem prints_nest [Libc] (d : Nat) (hd : 499 ≤ d) (n : Nat) (hn : 499 ≤ n) :
    Prints n false (nest d) (List.replicate 499 91) := by
  intro o ho
  obtain ⟨k, rfl⟩ : ∃ k, n = k + 499 := ⟨n - 499, by omega⟩
  exact run_nest 499 d (toChar 0) [] rfl hd k o (ho.mono (by rw [List.length_replicate]; omega))

/-- the offset after a closing bracket in the pretty format -/
def closeOff (τ : Int) (off : Nat) : Nat := addTabs (off + 1) τ + 1 + 1

/-- the offset after nested arrays in the pretty format -/
def nestOff : Nat → Int → Nat → Nat
  | 0, τ, off => closeOff τ (off + 2)
  | d + 1, τ, off => closeOff τ (nestOff d (toChar (τ + 1)) (off + 2))

theorem run_nest_pretty [Libc] (d : Nat) : ∀ (τ : Int) (stk : List Frame) (off n : Nat),
    stk.length + d + 1 < 500 →
    run true (n + (2 * d + 1)) (⟨0, τ, false, nest d⟩ :: stk) ⟨none, off⟩ =
      run true n stk ⟨none, nestOff d τ off⟩ := by
  induction d with
  | zero =>
    intro τ stk off n h
    rw [Nat.mul_zero, Nat.zero_add, run_succ _ _ _ _ _ (by omega)]
    rfl
  | succ d ih =>
    intro τ stk off n h
    have e : n + (2 * (d + 1) + 1) = (n + 1) + (2 * d + 1) + 1 := by omega
    have e1 : step true ⟨0, τ, false, nest (d + 1)⟩ stk ⟨none, off⟩ =
        .ok (⟨0, toChar (τ + 1), false, nest d⟩ :: ⟨1, τ, false, nest (d + 1)⟩ :: stk, ⟨none, off + 2⟩) := rfl
    rw [e, run_succ _ _ _ _ _ (by omega), e1, Res.bind_ok]
    simp only
    rw [ih _ _ _ _ (by simp; omega), run_succ _ _ _ _ _ (by omega)]
    rfl

/-- the length of nested arrays in the pretty format -/
def nestLen : Nat → Nat → Nat
  | 0, t => 5 + t
  | d + 1, t => 5 + t + nestLen d (t + 1)

theorem render_nest_length [Libc] (d : Nat) : ∀ t, (render true t (nest d)).length = nestLen d t := by
  induction d with
  | zero => intro t; simp [nest, render, renderL, opening, closing, nestLen]; omega
  | succ d ih =>
    intro t
    simp [nest, render, renderL, opening, closing, nestLen, ih]
    omega

namespace Props

/-- **C32**, compact format, any value: the number the first pass returns is the number of bytes the second
one writes, the second pass stays inside the block, and writes the terminator; `nsteps v` iterations are
enough -/
theorem C32_compact [Libc] (v : Val) (n : Nat) (hn : nsteps v ≤ n) : ∃ w b,
    snprint n false none v = .ok (some (none, w.length)) ∧
    asprint n false v = .ok (some (b, w.length)) ∧ b.length = w.length + 8 ∧
    b.take (w.length + 1) = (w ++ [0]).map some := by
  obtain ⟨w, h⟩ := prints_compact v n hn
  obtain ⟨b, h1, h2, h3⟩ := h.asprint
  exact ⟨w, b, h.snprint_null, h1, h2, h3⟩

/-- **C32**, pretty format, up to 127 levels of containers around an atom -/
theorem C32_pretty [Libc] (v : Val) (hv : v.height ≤ 128) (n : Nat) (hn : nsteps v ≤ n) : ∃ w b,
    snprint n true none v = .ok (some (none, w.length)) ∧
    asprint n true v = .ok (some (b, w.length)) ∧ b.length = w.length + 8 ∧
    b.take (w.length + 1) = (w ++ [0]).map some := by
  have h := prints_render true v (fun _ => hv) (by omega) n hn
  obtain ⟨b, h1, h2, h3⟩ := h.asprint
  exact ⟨_, b, h.snprint_null, h1, h2, h3⟩

/-- **C32**: printing twice into a buffer of one's own is safe if it has one byte more than the first pass
returned -/
theorem C32_caller_buffer [Libc] (v : Val) (f : Bool) (hf : f = true → v.height ≤ 128) (n : Nat)
    (hn : nsteps v ≤ n) (size : Nat) (h1 : snprint n f none v = .ok (some (none, size)))
    (b : List (Option Byte)) (hb : size < b.length) :
    ∃ b' w, snprint n f (some b) v = .ok (some (some b', size)) ∧ b'.length = b.length ∧
      w.length = size ∧ b'.take (size + 1) = (w ++ [0]).map some := by
  obtain ⟨w, h⟩ : ∃ w, Prints n f v w := by
    cases f with
    | false => exact prints_compact v n hn
    | true => exact ⟨_, prints_render true v hf (by have := hf rfl; omega) n hn⟩
  have e := h.snprint_null
  rw [h1] at e
  simp only [Res.ok.injEq, Option.some.injEq, Prod.mk.injEq, true_and] at e
  subst e
  obtain ⟨b', e1, e2, e3⟩ := h.snprint_buf b hb
  exact ⟨b', w, e1, e2, rfl, e3⟩

/-- **C33**: below the bound of the stack the compact text is complete and exact -/
theorem C33_compact [Libc] (v : Val) (hv : v.height < 500) (hs : v.All shortAtom shortKey) (n : Nat)
    (hn : nsteps v ≤ n) : ∃ b, asprint n false v = .ok (some (b, (compact v).length)) ∧
    b.take ((compact v).length + 1) = (compact v ++ [0]).map some := by
  have h := prints_render false v (by simp) (by omega) n hn
  rw [render_compact v hs] at h
  obtain ⟨b, h1, -, h3⟩ := h.asprint
  exact ⟨b, h1, h3⟩

/-- **C33**: the pretty text, up to 127 levels of containers around an atom -/
theorem C33_pretty [Libc] (v : Val) (hv : v.height ≤ 128) (n : Nat)
    (hn : nsteps v ≤ n) : ∃ b, asprint n true v = .ok (some (b, (render true 0 v).length)) ∧
    b.take ((render true 0 v).length + 1) = (render true 0 v ++ [0]).map some := by
  have h := prints_render true v (fun _ => hv) (by omega) n hn
  obtain ⟨b, h1, -, h3⟩ := h.asprint
  exact ⟨b, h1, h3⟩

/-- **C33**: the text has no NUL in it, so that it ends where the returned length says -/
theorem C33_no_nul [Libc] (v : Val) (hs : v.All shortAtom shortKey) :
    0 ∉ compact v ∧ ∀ t, 0 ∉ render true t v := by
  refine ⟨?_, render_nonul true v⟩
  rw [← render_compact v hs 0]
  exact render_nonul false v 0

/-- **C34**, negative: of arrays nested 500 or more deep only 499 opening brackets are printed -/
theorem C34_truncated [Libc] (d : Nat) (hd : 500 ≤ (nest d).height) (n : Nat) (hn : 499 ≤ n) :
    ∃ b, asprint n false (nest d) = .ok (some (b, 499)) ∧
      b.take 500 = (List.replicate 499 (91 : Byte) ++ [0]).map some ∧ (compact (nest d)).length = 2 * (nest d).height := by
  rw [nest_height] at hd ⊢
  obtain ⟨b, h1, -, h3⟩ := (prints_nest d (by omega) n hn).asprint
  rw [List.length_replicate] at h1 h3
  refine ⟨b, h1, h3, ?_⟩
  rw [compact_nest]; simp; omega

/-- **C57**, negative: the size of the buffer is not looked at; the text `null` is written into a buffer of
two bytes -/
theorem C57_size_ignored_false [Libc] : snprint 1 false (some [none, none]) (.atom .null) = .ub := rfl

/-- **C58**, negative: from 128 levels of containers on the number of tabs, a signed `char`, is negative,
and the offset moves backwards over what was written: for 129 nested arrays 256 bytes are missing -/
theorem C58_pretty_deep_false [Libc] (n : Nat) (hn : 257 ≤ n) : (nest 128).height = 129 ∧
    snprint n true none (nest 128) = .ok (some (none, 8645)) ∧ (render true 0 (nest 128)).length = 8901 := by
  refine ⟨nest_height 128, ?_, ?_⟩
  · obtain ⟨k, rfl⟩ : ∃ k, n = k + (2 * 128 + 1) := ⟨n - 257, by omega⟩
    unfold snprint mkFrame
    rw [run_nest_pretty 128 _ [] 0 k (by simp)]
    have : nestOff 128 (toChar 0) 0 = 8645 := by decide +kernel
    rw [this]
    cases k <;> rfl
  · rw [render_nest_length]
    decide +kernel

/-- a C library for the examples -/
@[instance_reducible] def exampleLibc : Libc := ⟨fun _ => [49], by simp, by simp, fun _ => 0⟩

attribute [local instance] exampleLibc

/-- `{"a":[1,null],"":{}}` in both formats -/
example : let v := Val.obj [([97], .arr [.atom (.i64 1), .atom .null]), ([], .obj [])]
    v.height ≤ 128 ∧ nsteps v = 9 ∧ compact v = [123, 34, 97, 34, 58, 91, 49, 44, 110, 117, 108, 108, 93, 44, 34, 34,
      58, 123, 125, 125] ∧ v.All shortAtom shortKey := by
  intro v
  refine ⟨by decide, by decide, ?_, ?_⟩
  · simp [v, compact, compactF, compactL, atomSpec, intText, dec, quote, escape, addon, List.intercalate]
  · simp [v, Val.All, AllF, AllL, shortAtom, shortKey]

example : ∃ b, snprint 1 false none (.atom .null) = .ok (some (none, b)) := ⟨4, rfl⟩

example : 500 ≤ (nest 499).height := by rw [nest_height]; omega

end Props

end Verif.Json
