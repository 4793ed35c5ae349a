import Verif.Json.PrintProps

/-!
# `cee_json_dprintf` (C33)

The text written to the descriptor is modelled; that `dprintf` writes all of it is libc's matter.
-/

namespace Verif.Json

/-- what `%s` writes of a buffer: the bytes up to the first NUL.  A byte that was not written, or the end of the
memory, is undefined behaviour. -/
def upToNul : List (Option Byte) → Res (List Byte)
  | [] => .ub
  | none :: _ => .ub
  | some c :: b => if c = 0 then .ok [] else (upToNul b).map (c :: ·)

/-- `cee_json_dprintf` (cee-json/snprint.c:366-382) with at most `n` iterations of the printing: the bytes written to
the descriptor.  `json` is NULL or a value, `fmt` is NULL or stands for the text `vdprintf` writes. -/
def dprintf [Libc] (n : Nat) (json : Option Val) (fmt : Option (List Byte)) : Res (Option (List Byte)) :=
  match json with
  | none => .ok (some (fmt.getD [] ++ [110, 117, 108, 108] ++ [10]))
  | some v => (asprint n false v).bind fun r =>
    match r with
    | none => .ok none
    | some (b, _) => (upToNul b).map fun t => some (fmt.getD [] ++ t ++ [10])

theorem upToNul_take : ∀ (w : List Byte) (b : List (Option Byte)), 0 ∉ w →
    b.take (w.length + 1) = (w ++ [0]).map some → upToNul b = .ok w := by
  intro w
  induction w with
  | nil =>
    intro b _ h
    cases b with
    | nil => simp at h
    | cons c b =>
      simp only [List.length_nil, Nat.zero_add, List.take_succ_cons, List.take_zero, List.nil_append,
        List.map_cons, List.map_nil, List.cons.injEq, and_true] at h
      subst h
      rfl
  | cons c w ih =>
    intro b hc h
    cases b with
    | nil => simp at h
    | cons c' b =>
      simp only [List.length_cons, List.take_succ_cons, List.cons_append, List.map_cons, List.cons.injEq] at h
      obtain ⟨rfl, h⟩ := h
      simp only [List.mem_cons, not_or] at hc
      have := ih b hc.2 h
      rw [upToNul, if_neg (fun e => hc.1 e.symm), this]
      rfl

namespace Props

/-- **C33** (`cee_json_dprintf`).  For a value less than 500 high, with short texts, the descriptor gets the formatted
text, the compact text of the value and the end of the line, no byte more; for NULL `null` instead of the value. -/
theorem C33_dprintf [Libc] (v : Val) (hv : v.height < 500) (hs : v.All shortAtom shortKey) (n : Nat)
    (hn : nsteps v ≤ n) (fmt : Option (List Byte)) :
    dprintf n (some v) fmt = .ok (some (fmt.getD [] ++ compact v ++ [10])) ∧
      dprintf n none fmt = .ok (some (fmt.getD [] ++ compact (.atom .null) ++ [10])) := by
  obtain ⟨b, h1, h2⟩ := C33_compact v hv hs n hn
  refine ⟨?_, rfl⟩
  simp only [dprintf, h1, Res.bind]
  rw [upToNul_take _ b (C33_no_nul v hs).1 h2]
  rfl

/-- **C34** for `cee_json_dprintf`: of arrays nested 500 or more deep it writes 499 opening brackets and the end of
the line -/
theorem C34_dprintf [Libc] (d : Nat) (hd : 500 ≤ (nest d).height) (n : Nat) (hn : 499 ≤ n) :
    dprintf n (some (nest d)) none = .ok (some (List.replicate 499 91 ++ [10])) := by
  obtain ⟨b, h1, h2, -⟩ := C34_truncated d hd n hn
  simp only [dprintf, h1, Res.bind]
  obtain ⟨k, hk⟩ : ∃ k, k = 499 := ⟨_, rfl⟩
  rw [show (500 : Nat) = k + 1 by omega, ← hk] at h2
  rw [← hk, upToNul_take (List.replicate k 91) b (fun h => by have := List.eq_of_mem_replicate h; simp at this)
    (by rw [List.length_replicate]; exact h2)]
  rfl

/-! ## the hypotheses are met -/

attribute [local instance] exampleLibc

example : dprintf 9 (some (.obj [([97], .arr [.atom (.i64 1), .atom .null]), ([], .obj [])])) (some [58, 32]) =
    .ok (some ([58, 32] ++ compact (.obj [([97], .arr [.atom (.i64 1), .atom .null]), ([], .obj [])]) ++ [10])) :=
  (C33_dprintf _ (by decide) (by simp [Val.All, AllF, AllL, shortAtom, shortKey]) 9 (by decide) _).1

end Props

end Verif.Json
