import Verif.Rc.ParseRun

/-!
# An allocator for the examples of C106
-/

namespace Verif.Rc.ParseProps
open Verif.Chain (upd)
open Verif.Json (Byte Tok Atom PState Val Yields listNext Syn)
open Verif.Rc.Props Verif.Rc.MapProps Verif.Rc.JsonProps

/-- a number for a text -/
def codeT : List Byte → Nat
  | [] => 0
  | b :: t => 1 + b.toNat + 256 * codeT t

/-- the text of a number -/
def textOf : Nat → Nat → List Byte
  | 0, _ => []
  | _ + 1, 0 => []
  | f + 1, c + 1 => UInt8.ofNat (c % 256) :: textOf f (c / 256)

/-- infinitely many addresses for each text -/
def enc (n : Nat) (t : List Byte) : Nat := (2 * codeT t + 1) * 2 ^ n

def oddPart : Nat → Nat → Nat
  | 0, a => a
  | f + 1, a => if a % 2 = 0 then oddPart f (a / 2) else a

/-- the text at an address -/
def txtD (a : Nat) : List Byte := let c := (oddPart a a) / 2; textOf c c

theorem textOf_code (t : List Byte) : ∀ f, codeT t ≤ f → textOf f (codeT t) = t := by
  induction t with
  | nil => intro f _; cases f <;> rfl
  | cons b t ih =>
    intro f hf
    have hb : b.toNat < 256 := b.toNat_lt
    have e : codeT (b :: t) = (b.toNat + 256 * codeT t) + 1 := by rw [codeT]; omega
    rw [e] at hf ⊢
    cases f with
    | zero => omega
    | succ f =>
      rw [textOf, show (b.toNat + 256 * codeT t) % 256 = b.toNat by omega,
        show (b.toNat + 256 * codeT t) / 256 = codeT t by omega, ih f (by omega)]
      simp

theorem oddPart_enc (c : Nat) : ∀ n f, n ≤ f → oddPart f ((2 * c + 1) * 2 ^ n) = 2 * c + 1 := by
  intro n
  induction n with
  | zero => intro f _; cases f with
    | zero => simp [oddPart]
    | succ f => rw [oddPart, if_neg (by simp)]; simp
  | succ n ih =>
    intro f hf
    cases f with
    | zero => omega
    | succ f =>
      have e : (2 * c + 1) * 2 ^ (n + 1) = (2 * c + 1) * 2 ^ n * 2 := by rw [Nat.pow_succ, Nat.mul_assoc]
      rw [oddPart, e, if_pos (by simp), Nat.mul_div_cancel _ (by decide)]
      exact ih f (by omega)

theorem lt_enc (n : Nat) (t : List Byte) : n < enc n t := by
  have h1 := Nat.lt_two_pow_self (n := n)
  have h2 : 2 ^ n ≤ (2 * codeT t + 1) * 2 ^ n := Nat.le_mul_of_pos_left _ (by omega)
  rw [enc]; omega

theorem txtD_enc (n : Nat) (t : List Byte) : txtD (enc n t) = t := by
  have h : oddPart (enc n t) (enc n t) = 2 * codeT t + 1 :=
    oddPart_enc (codeT t) n (enc n t) (Nat.le_of_lt (lt_enc n t))
  rw [txtD, h, show (2 * codeT t + 1) / 2 = codeT t by omega]
  exact textOf_code t _ (Nat.le_refl _)

theorem le_sum {a : Nat} {D : List Nat} (h : a ∈ D) : a ≤ D.sum := by
  induction D with
  | nil => cases h
  | cons b D ih =>
    rw [List.sum_cons]
    rcases List.mem_cons.1 h with rfl | h
    · omega
    · have := ih h; omega

theorem free_addr {live : Nat → Bool} {D : List Nat} (h : ∀ x, live x = true → x ∈ D) (t : List Byte) :
    ∃ m, live (enc m t) = false := by
  cases hl : live (enc D.sum t) with
  | false => exact ⟨_, hl⟩
  | true =>
    exfalso
    have h1 := le_sum (h _ hl)
    have h2 := lt_enc D.sum t
    omega

open Classical in
/-- the first choice for the `n`-th block, and if that is in use another one -/
noncomputable def alD (n : Nat) (live : Nat → Bool) (t : List Byte) : Nat :=
  match live (enc (n + 1) t) with
  | false => enc (n + 1) t
  | true => if h : ∃ m, live (enc m t) = false then enc h.choose t else 0

/-- the static blocks are at 1, 3 and 5 -/
noncomputable def envD : PEnv := ⟨alD, txtD, 1, 3, 5⟩

theorem alD_ok : AlOk envD := by
  intro n live D h t
  show live (alD n live t) = false ∧ txtD (alD n live t) = t
  rw [alD]
  cases hl : live (enc (n + 1) t) with
  | false => exact ⟨hl, txtD_enc (n + 1) t⟩
  | true =>
    simp only
    rw [dif_pos (free_addr h t)]
    exact ⟨(free_addr h t).choose_spec, txtD_enc _ t⟩

/-! ## the memory at the start -/

def tyD (a : Nat) : Tag := if a = 5 then .null else .boolean
def stD : JHeap := startJ [1, 3, 5] tyD (fun _ => false)

def sgD (x : Nat) : Bool := [1, 3, 5].contains x

theorem stD_good : JG sgD envD.eqv (fun _ => false) (specJ [1, 3, 5] tyD) stD :=
  start_good _ (by decide) (by decide) _

theorem statics_envD : Statics envD sgD := ⟨rfl, rfl, rfl⟩

theorem lits_list {ts : List Tok} (h : ∀ c ∈ ts, TokOk c) : Lits listNext ts := by
  intro cs t' hy
  induction hy with
  | nil => simp
  | @cons t t1 t2 c cs hn _ ih =>
    cases t with
    | nil =>
      simp only [listNext, Res.ok.injEq, Prod.mk.injEq] at hn
      obtain ⟨rfl, rfl⟩ := hn
      intro a ha
      rcases List.mem_cons.1 ha with rfl | ha
      · trivial
      · exact ih h a ha
    | cons b t =>
      simp only [listNext, Res.ok.injEq, Prod.mk.injEq] at hn
      obtain ⟨rfl, rfl⟩ := hn
      intro a ha
      rcases List.mem_cons.1 ha with rfl | ha
      · exact h _ (by simp)
      · exact ih (fun x hx => h x (by simp [hx])) a ha

theorem yields_list (ts r : List Tok) : Yields listNext (ts ++ r) ts r := by
  induction ts with
  | nil => exact .nil r
  | cons c ts ih => exact .cons rfl ih

/-! ## parsing `{"a":"x","a":null}` -/

/-- `{"a":"x","a":null}` -/
def twice : Syn := .obj [([97], .str [120]), ([97], .lit .null)] false

def gotH : Res JHeap → JHeap
  | .ok H => H
  | _ => stD
def gotO : Res (Option JHeap) → JHeap
  | .ok (some H) => H
  | _ => stD

theorem run_step {E : PEnv} {fuel n : Nat} {s s' : MSt} {c : Tok} {ts : List Tok} (h1 : s.goes = true) (h2 : s.result = none)
    (h : memStep E fuel (readTok E s c).1 c (readTok E s c).2 = .ok (some s')) :
    memRun E fuel listNext (n + 1) s (c :: ts) = memRun E fuel listNext n s' ts := by
  rw [memRun_go h1, delResult, h2]
  simp only [bindO, Res.bind_ok, listNext, h]

def H1 : JHeap := rawMk (rawMk stD 2) 4
def s1 : MSt := ⟨2, .value, [⟨4, .done, none⟩], none, none, H1, 2⟩
theorem init_s1 : memInit envD stD = s1 := rfl
def H2 : JHeap := gotH (objectMk H1 8 16)
def s2 : MSt := ⟨2, .keyOrClose, [⟨4, .done, some 16⟩], none, none, H2, 4⟩
theorem step1 : memStep envD 100 (readTok envD s1 .lc).1 .lc (readTok envD s1 .lc).2 = .ok (some s2) := rfl
def H3 : JHeap := rawMk H2 6304
def s3 : MSt := ⟨2, .colon, [⟨4, .done, some 16⟩], some 6304, none, H3, 5⟩
theorem step2 : memStep envD 100 (readTok envD s2 (.str [97])).1 (.str [97]) (readTok envD s2 (.str [97])).2 = .ok (some s3) := rfl
def s4 : MSt := ⟨2, .objValue, [⟨4, .done, some 16⟩], some 6304, none, H3, 5⟩
theorem step3 : memStep envD 100 (readTok envD s3 .colon).1 .colon (readTok envD s3 .colon).2 = .ok (some s4) := rfl
def eqD (a b : Nat) : Bool := txtD a == txtD b
def H5 : JHeap := gotO (putIn eqD 100 (gotH (jsonMk (rawMk H3 15552) 128 .string 15552)) 8 6304 128)
def s5 : MSt := ⟨2, .objCloseOrComma, [⟨4, .done, some 16⟩], some 6304, none, H5, 7⟩
theorem step4 : memStep envD 100 (readTok envD s4 (.str [120])).1 (.str [120]) (readTok envD s4 (.str [120])).2 = .ok (some s5) := rfl
def s6 : MSt := ⟨2, .keyOrClose, [⟨4, .done, some 16⟩], some 6304, none, H5, 7⟩
theorem step5 : memStep envD 100 (readTok envD s5 .comma).1 .comma (readTok envD s5 .comma).2 = .ok (some s6) := rfl
def H7 : JHeap := rawMk H5 50432
def s7 : MSt := ⟨2, .colon, [⟨4, .done, some 16⟩], some 50432, none, H7, 8⟩
theorem step6 : memStep envD 100 (readTok envD s6 (.str [97])).1 (.str [97]) (readTok envD s6 (.str [97])).2 = .ok (some s7) := rfl
def s8 : MSt := ⟨2, .objValue, [⟨4, .done, some 16⟩], some 50432, none, H7, 8⟩
theorem step7 : memStep envD 100 (readTok envD s7 .colon).1 .colon (readTok envD s7 .colon).2 = .ok (some s8) := rfl
def H9 : JHeap := gotO (putIn eqD 100 (singleton H7 5) 8 50432 5)
def s9 : MSt := ⟨2, .objCloseOrComma, [⟨4, .done, some 16⟩], some 50432, none, H9, 8⟩
theorem step8 : memStep envD 100 (readTok envD s8 (.lit .null)).1 (.lit .null) (readTok envD s8 (.lit .null)).2 = .ok (some s9) := rfl
def s10 : MSt := ⟨2, .done, [], some 50432, some ⟨4, .done, some 16⟩, H9, 8⟩
theorem step9 : memStep envD 100 (readTok envD s9 .rc).1 .rc (readTok envD s9 .rc).2 = .ok (some s10) := rfl
def H11 : JHeap := gotO (mdel 100 (gotO (mdel 100 H9 2)) 4)
def s11 : MSt := { s10 with H := H11 }
theorem fin : memFinish envD 100 listNext true s10 [] = .ok (some (some (some 16), s11)) := rfl
theorem twice_run : memParse envD 100 listNext 9 true stD twice.toks = .ok (some (some (some 16), s11)) := by
  have : twice.toks = [.lc, .str [97], .colon, .str [120], .comma, .str [97], .colon, .lit .null, .rc] := rfl
  rw [this, memParse, init_s1, run_step rfl rfl step1, run_step rfl rfl step2, run_step rfl rfl step3, run_step rfl rfl step4,
    run_step rfl rfl step5, run_step rfl rfl step6, run_step rfl rfl step7, run_step rfl rfl step8, run_step rfl rfl step9,
    memRun_stop rfl]
  exact fin

/-! ## parsing `[` -/

def K2 : JHeap := gotH (arrayMk H1 8 16)
def k2 : MSt := ⟨2, .arrValueOrClose, [⟨4, .done, some 16⟩], none, none, K2, 4⟩
theorem kstep1 : memStep envD 100 (readTok envD s1 .lb).1 .lb (readTok envD s1 .lb).2 = .ok (some k2) := rfl
def k3 : MSt := { k2 with st := .error }
theorem kstep2 : memStep envD 100 (readTok envD k2 .eof).1 .eof (readTok envD k2 .eof).2 = .ok (some k3) := rfl
def k4 : MSt := { k3 with H := gotO (mdel 100 K2 2) }
theorem kfin : memFinish envD 100 listNext true k3 [] = .ok (some (none, k4)) := rfl
theorem open_run : memParse envD 100 listNext 2 true stD [.lb, .eof] = .ok (some (none, k4)) := by
  rw [memParse, init_s1, run_step rfl rfl kstep1, run_step rfl rfl kstep2, memRun_stop rfl]
  exact kfin

end Verif.Rc.ParseProps
