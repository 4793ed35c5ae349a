import Verif.Rc.PrintRun

/-!
# What printing leaves in memory (C131)
-/

namespace Verif.Rc.PrintProps
open Verif.Chain (upd)
open Verif.Json (Byte Atom Out Libc Val Frame mkFrame toChar step afterArr snprint asprint compact nest nsteps shortAtom shortKey)

/-- memory is `H'` instead of `H` because of the further blocks `new` and nothing else -/
structure Adds (H H' : JHeap) (new : List Nat) : Prop where
  nodup : new.Nodup
  fresh : ∀ x ∈ new, H.m.h.live x = false
  live : ∀ x, H'.m.h.live x = true ↔ H.m.h.live x = true ∨ x ∈ new
  kids : ∀ x, H.m.h.live x = true → H'.m.h.kids x = H.m.h.kids x
  deg : ∀ x, H.m.h.live x = true → H'.m.h.deg x = H.m.h.deg x
  ret : ∀ x, H.m.h.live x = true → H'.m.h.ret x = H.m.h.ret x
  tag : ∀ x, H.m.h.live x = true → H'.tag x = H.tag x
  maps : H'.m.maps = H.m.maps
  single : H'.single = H.single

theorem Over.adds {H H' : JHeap} {T : List (Nat × List Edge)} (o : Over H H' T []) : Adds H H' (T.map Prod.fst) where
  nodup := o.nodup
  fresh := by
    intro x hx
    obtain ⟨p, hp, rfl⟩ := List.mem_map.1 hx
    exact o.fresh p hp
  live := o.live
  kids := o.kids
  deg := fun x hx => by simpa using o.deg x hx
  ret := o.ret
  tag := o.tag
  maps := o.maps
  single := o.single

section
variable {Q : QEnv} {H : JHeap}

theorem print_low [Libc] (al : AlFree Q) (sn : Sane H) {fuel : Nat} (hf : 2 ≤ fuel) (f : Bool) {v : Val} {j : Nat} (hv : shows Q H v j)
    (hh : v.height < 500) (buf : Option (List (Option Byte))) (n n0 : Nat) :
    match snprint n f buf v with
    | .ok (some (b, len)) => ∃ H' n' T, memPrint Q fuel n f buf H n0 (some j) = .ok (some (H', n', b, len)) ∧ Over H H' T [] ∧ T.length = blobs v
    | .ok none => memPrint Q fuel n f buf H n0 (some j) = .ok none
    | .ub => memPrint Q fuel n f buf H n0 (some j) = .ub
    | .segv => memPrint Q fuel n f buf H n0 (some j) = .segv := by
  have h := print_sim al sn hf f hv buf n n0
  rw [snprint, run_eq]
  cases hr : runS f n [mkFrame 0 false v] ⟨buf, 0⟩ with
  | ub => rw [hr] at h; exact h
  | segv => rw [hr] at h; exact h
  | ok r =>
    rw [hr] at h
    cases r with
    | none => exact h
    | some r =>
      obtain ⟨stk, o⟩ := r
      have e : stk = [] := runS_low n (vs := [mkFrame 0 false v]) ⟨by simpa [mkFrame] using hh, trivial⟩ hr
      subst e
      simp only at h
      simp only [Res.map, Option.map_some, Res.bind_ok]
      cases hw : o.write o.off [0] with
      | ub => rw [hw] at h; exact h
      | segv => rw [hw] at h; exact h
      | ok o' =>
        rw [hw] at h
        obtain ⟨H', n', frs, T, ks, left, h1, h2, h3, h4⟩ := h
        cases h2
        exact ⟨H', n', left, h1, h3, by simpa [remS] using h4⟩

/-- **C131** (partial): printing a value of height less than 500 in memory has the outcome of the printer of values, for every buffer.
Afterwards every block that was in memory is as before (also its counts), and the only further blocks are one for each blob of the
value. -/
theorem C131_partial [Libc] (al : AlFree Q) (sn : Sane H) {fuel : Nat} (hf : 2 ≤ fuel) (f : Bool) {v : Val} {j : Nat} (hv : shows Q H v j)
    (hh : v.height < 500) (buf : Option (List (Option Byte))) (n n0 : Nat) :
    match snprint n f buf v with
    | .ok (some (b, len)) => ∃ H' n' new, memPrint Q fuel n f buf H n0 (some j) = .ok (some (H', n', b, len)) ∧ Adds H H' new ∧
        new.length = blobs v
    | .ok none => memPrint Q fuel n f buf H n0 (some j) = .ok none
    | .ub => memPrint Q fuel n f buf H n0 (some j) = .ub
    | .segv => memPrint Q fuel n f buf H n0 (some j) = .segv := by
  have h := print_low al sn hf f hv hh buf n n0
  cases hr : snprint n f buf v with
  | ub => rw [hr] at h; exact h
  | segv => rw [hr] at h; exact h
  | ok r =>
    rw [hr] at h
    cases r with
    | none => exact h
    | some r =>
      obtain ⟨H', n', T, h1, h2, h3⟩ := h
      exact ⟨H', n', T.map Prod.fst, h1, h2.adds, by simpa using h3⟩

/-- `cee_json_asprint` gives the text that it gives on values in a new block, and adds two blocks for each blob -/
theorem asprint_over [Libc] (al : AlFree Q) (sn : Sane H) {fuel : Nat} (hf : 2 ≤ fuel) {v : Val} {j : Nat} (hv : shows Q H v j)
    (hh : v.height < 500) {f : Bool} {n : Nat} {text : List Byte} (ha : ∃ b, asprint n f v = .ok (some (b, text.length)) ∧
      b.take (text.length + 1) = (text ++ [0]).map some) (n0 : Nat) :
    ∃ H' x b T, memAsprint Q fuel n f H n0 (some j) = .ok (some (H', x, b, text.length)) ∧
      b.take (text.length + 1) = (text ++ [0]).map some ∧ Over H H' ((x, []) :: T) [] ∧ T.length = 2 * blobs v := by
  obtain ⟨b, e, ht⟩ := ha
  rw [asprint] at e
  obtain ⟨r, e1, e⟩ := res_bind_some e
  cases r with
  | none => cases e
  | some r =>
    obtain ⟨b0, size⟩ := r
    obtain ⟨r2, e2, e3⟩ := res_map_some e
    have h1 := print_low al sn hf f hv hh none n n0
    rw [e1] at h1
    obtain ⟨H1, n1, T1, m1, o1, l1⟩ := h1
    have ob := o1.raw sn al n1
    have snb := ob.sane sn
    have h2 := print_low al snb hf f (ob.shows hv) hh (some (List.replicate (size + 8) none)) n (n1 + 1)
    rw [e2] at h2
    cases r2 with
    | none => cases e3
    | some r2 =>
      obtain ⟨b1, len⟩ := r2
      cases b1 with
      | none => cases e3
      | some b1 =>
        simp only [Option.some.injEq, Prod.mk.injEq] at e3
        obtain ⟨rfl, rfl⟩ := e3
        obtain ⟨H2, n2, T2, m2, o2, l2⟩ := h2
        have o3 := (ob.trans o2).perm (T' := ((allocRaw Q H1 n1).2, []) :: (T2 ++ T1)) (ks' := []) List.perm_middle (by simp)
        refine ⟨H2, (allocRaw Q H1 n1).2, b1, T2 ++ T1, ?_, ht, o3, by simp [l1, l2]; omega⟩
        simp only [memAsprint, m1, bindO, Res.bind_ok, m2]
        rfl

/-- **C131**: `cee_json_asprint` of a value of height less than 500 with short keys and atoms gives the compact text in a new block,
and adds this block and two for each blob -/
theorem C131_asprint [Libc] (al : AlFree Q) (sn : Sane H) {fuel : Nat} (hf : 2 ≤ fuel) {v : Val} {j : Nat} (hv : shows Q H v j)
    (hh : v.height < 500) (hs : v.All shortAtom shortKey) (n n0 : Nat) (hn : nsteps v ≤ n) :
    ∃ H' x b new, memAsprint Q fuel n false H n0 (some j) = .ok (some (H', x, b, (compact v).length)) ∧
      b.take ((compact v).length + 1) = (compact v ++ [0]).map some ∧ Adds H H' (x :: new) ∧ new.length = 2 * blobs v := by
  obtain ⟨H', x, b, T, h1, h2, h3, h4⟩ := asprint_over al sn hf hv hh (Verif.Json.Props.C33_compact v hh hs n hn) n0
  exact ⟨H', x, b, T.map Prod.fst, h1, h2, h3.adds, by simpa using h4⟩

/-- the stack is full of the frames of nested arrays -/
theorem runS_nest [Libc] (k : Nat) : ∀ (m : Nat) (τ : Int) (stk : List Frame), stk.length + 1 + k = 500 → k ≤ m → ∀ n off,
    (∀ vf ∈ stk, ∃ xs, vf.j = .arr xs) → ∃ off' stk', runS false (n + k) (⟨0, τ, false, nest m⟩ :: stk) ⟨none, off⟩ = .ok (some (stk', ⟨none, off'⟩)) ∧
      stk'.length = 500 ∧ ∀ vf ∈ stk', ∃ xs, vf.j = .arr xs := by
  have harr : ∀ m, ∃ xs, nest m = .arr xs := by intro m; cases m <;> exact ⟨_, rfl⟩
  induction k with
  | zero =>
    intro m τ stk hl _ n off ha
    refine ⟨off, ⟨0, τ, false, nest m⟩ :: stk, ?_, by simp; omega, ?_⟩
    · cases n <;> rw [Nat.add_zero, runS, if_pos (by omega)]
    · intro vf hvf
      rcases List.mem_cons.1 hvf with rfl | h
      · exact harr m
      · exact ha vf h
  | succ k ih =>
    intro m τ stk hl hm n off ha
    obtain ⟨m, rfl⟩ : ∃ k, m = k + 1 := ⟨m - 1, by omega⟩
    have hst : step false ⟨0, τ, false, nest (m + 1)⟩ stk ⟨none, off⟩ =
        .ok (⟨0, toChar (τ + 1), false, nest m⟩ :: ⟨1, τ, false, nest (m + 1)⟩ :: stk, ⟨none, off + 1⟩) := by
      simp only [nest, step, if_true, afterArr, mkFrame]
      rfl
    obtain ⟨off', stk', e, h1, h2⟩ := ih m (toChar (τ + 1)) (⟨1, τ, false, nest (m + 1)⟩ :: stk) (by simp; omega) (by omega) n (off + 1) (by
      intro vf hvf
      rcases List.mem_cons.1 hvf with rfl | h
      · exact harr (m + 1)
      · exact ha vf h)
    refine ⟨off', stk', ?_, h1, h2⟩
    rw [← Nat.add_assoc, runS, if_neg (by omega), hst, Res.bind_ok]
    exact e

theorem Stack.arrays {H0 : JHeap} {frs : List QFrame} {vfs : List Frame} {T : List (Nat × List Edge)} {ks : List Nat} (h : Stack Q H0 frs vfs T ks)
    (ha : ∀ vf ∈ vfs, ∃ xs, vf.j = .arr xs) : ks = [] ∧ T.length = 2 * vfs.length := by
  induction h with
  | nil => exact ⟨rfl, rfl⟩
  | @cons fr vf B kk frs vfs T ks f _ ih =>
    obtain ⟨e1, e2⟩ := ih fun vf h => ha vf (List.mem_cons_of_mem _ h)
    obtain ⟨j, -, h2, h3⟩ := f.val
    obtain ⟨xs, hx⟩ := ha vf (by simp)
    cases hk : fr.keys with
    | some l =>
      rw [hk] at h3
      obtain ⟨kvs, e⟩ := (shows_tag h2).1 h3.1
      rw [hx] at e
      cases e
    | none =>
      rw [hk] at h3
      obtain ⟨-, rfl, rfl⟩ := h3
      exact ⟨by simp [e1], by simp [e2]; omega⟩

theorem blobs_nest (d : Nat) : blobs (nest d) = 0 := by
  induction d with
  | zero => rw [nest, blobs, blobsL]
  | succ d ih => rw [nest, blobs, blobsL, blobsL, ih]

/-- **C131**: the limit on the height is needed: printing 500 or more nested arrays returns, and leaves 1000 blocks in memory -/
theorem C131_deep_false [Libc] (al : AlFree Q) (sn : Sane H) {fuel : Nat} (hf : 2 ≤ fuel) {d : Nat} (hd : 499 ≤ d) {j : Nat} (hv : shows Q H (nest d) j)
    (n n0 : Nat) (hn : 499 ≤ n) :
    ∃ H' n' len new, memPrint Q fuel n false none H n0 (some j) = .ok (some (H', n', none, len)) ∧ Adds H H' new ∧ new.length = 1000 := by
  have h := print_sim al sn hf false hv none n n0
  obtain ⟨k, rfl⟩ : ∃ k, n = k + 499 := ⟨n - 499, by omega⟩
  obtain ⟨off', stk', e, h1, h2⟩ := runS_nest 499 d (toChar 0) [] rfl hd k 0 (by simp)
  rw [show mkFrame 0 false (nest d) = ⟨0, toChar 0, false, nest d⟩ from rfl, e] at h
  obtain ⟨H', n', frs, T, ks, left, m1, st, o, hl⟩ := h
  obtain ⟨rfl, hT⟩ := st.arrays h2
  rw [blobs_nest] at hl
  refine ⟨H', n', _, (T ++ left).map Prod.fst, m1, o.adds, ?_⟩
  have : left.length = 0 := by omega
  simp [hT, h1, this]

theorem blobsL_replicate (t : Nat) (k : Nat) : blobsL (List.replicate k (.atom (.blob t))) = k := by
  induction k with
  | zero => rfl
  | succ k ih => rw [List.replicate_succ, blobsL, blobs, ih]; omega

/-- **C131**: that blobs leave blocks cannot be dropped: `k` blobs leave `k` blocks, for every `k` -/
theorem C131_blob_false [Libc] (al : AlFree Q) (sn : Sane H) {fuel : Nat} (hf : 2 ≤ fuel) (t k : Nat) {j : Nat}
    (hv : shows Q H (.arr (List.replicate k (.atom (.blob t)))) j)
    (n n0 : Nat) (hn : nsteps (.arr (List.replicate k (.atom (.blob t)))) ≤ n) :
    ∃ H' n' len new, memPrint Q fuel n false none H n0 (some j) = .ok (some (H', n', none, len)) ∧ Adds H H' new ∧ new.length = k := by
  have hh : (Val.arr (List.replicate k (.atom (.blob t)))).height < 500 := by
    have : ∀ k, Verif.Json.heightL (List.replicate k (.atom (.blob t))) ≤ 1 := by
      intro k
      induction k with
      | zero => rw [List.replicate_zero, Verif.Json.heightL]; omega
      | succ k ih => rw [List.replicate_succ, Verif.Json.heightL, Val.height]; omega
    rw [Val.height]
    have := this k
    omega
  have e := (Verif.Json.prints_render false _ (by simp) (by omega) n hn).snprint_null
  have h := C131_partial al sn hf false hv hh none n n0
  rw [e] at h
  obtain ⟨H', n', new, h1, h2, h3⟩ := h
  exact ⟨H', n', _, new, h1, h2, by rw [h3, blobs, blobsL_replicate]⟩

end

/-! ## Memories that meet the hypotheses -/

/-- an allocator: the address `10 + n` if it is free, otherwise any free address -/
noncomputable def al0 (n : Nat) (live : Nat → Bool) : Nat :=
  if live (10 + n) = false then 10 + n else
  open Classical in if h : ∃ x, live x = false then Classical.choose h else 0

theorem al0_free (txt : Nat → List Byte) (cont : Nat → Atom) (yes : Nat) : AlFree ⟨al0, txt, cont, yes⟩ := by
  intro n live D hD
  simp only [al0]
  by_cases h : live (10 + n) = false
  · rw [if_pos h]; exact h
  · rw [if_neg h]
    have hx : ∃ x, live x = false := by
      have hb : ∀ D : List Nat, ∃ b, ∀ x ∈ D, x < b := by
        intro D
        induction D with
        | nil => exact ⟨0, by simp⟩
        | cons y D ih =>
          obtain ⟨b, hb⟩ := ih
          refine ⟨b + y + 1, fun x hx => ?_⟩
          rcases List.mem_cons.1 hx with rfl | hx
          · omega
          · have := hb x hx; omega
      obtain ⟨b, hb⟩ := hb D
      refine ⟨b, ?_⟩
      cases h : live b with
      | false => rfl
      | true => exact absurd (hb b (hD b h)) (Nat.lt_irrefl b)
    rw [dif_pos hx]
    exact Classical.choose_spec hx

/-- the texts and numbers of the examples -/
noncomputable def exQ : QEnv := ⟨al0, fun _ => [107], fun b => if b = 10 then .blob 2 else .i64 7, 6⟩

/-- `{"k": [true, 7, blob]}`: the object at 1, its map at 2, the key at 3, the array at 4, its list at 5, `true` at 6, the number at 7
with its block at 8, and the blob at 9 with its block at 10 -/
def exH : JHeap where
  m := { h := { live := fun x => decide (1 ≤ x ∧ x ≤ 10)
                kids := fun x => match x with
                  | 1 => [(.del, some 2)]
                  | 2 => [(.rc, some 3), (.rc, some 4)]
                  | 4 => [(.del, some 5)]
                  | 5 => [(.rc, some 6), (.rc, some 7), (.rc, some 9)]
                  | 7 => [(.del, some 8)]
                  | 9 => [(.del, some 10)]
                  | _ => []
                deg := fun _ => 1
                ret := fun _ => false }
         maps := fun _ => ⟨.rc, .rc, [3], [(3, some 4)]⟩ }
  tag := fun x => match x with
    | 1 => some .object
    | 4 => some .array
    | 6 => some .boolean
    | 7 => some .number
    | 9 => some .blob
    | _ => none
  single := fun x => x == 6

theorem exH_sane : Sane exH where
  finite := ⟨List.range 11, fun x hx => by
    have : 1 ≤ x ∧ x ≤ 10 := by simpa [exH] using hx
    rw [List.mem_range]; omega⟩
  static := fun x hx => by
    have : x = 6 := by simpa [exH] using hx
    subst this; rfl

/-- the value in the memory of the examples -/
def exV : Val := .obj [([107], .arr [.atom (.bool true), .atom (.i64 7), .atom (.blob 2)])]

theorem exH_shows : shows exQ exH exV 1 := by
  refine ⟨rfl, rfl, 2, [(3, 4)], rfl, rfl, rfl, List.Perm.refl _, by simp, ⟨rfl, ⟨rfl, rfl, Nat.zero_lt_one⟩, by simp [exH]⟩, ?_, trivial⟩
  refine ⟨rfl, rfl, 5, [6, 7, 9], rfl, rfl, rfl, ?_, ?_, ?_, trivial⟩
  · exact ⟨rfl, rfl, by simp [exQ]⟩
  · exact ⟨rfl, rfl, 8, rfl, rfl, rfl⟩
  · exact ⟨rfl, rfl, 10, rfl, rfl, rfl⟩

theorem exV_steps : nsteps exV ≤ 100 := by decide +kernel

/-- the hypotheses of `C131_partial` hold of a memory with an object, an array, a number and a blob: one block stays -/
example [Libc] : ∃ H' n' len new, memPrint exQ 2 100 false none exH 0 (some 1) = .ok (some (H', n', none, len)) ∧ Adds exH H' new ∧
    new.length = 1 := by
  have h := C131_partial (al0_free _ _ _) exH_sane (Nat.le_refl 2) false exH_shows (by decide +kernel) none 100 0
  rw [(Verif.Json.prints_render false exV (by simp) (by decide +kernel) 100 exV_steps).snprint_null] at h
  obtain ⟨H', n', new, h1, h2, h3⟩ := h
  exact ⟨H', n', _, new, h1, h2, h3⟩

/-- those of `C131_asprint` -/
example [Libc] : ∃ H' x b new, memAsprint exQ 2 100 false exH 0 (some 1) = .ok (some (H', x, b, (compact exV).length)) ∧
    Adds exH H' (x :: new) ∧ new.length = 2 := by
  obtain ⟨H', x, b, new, h1, -, h2, h3⟩ := C131_asprint (al0_free _ _ _) exH_sane (Nat.le_refl 2) exH_shows (by decide +kernel)
    (by simp [exV, Val.All, Verif.Json.AllL, Verif.Json.AllF, shortAtom, shortKey]) 100 0 exV_steps
  exact ⟨H', x, b, new, h1, h2, h3⟩

/-- nested arrays: the array at `2 i + 1` has the list at `2 i + 2`, which has the array at `2 i + 3` -/
def deepH (d : Nat) : JHeap where
  m := { h := { live := fun x => decide (1 ≤ x ∧ x ≤ 2 * d + 2)
                kids := fun x => if x % 2 = 1 then [(.del, some (x + 1))] else if x = 2 * d + 2 then [] else [(.rc, some (x + 1))]
                deg := fun _ => 1
                ret := fun _ => false }
         maps := fun _ => ⟨.rc, .rc, [], []⟩ }
  tag := fun x => if x % 2 = 1 then some .array else none
  single := fun _ => false

theorem deepH_shows (Q : QEnv) (d i : Nat) (hi : i ≤ d) : shows Q (deepH d) (nest i) (2 * (d - i) + 1) := by
  induction i with
  | zero =>
    refine ⟨by simp [deepH], by simp [deepH], 2 * d + 2, [], ?_, by simp [deepH], by simp [deepH], trivial⟩
    simp [JHeap.held, deepH]
  | succ i ih =>
    have ih := ih (by omega)
    have e : 2 * (d - i) + 1 = 2 * (d - (i + 1)) + 3 := by omega
    rw [e] at ih
    refine ⟨by simp [deepH]; omega, by simp [deepH], 2 * (d - (i + 1)) + 2, [2 * (d - (i + 1)) + 3], ?_, ?_, ?_, ih, trivial⟩
    · simp only [JHeap.held, deepH]; rw [if_pos (by omega)]
    · simp [deepH]; omega
    · simp only [deepH]; rw [if_neg (by omega), if_neg (by omega)]; rfl

theorem deepH_sane (d : Nat) : Sane (deepH d) where
  finite := ⟨List.range (2 * d + 3), fun x hx => by
    have : 1 ≤ x ∧ x ≤ 2 * d + 2 := by simpa [deepH] using hx
    rw [List.mem_range]; omega⟩
  static := fun x hx => by cases hx

/-- those of `C131_deep_false` -/
example [Libc] : ∃ H' n' len new, memPrint exQ 2 1000 false none (deepH 600) 0 (some 1) = .ok (some (H', n', none, len)) ∧ Adds (deepH 600) H' new ∧
    new.length = 1000 :=
  C131_deep_false (al0_free _ _ _) (deepH_sane 600) (Nat.le_refl 2) (d := 600) (by omega) (deepH_shows exQ 600 600 (Nat.le_refl _)) 1000 0 (by omega)

/-- an array of `k` times the same blob: the array at 1, its list at 2, the blob at 9 with its block at 10 -/
def blobH (k : Nat) : JHeap where
  m := { h := { live := fun x => decide (1 ≤ x ∧ x ≤ 10)
                kids := fun x => match x with
                  | 1 => [(.del, some 2)]
                  | 2 => List.replicate k (.rc, some 9)
                  | 9 => [(.del, some 10)]
                  | _ => []
                deg := fun _ => 1
                ret := fun _ => false }
         maps := fun _ => ⟨.rc, .rc, [], []⟩ }
  tag := fun x => if x = 1 then some .array else if x = 9 then some .blob else none
  single := fun _ => false

/-- those of `C131_blob_false` -/
example [Libc] (k : Nat) : ∃ n H' n' len new, memPrint exQ 2 n false none (blobH k) 0 (some 1) = .ok (some (H', n', none, len)) ∧ Adds (blobH k) H' new ∧
    new.length = k := by
  have hL : ∀ i, showsL exQ (blobH k) (List.replicate i (.atom (.blob 2))) (List.replicate i 9) := by
    intro i
    induction i with
    | zero => exact trivial
    | succ i ih => exact ⟨⟨rfl, rfl, 10, rfl, rfl, rfl⟩, ih⟩
  refine ⟨_, C131_blob_false (al0_free _ _ _) ⟨⟨List.range 11, fun x hx => ?_⟩, fun x hx => by cases hx⟩ (Nat.le_refl 2) 2 k
    (j := 1) ⟨rfl, rfl, 2, List.replicate k 9, rfl, rfl, ?_, hL k⟩ _ 0 (Nat.le_refl _)⟩
  · have : 1 ≤ x ∧ x ≤ 10 := by simpa [blobH] using hx
    rw [List.mem_range]; omega
  · rw [List.map_replicate]; rfl

/-- `{"k": null}` with the key at 3 retained by another container -/
def keepH : JHeap where
  m := { h := { live := fun x => decide (1 ≤ x ∧ x ≤ 4)
                kids := fun x => match x with
                  | 1 => [(.del, some 2)]
                  | 2 => [(.rc, some 3), (.rc, some 4)]
                  | _ => []
                deg := fun _ => 1
                ret := fun x => x == 3 }
         maps := fun _ => ⟨.rc, .rc, [3], [(3, some 4)]⟩ }
  tag := fun x => match x with
    | 1 => some .object
    | 4 => some .null
    | _ => none
  single := fun x => x == 4

/-- printing, releasing the key and printing again -/
noncomputable def keepRun [Libc] : Bool :=
  match memPrint exQ 3 10 false none keepH 0 (some 1) with
  | .ok (some (H1, n1, _, _)) =>
    match release H1.m.h (some 3) with
    | .ok h =>
      match memPrint exQ 3 10 false none (H1.on h) n1 (some 1) with
      | .ok (some (H2, _, _, _)) =>
        decide (H1.m.h.deg 3 = 0 ∧ (H1.m.maps 2).order = [3] ∧ H2.m.h.live 1 = true ∧ H2.held 1 = some 2 ∧ H2.m.h.live 2 = true ∧
          (H2.m.maps 2).order = [3] ∧ H2.m.h.live 3 = false)
      | _ => false
    | _ => false
  | _ => false

attribute [local instance] Verif.Json.Props.exampleLibc

theorem keepRun_true : keepRun = true := by decide +kernel

/-- **C131**: that keys are not retained cannot be dropped.  A retained key is not counted when the list of keys is made, but its count
is decremented when this list is deleted.  If it is released after printing, then printing again frees the key, which the object still
has. -/
theorem C131_retained_false : ∃ (H1 H2 : JHeap) (n1 n2 : Nat) (b1 b2 : Option (List (Option Byte)) × Nat) (h : RHeap), AlFree exQ ∧ Sane keepH ∧
    memPrint exQ 3 10 false none keepH 0 (some 1) = .ok (some (H1, n1, b1)) ∧
    keepH.m.h.deg 3 = 1 ∧ H1.m.h.deg 3 = 0 ∧ (H1.m.maps 2).order = [3] ∧
    release H1.m.h (some 3) = .ok h ∧ memPrint exQ 3 10 false none (H1.on h) n1 (some 1) = .ok (some (H2, n2, b2)) ∧
    H2.m.h.live 1 = true ∧ H2.held 1 = some 2 ∧ H2.m.h.live 2 = true ∧ (H2.m.maps 2).order = [3] ∧ H2.m.h.live 3 = false := by
  have k := keepRun_true
  unfold keepRun at k
  split at k
  case h_2 => cases k
  case h_1 H1 n1 b1 l1 e1 =>
    split at k
    case h_2 => cases k
    case h_1 h e2 =>
      split at k
      case h_2 => cases k
      case h_1 H2 n2 b2 l2 e3 =>
        obtain ⟨k1, k2, k3, k4, k5, k6, k7⟩ := of_decide_eq_true k
        refine ⟨H1, H2, n1, n2, (b1, l1), (b2, l2), h, al0_free _ _ _, ⟨⟨List.range 5, fun x hx => ?_⟩, fun x hx => ?_⟩, e1, rfl, k1, k2, e2, e3, k3, k4,
          k5, k6, k7⟩
        · have : 1 ≤ x ∧ x ≤ 4 := by simpa [keepH] using hx
          rw [List.mem_range]; omega
        · have : x = 4 := by simpa [keepH] using hx
          subst this; rfl

end Verif.Rc.PrintProps
