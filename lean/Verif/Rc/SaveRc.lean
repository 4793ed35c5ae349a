import Verif.Rc.RoundRcProps
import Verif.Json.FilesProps

/-!
# C133: a document is saved to a file and loaded from it

`cee_json_save_fileno` (value.c:688-699) and `cee_json_load_from_fileno` (value.c:630-650) on memory
-/

namespace Verif.Rc
open Verif.Json (Byte Tok Atom Val Libc Syn Tz)

/-- `cee_json_save_fileno` (value.c:688-699), `cee_json_save` (value.c:701-703): the memory, what is in the file, and the result.  The
buffer comes from `malloc` and is freed on both ways out; it is not a block of the library and not part of the memory here.  `wr` is
what `write` answers, `none` for -1. -/
def memSave [Libc] (Q : QEnv) (fuel n : Nat) (f : Bool) (H : JHeap) (n0 : Nat) (j : Ptr) (wr : Nat → Option Nat) :
    Res (Option (JHeap × List (Option Byte) × Bool)) :=
  bindO (memPrint Q fuel n f none H n0 j) fun (H, n1, _, s) =>
  bindO (memPrint Q fuel n f (some (List.replicate (s + 1) none)) H n1 j) fun (H, _, b, _) =>
  match wr s with
  | none => .ok (some (H, [], false))
  | some k => .ok (some (H, ((b.getD []).take s).take k, decide (k = s)))

/-- `cee_json_load_from_fileno` (value.c:630-650) on a file with the given contents, of which `read` gives all: the block from `malloc`
has exactly the bytes of the file, and `force_eof` is not looked at -/
def memLoad [Libc] (E : PEnv) (fuel n : Nat) (H : JHeap) (content : List Byte) : Res (Option (Option Ptr × MSt)) :=
  memParse E fuel Verif.Json.nextToken n true H ⟨content, content.length, 0⟩

namespace RoundProps
open Verif.Json (Yields nextToken render nsteps saveSys snprint rtAtom rtText synOf)
open Verif.Rc.Props Verif.Rc.MapProps Verif.Rc.JsonProps Verif.Rc.ParseProps
open Verif.Rc.PrintProps (Over Sane AlFree Adds shows blobs print_low)

theorem save_over [Libc] {Q : QEnv} {H : JHeap} (al : AlFree Q) (sn : Sane H) {fuel : Nat} (hf : 2 ≤ fuel) (f : Bool) {v : Val} {j : Nat}
    (hv : shows Q H v j) (hh : v.height < 500) (n n0 : Nat) (wr : Nat → Option Nat) :
    match saveSys n f v wr with
    | .ok (some (c, ok)) => ∃ H' T, memSave Q fuel n f H n0 (some j) wr = .ok (some (H', c, ok)) ∧ Over H H' T [] ∧ T.length = 2 * blobs v
    | .ok none => memSave Q fuel n f H n0 (some j) wr = .ok none
    | .ub => memSave Q fuel n f H n0 (some j) wr = .ub
    | .segv => memSave Q fuel n f H n0 (some j) wr = .segv := by
  have h1 := print_low al sn hf f hv hh none n n0
  rw [saveSys]
  cases hr : snprint n f none v with
  | ub => rw [hr] at h1; simp only [memSave, h1, bindO]; rfl
  | segv => rw [hr] at h1; simp only [memSave, h1, bindO]; rfl
  | ok r =>
    rw [hr] at h1
    cases r with
    | none => simp only [memSave, h1, bindO, Res.bind_ok]
    | some r =>
      obtain ⟨b0, s⟩ := r
      obtain ⟨H1, n1, T1, m1, o1, l1⟩ := h1
      have h2 := print_low al (o1.sane sn) hf f (o1.shows hv) hh (some (List.replicate (s + 1) none)) n n1
      simp only [Res.bind_ok]
      cases hr2 : snprint n f (some (List.replicate (s + 1) none)) v with
      | ub => rw [hr2] at h2; simp only [memSave, m1, h2, bindO, Res.bind_ok]; rfl
      | segv => rw [hr2] at h2; simp only [memSave, m1, h2, bindO, Res.bind_ok]; rfl
      | ok r2 =>
        rw [hr2] at h2
        cases r2 with
        | none => simp only [memSave, m1, h2, bindO, Res.bind_ok, Res.map, Option.map_none]
        | some r2 =>
          obtain ⟨b, len⟩ := r2
          obtain ⟨H2, n2, T2, m2, o2, l2⟩ := h2
          have o3 := (o1.trans o2).perm (T' := T2 ++ T1) (ks' := []) (List.Perm.refl _) (by simp)
          simp only [Res.map, Option.map_some]
          cases hw : wr s with
          | none => exact ⟨H2, T2 ++ T1, by simp only [memSave, m1, m2, bindO, Res.bind_ok, hw], o3, by simp [l1, l2]; omega⟩
          | some k => exact ⟨H2, T2 ++ T1, by simp only [memSave, m1, m2, bindO, Res.bind_ok, hw], o3, by simp [l1, l2]; omega⟩

/-- **C133**: saving a value of height below 500 in memory has the outcome of saving the value (C61, C108), whatever `write` answers;
afterwards every block that was in memory is as before, and the only further blocks are two for each blob of the value -/
theorem C133_save [Libc] {Q : QEnv} {H : JHeap} (al : AlFree Q) (sn : Sane H) {fuel : Nat} (hf : 2 ≤ fuel) (f : Bool) {v : Val} {j : Nat}
    (hv : shows Q H v j) (hh : v.height < 500) (n n0 : Nat) (wr : Nat → Option Nat) :
    match saveSys n f v wr with
    | .ok (some (c, ok)) => ∃ H' new, memSave Q fuel n f H n0 (some j) wr = .ok (some (H', c, ok)) ∧ Adds H H' new ∧
        new.length = 2 * blobs v
    | .ok none => memSave Q fuel n f H n0 (some j) wr = .ok none
    | .ub => memSave Q fuel n f H n0 (some j) wr = .ub
    | .segv => memSave Q fuel n f H n0 (some j) wr = .segv := by
  have h := save_over al sn hf f hv hh n n0 wr
  cases hr : saveSys n f v wr with
  | ub => rw [hr] at h; exact h
  | segv => rw [hr] at h; exact h
  | ok r =>
    rw [hr] at h
    cases r with
    | none => exact h
    | some r =>
      obtain ⟨H', T, h1, h2, h3⟩ := h
      exact ⟨H', T.map Prod.fst, h1, h2.adds, by simpa using h3⟩

theorem distinct_synOf (v : Val) : v.Distinct → distinct (synOf v) := by
  induction v using Val.ind with
  | h0 a => intro _; cases a <;> simp [synOf, distinct]
  | ha xs ih =>
    intro h
    rw [Val.Distinct] at h
    rw [synOf, distinct]
    induction xs with
    | nil => simp [Verif.Json.synL, distinctL]
    | cons x xs ihx =>
      rw [Verif.Json.DistinctL] at h
      rw [Verif.Json.synL, distinctL]
      exact ⟨ih x (by simp) h.1, ihx (fun y hy => ih y (List.mem_cons_of_mem _ hy)) h.2⟩
  | ho xs ih =>
    intro h
    rw [Val.Distinct] at h
    rw [synOf, distinct]
    obtain ⟨hn, h⟩ := h
    refine ⟨?_, ?_⟩
    · have e : (Verif.Json.synF xs).map (·.1) = xs.map (·.1) := by
        clear hn h ih
        induction xs with
        | nil => rfl
        | cons x xs ih => obtain ⟨k, x⟩ := x; simp [Verif.Json.synF, ih]
      rw [e]; exact hn
    · clear hn
      induction xs with
      | nil => simp [Verif.Json.synF, distinctF]
      | cons x xs ihx =>
        obtain ⟨k, x⟩ := x
        rw [Verif.Json.DistinctF] at h
        rw [Verif.Json.synF, distinctF]
        exact ⟨ih (k, x) (by simp) h.1, ihx (fun y hy => ih y (List.mem_cons_of_mem _ hy)) h.2⟩

/-- **C133** (partial): let an array or object without a double, without an object that has a key twice, and of height below 500 (128 in
the pretty format) be parsed from any source of tokens.  Then saving it writes the text of the value and changes no block, and frees all
that it allocated; the file can be loaded, which gives a second document with the same value beside the first one; deleting the second
frees all that loading allocated; and deleting the first frees all that the first parsing allocated.  Missing: a number alone in a
file, which is read past its end (`C60_load_false`), doubles that are printed as integers or not as JSON (`C125_integer_false`), higher values (`C131_deep_false`),
keys twice (`C106_twice_false`). -/
theorem C133_partial [Libc] {sg oth : Nat → Bool} {E : PEnv} {X0 : JS} {H : JHeap} {σ : Type} {next : σ → Res (Tok × σ)} {fuel N n : Nat}
    {forceEof : Bool} (al : AlOk E) (st : Statics E sg)
    (J0 : JG sg E.eqv oth X0 H) (c : Consts E H) (x : Syn) {t t' : σ} (hok : Lits next t)
    (hy : Yields next t x.toks t') (hd : x.depth ≤ 511) (he : forceEof = true → ∃ t'', next t' = .ok (.eof, t''))
    (hN : x.toks.length ≤ N) (hf : X0.x.s.D.length + (2 + 4 * N) ≤ fuel) (hx : distinct x) (hv : ∀ a, x.val ≠ .atom a)
    (ha : x.val.All rtAtom rtText) (f : Bool) (hh : x.val.height < 500) (hp : f = true → x.val.height ≤ 128) (hn : nsteps x.val ≤ n) :
    ∃ j s', memParse E fuel next N forceEof H t = .ok (some (some (some j), s')) ∧
      ∃ H1, memSave E.printer fuel n f s'.H s'.n (some j) (fun s => some s) = .ok (some (H1, (render f 0 x.val).map some, true)) ∧
        Adds s'.H H1 [] ∧
        (∃ M, ∀ m ≥ M, ∃ F, ∀ fuel' ≥ F, ∃ j2 s2, memLoad E fuel' m H1 (render f 0 x.val) = .ok (some (some (some j2), s2)) ∧
          Parsed sg E oth H1 s2.H j2 x.val ∧
          ∃ H2, jsonDel fuel' s2.H (some j2) = .ok (some H2) ∧ (∀ y, H2.m.h.live y = H1.m.h.live y) ∧ Kept sg H1 H2) ∧
        ∃ H3, jsonDel fuel H1 (some j) = .ok (some H3) ∧ (∀ y, H3.m.h.live y = H.m.h.live y) ∧ Kept sg H H3 := by
  obtain ⟨j, s', X, idx, l, r, e, k, hl, hj, hjn, hh', ho⟩ := parse_core al st J0 x hok hy hd he hN hf
  have sn := sane_of k.J
  have hsh := shows_of k (consts_kept J0 st c k) x.val j hj hjn hh'
  have h1 := save_over (free_of al) sn (fuel := fuel) (by omega) f hsh hh n s'.n fun s => some s
  rw [Verif.Json.Props.saveSys_eq (Verif.Json.prints_render f x.val hp (by omega) n hn)] at h1
  simp only [List.take_length, decide_true] at h1
  obtain ⟨H1, T, h2, h3, h4⟩ := h1
  rw [no_blobs x.val j hh'] at h4
  obtain rfl : T = [] := List.length_eq_zero_iff.1 h4
  obtain ⟨k', own⟩ := same_core k h3
  obtain ⟨H3, h7, h8, h9⟩ := doc_del J0 k' hj (own (ho hx)) hl
  refine ⟨j, s', e, H1, h2, h3.adds, ?_, H3, h7, h8, h9⟩
  have hdep := Verif.Json.depth_le_height x.val
  obtain ⟨ws, line1, hws, hy2⟩ := Verif.Json.lexes_container f x.val hv ha 0 [] 0 0 trivial
  obtain ⟨line2, e2⟩ := Verif.Json.skip_ws ws hws [] 0 line1
  rw [List.append_nil, Nat.add_zero] at hy2
  refine ⟨(synOf x.val).toks.length, fun m hm => ⟨X.x.s.D.length + (2 + 4 * m), fun fuel' hf' => ?_⟩⟩
  obtain ⟨j2, s2, h5, h6, h10⟩ := C106_partial (forceEof := true) al st k'.J (synOf x.val) (fuel := fuel') (lits_text _) hy2
    (by rw [Verif.Json.synOf_depth]; omega)
    (fun _ => ⟨⟨[], 0, line2⟩, by rw [e2]; exact Verif.Json.nextToken_step (by rw [Verif.Json.tokenStep, if_pos rfl])⟩)
    hm hf'
  rw [Verif.Json.synOf_val _ (Verif.Json.syn_distinct x)] at h6
  obtain ⟨-, H2, h11, h12, h13⟩ := h10 (distinct_synOf _ (Verif.Json.syn_distinct x))
  exact ⟨j2, s2, h5, h6, H2, h11, h12, h13⟩

/-! ## examples -/

open Verif.Rc.PrintProps (exQ exH exV exH_shows exH_sane al0_free exV_steps) in
/-- the hypotheses of `C133_save` hold of a memory with a blob, of which two blocks stay -/
example [Libc] : ∃ H' c ok new, memSave exQ 2 100 false exH 0 (some 1) (fun s => some (s - 1)) = .ok (some (H', c, ok)) ∧ ok = false ∧
    Adds exH H' new ∧ new.length = 2 := by
  have h := C133_save (al0_free _ _ _) exH_sane (Nat.le_refl 2) false exH_shows (by decide +kernel) 100 0 (fun s => some (s - 1))
  rw [Verif.Json.Props.saveSys_eq (Verif.Json.prints_render false exV (by simp) (by decide +kernel) 100 exV_steps)] at h
  obtain ⟨H', new, h1, h2, h3⟩ := h
  have hne : (render false 0 exV).length ≠ 0 := by simp [render, exV, Verif.Json.opening]
  exact ⟨H', _, _, new, h1, by simpa using by omega, h2, h3⟩

/-- those of `C133_partial` are met by `{"a": [null, "x", 1], "b": {}}` in the pretty format -/
example [Libc] : ∃ j s', memParse envD 100 Verif.Json.listNext 20 true stD docD.toks = .ok (some (some (some j), s')) ∧
    ∃ H1, memSave envD.printer 100 100 true s'.H s'.n (some j) (fun s => some s) = .ok (some (H1, (render true 0 docD.val).map some, true)) ∧
      Adds s'.H H1 [] := by
  obtain ⟨j, s', h1, H1, h2, h3, -⟩ := C133_partial (forceEof := true) (fuel := 100) (N := 20) (n := 100) alD_ok statics_envD stD_good consts_stD docD
    (next := Verif.Json.listNext) (t := docD.toks) (t' := [])
    (lits_list (by simp [docD, Syn.toks, Verif.Json.toksL, Verif.Json.toksF, Verif.Json.body, Verif.Json.bodyTail, TokOk]))
    (by have := yields_list docD.toks []; rwa [List.append_nil] at this)
    (by simp [docD, Syn.depth, Verif.Json.depthL, Verif.Json.depthF]) (fun _ => ⟨[], rfl⟩)
    (by simp [docD, Syn.toks, Verif.Json.toksL, Verif.Json.toksF, Verif.Json.body, Verif.Json.bodyTail]) (by simp [specJ])
    (by simp [docD, distinct, distinctF, distinctL]) (by simp [docD, Syn.val])
    (by
      have h : ∀ c : Byte, c ≠ 0 → c.toNat < 128 → rtText [c] := fun c h0 h1 =>
        ⟨Verif.Json.ascii_text (s := [c]) (by simp [h0, h1]), by simp⟩
      simp only [docD, Syn.val, Verif.Json.valL, Verif.Json.valF, Val.All, Verif.Json.AllL, Verif.Json.AllF, Verif.Json.insertKey, rtAtom]
      simp [Val.All, Verif.Json.AllL, Verif.Json.AllF, rtAtom, h])
    true (by decide +kernel) (fun _ => by decide +kernel) (by decide +kernel)
  exact ⟨j, s', h1, H1, h2, h3⟩

end RoundProps
end Verif.Rc
