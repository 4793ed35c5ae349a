import Verif.Rc.PrintSim

/-!
# The turns of the printer in memory (lemmas for C131)
-/

namespace Verif.Rc.PrintProps
open Verif.Chain (upd)
open Verif.Json (Byte Atom Out Libc Val Frame mkFrame toChar step afterArr afterObj sep pad delimiter strAppend atomText heightL_mem heightF_mem)

mutual
/-- number of blobs in a value -/
def blobs : Val → Nat
  | .atom (.blob _) => 1
  | .atom _ => 0
  | .arr xs => blobsL xs
  | .obj kvs => blobsF kvs
def blobsL : List Val → Nat
  | [] => 0
  | x :: xs => blobs x + blobsL xs
def blobsF : List (List Byte × Val) → Nat
  | [] => 0
  | (_, x) :: xs => blobs x + blobsF xs
end

/-- blobs that are not yet printed -/
def rem (vf : Frame) : Nat :=
  match vf.j with
  | .atom a => blobs (.atom a)
  | .arr xs => blobsL (xs.drop vf.next)
  | .obj kvs => blobsF (kvs.drop vf.next)

def remS : List Frame → Nat
  | [] => 0
  | vf :: vfs => rem vf + remS vfs

theorem rem_mk (t : Int) (m : Bool) (v : Val) : rem (mkFrame t m v) = blobs v := by
  cases v with
  | atom a => rfl
  | arr xs => rw [rem, blobs]; rfl
  | obj kvs => rw [rem, blobs]; rfl

theorem rem_arr {vf : Frame} {xs : List Val} {x : Val} (hj : vf.j = .arr xs) (hx : xs[vf.next]? = some x) :
    rem vf = blobs x + rem { vf with next := vf.next + 1 } := by
  obtain ⟨hlt, he⟩ := List.getElem?_eq_some_iff.1 hx
  simp only [rem, hj]
  rw [List.drop_eq_getElem_cons hlt, he, blobsL]

theorem rem_obj {vf : Frame} {xs : List (List Byte × Val)} {k : List Byte} {x : Val} (hj : vf.j = .obj xs) (hx : xs[vf.next]? = some (k, x)) :
    rem vf = blobs x + rem { vf with next := vf.next + 1 } := by
  obtain ⟨hlt, he⟩ := List.getElem?_eq_some_iff.1 hx
  simp only [rem, hj]
  rw [List.drop_eq_getElem_cons hlt, he, blobsF]

/-- the outcomes are the same, up to what is related -/
def Matches {α : Type} (P : α → QSt → Prop) (r : Res α) (q : Res (Option QSt)) : Prop :=
  match r with
  | .ok a => ∃ s, q = .ok (some s) ∧ P a s
  | .ub => q = .ub
  | .segv => q = .segv

section
variable {α β : Type} {P : α → QSt → Prop}

theorem Matches.bind {x : Res β} {g : β → Res α} {h : β → Res (Option QSt)} (H : ∀ b, x = .ok b → Matches P (g b) (h b)) :
    Matches P (x.bind g) (x.bind h) := by
  cases x with
  | ok b => exact H b rfl
  | ub => rfl
  | segv => rfl

theorem Matches.map {x : Res β} {g : β → α} {h : β → Res (Option QSt)} (H : ∀ b, x = .ok b → ∃ s, h b = .ok (some s) ∧ P (g b) s) :
    Matches P (x.map g) (x.bind h) := by
  cases x with
  | ok b => exact H b rfl
  | ub => rfl
  | segv => rfl

end

section
variable {Q : QEnv} {H0 : JHeap} {T left : List (Nat × List Edge)} {ks : List Nat}

/-- a state of the printer in memory and one of the printer of values; `n` counts the blocks that stay -/
def Sim (Q : QEnv) (H0 : JHeap) (n : Nat) (r : List Frame × Out) (s : QSt) : Prop :=
  s.o = r.2 ∧ ∃ T ks left, Stack Q H0 s.stk r.1 T ks ∧ Over H0 s.H (T ++ left) ks ∧ left.length + remS r.1 = n

theorem qsep_eq {fr : QFrame} {vf : Frame} (f : Bool) (o : Out) (ht : fr.tabs = vf.tabs) (hm : fr.more = vf.more) : qsep f fr o = sep f vf o := by
  rw [qsep, sep, ht, hm]

/-- the frame of a value that is no object is taken off -/
theorem pop_sim (sn : Sane H0) {fuel : Nat} (hf : 2 ≤ fuel) {s : QSt} {fr : QFrame} {rest : List QFrame} {vf : Frame} {vrest : List Frame}
    {B : List (Nat × List Edge)} {kk : List Nat} (f : FOk Q H0 fr vf B kk) (hk : ∀ kvs, vf.j ≠ .obj kvs) (st : Stack Q H0 rest vrest T ks)
    (o : Over H0 s.H (B ++ T ++ left) (kk ++ ks)) (out : Out) {n : Nat} (hn : left.length + remS vrest = n) :
    ∃ s', popDel fuel s fr rest out = .ok (some s') ∧ Sim Q H0 n (vrest, out) s' := by
  obtain ⟨j, h1, h2, h3⟩ := f.val
  cases hkeys : fr.keys with
  | some l =>
    rw [hkeys] at h3
    obtain ⟨kvs, e⟩ := (shows_tag h2).1 h3.1
    exact absurd e (hk kvs)
  | none =>
    rw [hkeys] at h3
    obtain ⟨-, rfl, rfl⟩ := h3
    obtain ⟨H', e, o'⟩ := Over.delTuple (T := T ++ left) o sn hf
    exact ⟨_, by rw [popDel, e]; rfl, rfl, T, ks, left, st, o', hn⟩

theorem step_sim [Libc] (al : AlFree Q) (sn : Sane H0) {fuel : Nat} (hf : 2 ≤ fuel) (f : Bool) {s : QSt} {fr : QFrame} {rest : List QFrame}
    {vf : Frame} {vrest : List Frame} {n : Nat} (hs : s.stk = fr :: rest) (hl : rest.length + 1 < 500) (h : Sim Q H0 n (vf :: vrest, s.o) s) :
    Matches (Sim Q H0 n) (step f vf vrest s.o) (qstep Q fuel f s fr rest) := by
  obtain ⟨-, T, ks, left, st, o, hn⟩ := h
  rw [hs] at st
  simp only at st hn
  cases st with
  | @cons _ _ B kk _ _ T ks fo st =>
  obtain ⟨j, h1, h2, h3⟩ := fo.val
  have hj := shows_live h2
  have htup : s.H.m.h.live fr.tup = true ∧ s.H.m.h.live fr.cnt = true := by
    cases hkeys : fr.keys with
    | none => rw [hkeys] at h3; obtain ⟨-, -, rfl⟩ := h3; exact ⟨(o.live _).2 (.inr (by simp)), (o.live _).2 (.inr (by simp))⟩
    | some l => rw [hkeys] at h3; obtain ⟨-, m, -, -, rfl⟩ := h3; exact ⟨(o.live _).2 (.inr (by simp)), (o.live _).2 (.inr (by simp))⟩
  rw [remS] at hn
  simp only [qstep, htup, Bool.and_self, if_true, h1, o.liveOf hj, o.tag j hj, step]
  cases hv : vf.j with
  | atom a =>
    rw [hv, shows] at h2
    obtain ⟨-, ha⟩ := h2
    have hk : ∀ kvs, vf.j ≠ .obj kvs := by rw [hv]; simp
    have hr : rem vf = blobs (.atom a) := by rw [rem, hv]
    -- the value is read, and for a blob a string is made
    have key : ∀ t, H0.tag j = some t → readAtom Q s.H j t = .ok a → (t = .blob ↔ ∃ n, a = .blob n) →
        Matches (Sim Q H0 n) ((pad f vf.tabs s.o).bind fun o => (atomText a o).bind fun o => (sep f vf o).map fun o => (vrest, o))
          (stepAtom Q fuel f s fr rest t j) := by
      intro t ht hr' hb
      rw [stepAtom, hr', Res.bind_ok]
      by_cases hbt : t = .blob
      · obtain ⟨n', rfl⟩ := hb.1 hbt
        simp only [hbt, if_true, fo.tabs]
        refine .bind fun o1 _ => .bind fun o2 _ => ?_
        simp only [qsep_eq f _ fo.tabs fo.more]
        refine .map fun o3 _ => ?_
        have ob := o.raw sn al s.n
        refine pop_sim (left := ((allocRaw Q s.H s.n).2, []) :: left) sn hf (vf := vf) fo hk st ?_ o3 ?_
        · refine ob.perm ?_ (List.Perm.refl _)
          exact List.perm_middle.symm
        · rw [hr, blobs] at hn; simp only [List.length_cons]; omega
      · have hb' : blobs (.atom a) = 0 := by
          cases a with
          | blob n => exact absurd (hb.2 ⟨n, rfl⟩) hbt
          | _ => rfl
        simp only [hbt, if_false, fo.tabs]
        refine .bind fun o1 _ => .bind fun o2 _ => ?_
        simp only [qsep_eq f _ fo.tabs fo.more]
        refine .map fun o3 _ => ?_
        exact pop_sim sn hf (vf := vf) fo hk st o o3 (by rw [hr, hb'] at hn; omega)
    have hh := o.heldEq hj
    cases a with
    | undef => simp only [atomIn] at ha; simp only [ha]; exact key _ ha rfl (by simp)
    | null => simp only [atomIn] at ha; simp only [ha]; exact key _ ha rfl (by simp)
    | bool b =>
      simp only [atomIn] at ha
      simp only [ha.1]
      refine key _ ha.1 ?_ (by simp)
      rw [readAtom]
      congr 2
      rw [Bool.eq_iff_iff]
      simpa using ha.2
    | str t =>
      simp only [atomIn] at ha
      obtain ⟨ht, b, hb, hbl, rfl⟩ := ha
      simp only [ht]
      exact key _ ht (by simp only [readAtom, hh, hb, o.liveOf hbl, if_true]) (by simp)
    | strn t =>
      simp only [atomIn] at ha
      simp only [ha.1]
      exact key _ ha.1 (by simp only [readAtom, ha.2]) (by simp)
    | blob t =>
      simp only [atomIn] at ha
      obtain ⟨ht, b, hb, hbl, hc⟩ := ha
      simp only [ht]
      exact key _ ht (by simp only [readAtom, hh, hb, o.liveOf hbl, if_true, hc]) (by simp)
    | dbl t =>
      simp only [atomIn] at ha
      obtain ⟨ht, b, hb, hbl, hc⟩ := ha
      simp only [ht]
      exact key _ ht (by simp only [readAtom, hh, hb, o.liveOf hbl, if_true, hc]) (by simp)
    | i64 t =>
      simp only [atomIn] at ha
      obtain ⟨ht, b, hb, hbl, hc⟩ := ha
      simp only [ht]
      exact key _ ht (by simp only [readAtom, hh, hb, o.liveOf hbl, if_true, hc]) (by simp)
    | u64 t =>
      simp only [atomIn] at ha
      obtain ⟨ht, b, hb, hbl, hc⟩ := ha
      simp only [ht]
      exact key _ ht (by simp only [readAtom, hh, hb, o.liveOf hbl, if_true, hc]) (by simp)
  | arr xs =>
    have h2' := h2
    rw [hv, shows] at h2
    obtain ⟨-, ht, l, vs, hh, hll, hkl, hL⟩ := h2
    obtain ⟨hlen, hget⟩ := showsL_get hL
    have hk : ∀ kvs, vf.j ≠ .obj kvs := by rw [hv]; simp
    simp only [ht, stepArr, o.part hj ht hh, Res.bind_ok, o.liveOf hll, if_true, o.kids l hll, hkl, fo.next, fo.tabs]
    refine .bind fun o1 _ => ?_
    rw [afterArr]
    cases hx : xs[vf.next]? with
    | none =>
      have hvn : vs[vf.next]? = none := by
        rw [List.getElem?_eq_none_iff] at hx ⊢; omega
      have hr : rem vf = 0 := by
        rw [List.getElem?_eq_none_iff] at hx
        simp only [rem, hv, List.drop_of_length_le hx, blobsL]
      simp only [List.getElem?_map, hvn, Option.map_none]
      refine .bind fun o2 _ => ?_
      simp only [qsep_eq f _ fo.tabs fo.more]
      refine .map fun o3 _ => ?_
      exact pop_sim sn hf (vf := vf) fo hk st o o3 (by rw [hr] at hn; omega)
    | some x =>
      obtain ⟨v, hvx, hsx⟩ := hget _ _ hx
      simp only [List.getElem?_map, hvx, Option.map_some, List.length_map, ← hlen]
      have st' : Stack Q H0 ({ fr with next := vf.next + 1 } :: rest) ({ vf with next := vf.next + 1 } :: vrest) (B ++ T) (kk ++ ks) :=
        .cons ⟨fo.val, rfl, fo.tabs, fo.more⟩ st
      obtain ⟨s', T', ks', e, eo, st2, o2⟩ := push_sim al sn (s := { s with stk := { fr with next := vf.next + 1 } :: rest, o := o1 })
        (left := left) st' o (by simpa using hl) hsx (vf.tabs + 1) (decide (vf.next + 1 < xs.length))
      refine ⟨s', ?_, eo, T', ks', left, st2, o2, ?_⟩
      · simp only [fo.tabs] at e
        rw [e]; rfl
      · simp only [remS, rem_mk]
        rw [rem_arr hv hx] at hn
        omega
  | obj kvs =>
    have h2' := h2
    rw [hv, shows] at h2
    obtain ⟨-, ht, m, ps, hh, hml, hord, hprs, hnd, hF⟩ := h2
    obtain ⟨hfst, hkok, hget⟩ := showsF_get hF
    have hlen : kvs.length = ps.length := by simpa using congrArg List.length hfst
    cases hkeys : fr.keys with
    | none => rw [hkeys] at h3; exact absurd ht h3.1
    | some l =>
    rw [hkeys] at h3
    obtain ⟨-, m', hm', rfl, rfl⟩ := h3
    rw [hh] at hm'
    cases hm'
    have hll : s.H.m.h.live l = true := (o.live l).2 (.inr (by simp))
    have hkl : s.H.m.h.kids l = (H0.m.maps m).order.map fun k => (.rc, some k) := o.held (l, _) (by simp)
    simp only [ht, stepObj, o.part hj ht hh, Res.bind_ok, hkeys, hll, if_true, hkl, fo.next, fo.tabs]
    refine .bind fun o1 _ => ?_
    rw [afterObj]
    cases hx : kvs[vf.next]? with
    | none =>
      have hvn : ps[vf.next]? = none := by
        rw [List.getElem?_eq_none_iff] at hx ⊢; omega
      have hr : rem vf = 0 := by
        rw [List.getElem?_eq_none_iff] at hx
        simp only [rem, hv, List.drop_of_length_le hx, blobsF]
      simp only [List.getElem?_map, hord, hvn, Option.map_none]
      refine .bind fun o2 _ => ?_
      simp only [qsep_eq f _ fo.tabs fo.more]
      refine .map fun o3 _ => ?_
      have op : Over H0 s.H ((l, (H0.m.maps m).order.map fun k => (.rc, some k)) :: (fr.tup, [(.del, some fr.cnt), (.noop, fr.j)]) :: (fr.cnt, []) ::
          (T ++ left)) ((H0.m.maps m).order ++ ks) := by
        refine o.perm ?_ (List.Perm.refl _)
        simp only [List.cons_append, List.nil_append]
        exact ((List.Perm.swap _ _ _).cons _).trans (List.Perm.swap _ _ _)
      obtain ⟨H', e, o'⟩ := op.delKeys sn (fun k hk => ((shows_order h2' ht hh).2 k hk).1) (fuel := fuel) (by omega)
      obtain ⟨H'', e', o''⟩ := o'.delTuple sn hf
      refine ⟨{ s with stk := rest, H := H'', o := o3 }, ?_, rfl, T, ks, left, st, o'', by rw [hr] at hn; simp only; omega⟩
      rw [e]
      simp only [bindO, Res.bind_ok, popDel, e']
    | some q =>
      obtain ⟨k, x⟩ := q
      obtain ⟨p, hvx, hpk, hsx⟩ := hget _ _ _ hx
      simp only [List.getElem?_map, hord, hvx, Option.map_some, List.length_map, ← hlen]
      have hpm := List.mem_of_getElem? hvx
      have hfind := find_sim (Q := Q) (k := p.1) (v := p.2) o hml hprs hord (keys_nodup hF hnd).1 (fun p hp => (hkok p hp).1.live) hpm
      rw [hfind, Res.bind_ok, hpk]
      refine .bind fun o2 _ => .bind fun o3 _ => .map fun o4 _ => ?_
      have st' : Stack Q H0 ({ fr with next := vf.next + 1 } :: rest) ({ vf with next := vf.next + 1 } :: vrest)
          ([(fr.tup, [(.del, some fr.cnt), (.noop, fr.j)]), (fr.cnt, []), (l, (H0.m.maps m).order.map fun k => (.rc, some k))] ++ T)
          ((H0.m.maps m).order ++ ks) :=
        .cons ⟨⟨j, h1, h2', by simp only [hkeys]; exact ⟨ht, m, hh, rfl, trivial⟩⟩, rfl, fo.tabs, fo.more⟩ st
      obtain ⟨s', T', ks', e, eo, st2, o2⟩ := push_sim al sn (s := { s with stk := { fr with next := vf.next + 1 } :: rest, o := o4 })
        (left := left) st' o (by simpa using hl) hsx (vf.tabs + 1) (decide (vf.next + 1 < kvs.length))
      refine ⟨s', ?_, eo, T', ks', left, st2, o2, ?_⟩
      · simp only [hkeys, fo.tabs] at e
        rw [e]; rfl
      · simp only [remS, rem_mk]
        rw [rem_obj hv hx] at hn
        omega

/-- the loop of the printer of values with the stack at its end -/
def runS [Libc] (f : Bool) : Nat → List Frame → Out → Res (Option (List Frame × Out))
  | _, [], o => .ok (some ([], o))
  | 0, fr :: stk, o => if 500 ≤ stk.length + 1 then .ok (some (fr :: stk, o)) else .ok none
  | n + 1, fr :: stk, o =>
    if 500 ≤ stk.length + 1 then .ok (some (fr :: stk, o))
    else (step f fr stk o).bind fun r => runS f n r.1 r.2

theorem run_eq [Libc] (f : Bool) (n : Nat) : ∀ (stk : List Frame) (o : Out),
    Verif.Json.run f n stk o = (runS f n stk o).map fun r => r.map Prod.snd := by
  induction n with
  | zero =>
    intro stk o
    cases stk with
    | nil => rfl
    | cons fr stk =>
      rw [Verif.Json.run, runS]
      split <;> rfl
  | succ n ih =>
    intro stk o
    cases stk with
    | nil => rfl
    | cons fr stk =>
      rw [Verif.Json.run, runS]
      split
      · rfl
      · cases step f fr stk o with
        | ok r => exact ih r.1 r.2
        | ub => rfl
        | segv => rfl

/-- the outcomes of the loops -/
def MatchesO {α : Type} (P : α → QSt → Prop) (r : Res (Option α)) (q : Res (Option QSt)) : Prop :=
  match r with
  | .ok (some a) => ∃ s, q = .ok (some s) ∧ P a s
  | .ok none => q = .ok none
  | .ub => q = .ub
  | .segv => q = .segv

theorem run_sim [Libc] (al : AlFree Q) (sn : Sane H0) {fuel : Nat} (hf : 2 ≤ fuel) (f : Bool) {c : Nat} (n : Nat) :
    ∀ (vs : List Frame) (o : Out) (s : QSt), Sim Q H0 c (vs, o) s → MatchesO (Sim Q H0 c) (runS f n vs o) (qrun Q fuel f n s) := by
  induction n with
  | zero =>
    intro vs o s h
    obtain ⟨-, T, ks, left, st, ho, hn⟩ := id h
    simp only at st
    cases vs with
    | nil =>
      cases hs : s.stk with
      | nil => exact ⟨s, by rw [qrun, hs], h⟩
      | cons fr rest => rw [hs] at st; cases st
    | cons vf vrest =>
      cases hs : s.stk with
      | nil => rw [hs] at st; cases st
      | cons fr rest =>
        have hl := st.length
        rw [hs] at hl
        simp only [List.length_cons] at hl
        rw [runS]
        by_cases h5 : 500 ≤ vrest.length + 1
        · rw [if_pos h5]
          exact ⟨s, by rw [qrun, hs]; simp only; rw [if_pos (by omega)], h⟩
        · rw [if_neg h5]
          show qrun Q fuel f 0 s = .ok none
          rw [qrun, hs]; simp only; rw [if_neg (by omega)]
  | succ n ih =>
    intro vs o s h
    obtain ⟨ho', T, ks, left, st, ho, hn⟩ := id h
    simp only at st ho'
    cases vs with
    | nil =>
      cases hs : s.stk with
      | nil => exact ⟨s, by rw [qrun, hs], h⟩
      | cons fr rest => rw [hs] at st; cases st
    | cons vf vrest =>
      cases hs : s.stk with
      | nil => rw [hs] at st; cases st
      | cons fr rest =>
        have hl := st.length
        rw [hs] at hl
        simp only [List.length_cons] at hl
        rw [runS]
        by_cases h5 : 500 ≤ vrest.length + 1
        · rw [if_pos h5]
          exact ⟨s, by rw [qrun, hs]; simp only; rw [if_pos (by omega)], h⟩
        · rw [if_neg h5]
          have hq : qrun Q fuel f (n + 1) s = bindO (qstep Q fuel f s fr rest) fun s => qrun Q fuel f n s := by
            rw [qrun, hs]; simp only; rw [if_neg (by omega)]
          rw [hq]
          have hst := step_sim al sn hf f hs (by omega) (ho' ▸ h)
          rw [ho'] at hst
          cases e : step f vf vrest o with
          | ok r =>
            rw [e] at hst
            obtain ⟨s', e', h'⟩ := hst
            rw [e', Res.bind_ok]
            exact ih r.1 r.2 s' h'
          | ub => rw [e] at hst; rw [show qstep Q fuel f s fr rest = .ub from hst]; rfl
          | segv => rw [e] at hst; rw [show qstep Q fuel f s fr rest = .segv from hst]; rfl

/-- no frame is too deep -/
def Low : List Frame → Prop
  | [] => True
  | fr :: stk => stk.length + fr.j.height < 500 ∧ Low stk

theorem res_bind_some {α β : Type} {x : Res α} {g : α → Res β} {b : β} (h : x.bind g = .ok b) : ∃ a, x = .ok a ∧ g a = .ok b := by
  cases x with
  | ok a => exact ⟨a, rfl, h⟩
  | ub => cases h
  | segv => cases h

theorem res_map_some {α β : Type} {x : Res α} {g : α → β} {b : β} (h : x.map g = .ok b) : ∃ a, x = .ok a ∧ g a = b := by
  cases x with
  | ok a => exact ⟨a, rfl, by cases h; rfl⟩
  | ub => cases h
  | segv => cases h

theorem step_low [Libc] {f : Bool} {vf : Frame} {vrest : List Frame} {o : Out} {r : List Frame × Out} (hl : Low (vf :: vrest))
    (h : step f vf vrest o = .ok r) : Low r.1 := by
  cases hv : vf.j with
  | atom a =>
    simp only [step, hv] at h
    obtain ⟨_, _, h⟩ := res_bind_some h
    obtain ⟨_, _, h⟩ := res_bind_some h
    obtain ⟨_, _, rfl⟩ := res_map_some h
    exact hl.2
  | arr xs =>
    simp only [step, hv] at h
    obtain ⟨_, _, h⟩ := res_bind_some h
    rw [afterArr] at h
    cases hx : xs[vf.next]? with
    | none =>
      simp only [hx] at h
      obtain ⟨_, _, h⟩ := res_bind_some h
      obtain ⟨_, _, rfl⟩ := res_map_some h
      exact hl.2
    | some x =>
      simp only [hx, Res.ok.injEq] at h
      subst h
      have h1 := heightL_mem (List.mem_of_getElem? hx)
      have h2 := hl.1
      rw [hv, Val.height] at h2
      refine ⟨?_, ?_, hl.2⟩
      · simp only [mkFrame, List.length_cons]; omega
      · rw [hv, Val.height]; exact h2
  | obj xs =>
    simp only [step, hv] at h
    obtain ⟨_, _, h⟩ := res_bind_some h
    rw [afterObj] at h
    cases hx : xs[vf.next]? with
    | none =>
      simp only [hx] at h
      obtain ⟨_, _, h⟩ := res_bind_some h
      obtain ⟨_, _, rfl⟩ := res_map_some h
      exact hl.2
    | some x =>
      simp only [hx] at h
      obtain ⟨_, _, h⟩ := res_bind_some h
      obtain ⟨_, _, h⟩ := res_bind_some h
      obtain ⟨_, _, rfl⟩ := res_map_some h
      have h1 := heightF_mem (List.mem_of_getElem? hx)
      have h2 := hl.1
      rw [hv, Val.height] at h2
      refine ⟨?_, ?_, hl.2⟩
      · simp only [mkFrame, List.length_cons]; omega
      · rw [hv, Val.height]; exact h2

theorem height_pos (v : Val) : 0 < v.height := by
  cases v <;> rw [Val.height] <;> omega

/-- the stack is empty at the end -/
theorem runS_low [Libc] {f : Bool} (n : Nat) : ∀ {vs : List Frame} {o : Out} {r : List Frame × Out}, Low vs → runS f n vs o = .ok (some r) → r.1 = [] := by
  induction n with
  | zero =>
    intro vs o r hl h
    cases vs with
    | nil => rw [runS] at h; cases h; rfl
    | cons vf vrest =>
      have := height_pos vf.j
      have := hl.1
      rw [runS, if_neg (by omega)] at h
      cases h
  | succ n ih =>
    intro vs o r hl h
    cases vs with
    | nil => rw [runS] at h; cases h; rfl
    | cons vf vrest =>
      have := height_pos vf.j
      have := hl.1
      rw [runS, if_neg (by omega)] at h
      obtain ⟨q, e, h⟩ := res_bind_some h
      exact ih (step_low hl e) h

theorem Over.trans {H1 H2 : JHeap} {T1 T2 : List (Nat × List Edge)} {ks1 ks2 : List Nat} (a : Over H0 H1 T1 ks1) (b : Over H1 H2 T2 ks2) :
    Over H0 H2 (T2 ++ T1) (ks2 ++ ks1) where
  nodup := by
    rw [List.map_append, List.nodup_append]
    refine ⟨b.nodup, a.nodup, ?_⟩
    intro x hx y hy e
    subst e
    obtain ⟨p, hp, rfl⟩ := List.mem_map.1 hx
    have := b.fresh p hp
    rw [(a.live _).2 (.inr hy)] at this
    cases this
  fresh := by
    intro p hp
    rcases List.mem_append.1 hp with hp | hp
    · have := b.fresh p hp
      cases h : H0.m.h.live p.1 with
      | false => rfl
      | true => rw [(a.live _).2 (.inl h)] at this; cases this
    · exact a.fresh p hp
  live := by
    intro y
    rw [b.live, a.live, List.map_append, List.mem_append]
    tauto
  held := by
    intro p hp
    rcases List.mem_append.1 hp with hp | hp
    · exact b.held p hp
    · rw [b.kids p.1 ((a.live _).2 (.inr (List.mem_map.2 ⟨p, hp, rfl⟩)))]
      exact a.held p hp
  kids := fun y hy => by rw [b.kids y (a.liveOf hy), a.kids y hy]
  deg := fun y hy => by rw [b.deg y (a.liveOf hy), a.deg y hy, List.count_append]; omega
  ret := fun y hy => by rw [b.ret y (a.liveOf hy), a.ret y hy]
  tag := fun y hy => by rw [b.tag y (a.liveOf hy), a.tag y hy]
  maps := by rw [b.maps, a.maps]
  single := by rw [b.single, a.single]
  other := by rw [b.other, a.other]

theorem Over.sane {H1 : JHeap} {T1 : List (Nat × List Edge)} {ks1 : List Nat} (a : Over H0 H1 T1 ks1) (sn : Sane H0) : Sane H1 where
  finite := by
    obtain ⟨D, hD⟩ := sn.finite
    refine ⟨D ++ T1.map Prod.fst, fun x hx => ?_⟩
    rw [List.mem_append]
    rcases (a.live x).1 hx with h | h
    · exact .inl (hD x h)
    · exact .inr h
  static := fun x hx => a.liveOf (sn.static x (by rw [← a.single]; exact hx))

mutual
/-- what memory has stays when blocks are added -/
theorem Over.shows {H1 : JHeap} {T1 : List (Nat × List Edge)} (a : Over H0 H1 T1 []) : ∀ {v : Val} {j : Nat}, shows Q H0 v j → PrintProps.shows Q H1 v j
  | .atom x, j, h => by
    rw [PrintProps.shows] at h ⊢
    obtain ⟨hj, hx⟩ := h
    refine ⟨a.liveOf hj, ?_⟩
    have e1 := a.tag j hj
    have e2 := a.heldEq hj
    cases x with
    | undef => simp only [atomIn, e1] at hx ⊢; exact hx
    | null => simp only [atomIn, e1] at hx ⊢; exact hx
    | bool b => simp only [atomIn, e1] at hx ⊢; exact hx
    | str s => simp only [atomIn, e1, e2] at hx ⊢; obtain ⟨h1, b, h2, h3, h4⟩ := hx; exact ⟨h1, b, h2, a.liveOf h3, h4⟩
    | strn s => simp only [atomIn, e1] at hx ⊢; exact hx
    | blob s => simp only [atomIn, e1, e2] at hx ⊢; obtain ⟨h1, b, h2, h3, h4⟩ := hx; exact ⟨h1, b, h2, a.liveOf h3, h4⟩
    | dbl s => simp only [atomIn, e1, e2] at hx ⊢; obtain ⟨h1, b, h2, h3, h4⟩ := hx; exact ⟨h1, b, h2, a.liveOf h3, h4⟩
    | i64 s => simp only [atomIn, e1, e2] at hx ⊢; obtain ⟨h1, b, h2, h3, h4⟩ := hx; exact ⟨h1, b, h2, a.liveOf h3, h4⟩
    | u64 s => simp only [atomIn, e1, e2] at hx ⊢; obtain ⟨h1, b, h2, h3, h4⟩ := hx; exact ⟨h1, b, h2, a.liveOf h3, h4⟩
  | .arr xs, j, h => by
    rw [PrintProps.shows] at h ⊢
    obtain ⟨hj, ht, l, vs, h1, h2, h3, h4⟩ := h
    exact ⟨a.liveOf hj, (a.tag j hj).trans ht, l, vs, (a.heldEq hj).trans h1, a.liveOf h2, (a.kids l h2).trans h3, a.showsL h4⟩
  | .obj kvs, j, h => by
    rw [PrintProps.shows] at h ⊢
    obtain ⟨hj, ht, m, ps, h1, h2, h3, h4, h5, h6⟩ := h
    exact ⟨a.liveOf hj, (a.tag j hj).trans ht, m, ps, (a.heldEq hj).trans h1, a.liveOf h2, by rw [a.maps]; exact h3, by rw [a.maps]; exact h4, h5,
      a.showsF h6⟩
theorem Over.showsL {H1 : JHeap} {T1 : List (Nat × List Edge)} (a : Over H0 H1 T1 []) : ∀ {xs : List Val} {vs : List Nat}, showsL Q H0 xs vs →
    PrintProps.showsL Q H1 xs vs
  | [], [], _ => by rw [PrintProps.showsL]; trivial
  | x :: xs, v :: vs, h => by
    rw [PrintProps.showsL] at h ⊢
    exact ⟨a.shows h.1, a.showsL h.2⟩
  | [], _ :: _, h => by simp [PrintProps.showsL] at h
  | _ :: _, [], h => by simp [PrintProps.showsL] at h
theorem Over.showsF {H1 : JHeap} {T1 : List (Nat × List Edge)} (a : Over H0 H1 T1 []) : ∀ {xs : List (List Byte × Val)} {ps : List (Nat × Nat)},
    showsF Q H0 xs ps → PrintProps.showsF Q H1 xs ps
  | [], [], _ => by rw [PrintProps.showsF]; trivial
  | (k, x) :: xs, p :: ps, h => by
    rw [PrintProps.showsF] at h ⊢
    obtain ⟨⟨h1, h2, h3⟩, h4, h5⟩ := h
    have e := a.deg p.1 h2.live
    simp only [List.count_nil, Nat.add_zero] at e
    exact ⟨⟨h1, ⟨a.liveOf h2.live, (a.ret p.1 h2.live).trans h2.ret, e ▸ h2.pos⟩, e ▸ h3⟩, a.shows h4, a.showsF h5⟩
  | [], _ :: _, h => by simp [PrintProps.showsF] at h
  | _ :: _, [], h => by simp [PrintProps.showsF] at h
end

/-- all of the printer, with the stack at its end -/
theorem print_sim [Libc] (al : AlFree Q) (sn : Sane H0) {fuel : Nat} (hf : 2 ≤ fuel) (f : Bool) {v : Val} {j : Nat} (hv : shows Q H0 v j)
    (buf : Option (List (Option Byte))) (n n0 : Nat) :
    match runS f n [mkFrame 0 false v] ⟨buf, 0⟩ with
    | .ok (some (stk, o)) =>
      match o.write o.off [0] with
      | .ok o' => ∃ H' n' frs T ks left, memPrint Q fuel n f buf H0 n0 (some j) = .ok (some (H', n', o'.buf, o'.off)) ∧
          Stack Q (allocRaw Q H0 n0).1 frs stk T ks ∧ Over H0 H' (T ++ left) ks ∧ left.length + remS stk = blobs v
      | .ub => memPrint Q fuel n f buf H0 n0 (some j) = .ub
      | .segv => memPrint Q fuel n f buf H0 n0 (some j) = .segv
    | .ok none => memPrint Q fuel n f buf H0 n0 (some j) = .ok none
    | .ub => memPrint Q fuel n f buf H0 n0 (some j) = .ub
    | .segv => memPrint Q fuel n f buf H0 n0 (some j) = .segv := by
  have o1 := (over_refl H0).raw sn al n0
  have sn1 := o1.sane sn
  have hv1 := o1.shows hv
  obtain ⟨s, T, ks, e, eo, st, ho⟩ := push_sim al sn1 (s := ⟨[], (allocRaw Q H0 n0).1, n0 + 1, ⟨buf, 0⟩⟩) (left := []) .nil (over_refl _)
    (by simp) hv1 0 false
  have sim : Sim Q (allocRaw Q H0 n0).1 (blobs v) ([mkFrame 0 false v], ⟨buf, 0⟩) s :=
    ⟨eo, T, ks, [], st, ho, by simp [remS, rem_mk]⟩
  have hr := run_sim al sn1 hf f n _ _ _ sim
  simp only [memPrint, e, Res.bind_ok]
  cases hrun : runS f n [mkFrame 0 false v] ⟨buf, 0⟩ with
  | ub => rw [hrun] at hr; rw [show qrun Q fuel f n s = .ub from hr]; rfl
  | segv => rw [hrun] at hr; rw [show qrun Q fuel f n s = .segv from hr]; rfl
  | ok r =>
    rw [hrun] at hr
    cases r with
    | none => rw [show qrun Q fuel f n s = .ok none from hr]; rfl
    | some r =>
      obtain ⟨s', e', eo', T', ks', left, st', ho', hn⟩ := hr
      have h2 := (o1.trans ho').perm (T' := ((allocRaw Q H0 n0).2, []) :: (T' ++ left)) (ks' := ks') (by
        exact List.perm_append_comm) (by simp)
      obtain ⟨H', e2, h3⟩ := h2.delRaw sn (fuel := fuel) (by omega)
      rw [e']
      simp only [bindO, Res.bind_ok, e2, eo']
      cases hw : r.2.write r.2.off [0] with
      | ok o' => exact ⟨H', s'.n, s'.stk, T', ks', left, rfl, st', h3, hn⟩
      | ub => rfl
      | segv => rfl

end

end Verif.Rc.PrintProps
