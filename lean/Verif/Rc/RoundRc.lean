import Verif.Rc.ParseText
import Verif.Rc.PrintRcProps

/-!
# Reading, printing and deleting a document in memory (lemmas for C132)
-/

namespace Verif.Rc

/-- the number with a name: what the printer reads from the block of a number (snprint.c:273-296) that the
parser made under the name `numName` (value.c:262-276) -/
def numOf : List Verif.Json.Byte → Verif.Json.Atom
  | [] => .undef
  | t :: l => if t = 0 then .i64 l.length else if t = 1 then .i64 (-l.length) else if t = 2 then .u64 l.length else .dbl (UInt64.ofNat l.length)

/-- the printer (snprint.c:183-363) with the allocator, the texts and the numbers of the parser; blocks of the printer have no text -/
def PEnv.printer (E : PEnv) : QEnv := ⟨fun n live => E.al n live [], E.txt, fun b => numOf (E.txt b), E.yes⟩

namespace RoundProps
open Verif.Chain (upd)
open Verif.Json (Byte Tok Atom Val Libc)
open Verif.Rc.Props Verif.Rc.MapProps Verif.Rc.JsonProps Verif.Rc.ParseProps
open Verif.Rc.PrintProps (Over Sane AlFree KeyOk shows showsL showsF atomIn blobs blobsL blobsF)

/-- the types of the static blocks (value.c:15-37) -/
structure Consts (E : PEnv) (H : JHeap) : Prop where
  yes : H.tag E.yes = some .boolean
  no : H.tag E.no = some .boolean
  null : H.tag E.null = some .null
  ne : E.no ≠ E.yes

theorem numOf_i64 (n : Int) : numOf (numName (.i64 n)) = .i64 n := by
  by_cases h : n < 0
  · simp only [numName, h, if_true, numOf, List.length_replicate]
    rw [if_neg (by decide)]
    congr 1; omega
  · simp only [numName, h, if_false, numOf, List.length_replicate, if_true]
    congr 1; omega

theorem numOf_u64 (n : Nat) : numOf (numName (.u64 n)) = .u64 n := by
  simp only [numName, numOf, List.length_replicate]
  rw [if_neg (by decide), if_neg (by decide), if_pos trivial]

theorem numOf_dbl (b : UInt64) : numOf (numName (.dbl b)) = .dbl b := by
  simp only [numName, numOf, List.length_replicate]
  rw [if_neg (by decide), if_neg (by decide), if_neg (by decide), UInt64.ofNat_toNat]

section
variable {sg oth : Nat → Bool} {eqv : Nat → Nat → Bool} {E : PEnv} {X0 X : JS} {H H' : JHeap} {idx : Nat → Nat}
  {n l r hi d : Nat} {T Q : List Nat}

theorem free_of (al : AlOk E) : AlFree E.printer := fun n live D h => (al n live D h []).1

theorem sane_of (J : JG sg eqv oth X H) : Sane H where
  finite := ⟨X.x.s.D, fun x hx => (J.live x).1 hx⟩
  static := fun x hx => (J.live x).2 (J.staticIn (by rw [J.single] at hx; exact hx))

theorem new_edge (k : Core sg E.eqv oth X0 X H idx n l r) {y b : Nat} (hy : y ∈ X.x.s.D) (hn : y ∉ X0.x.s.D)
    (he : (Policy.rc, some b) ∈ X.x.s.kids y) : sg b = true ∨ b ∉ X0.x.s.D := k.old.edges y hy hn b he

/-- containers are not static -/
theorem box_new (k : Core sg E.eqv oth X0 X H idx n l r) {y : Nat} {t : Tag} {kd : Kind} (h : sg y = true ∨ y ∉ X0.x.s.D)
    (hk : X.kind y = .json t) (ht : part t = some kd) : y ∉ X0.x.s.D := by
  rcases h with h | h
  · obtain ⟨-, t', h1, h2⟩ := k.J.typed.static y h
    rw [hk] at h1; cases h1; rw [ht] at h2; cases h2
  · exact h

/-- parts of containers are not static -/
theorem part_new (k : Core sg E.eqv oth X0 X H idx n l r) {y : Nat} (h : sg y = true ∨ y ∉ X0.x.s.D) (hk : ∀ t, X.kind y ≠ .json t) :
    y ∉ X0.x.s.D := by
  rcases h with h | h
  · obtain ⟨-, t', h1, -⟩ := k.J.typed.static y h
    exact absurd h1 (hk t')
  · exact h

theorem static_of (k : Core sg E.eqv oth X0 X H idx n l r) {y : Nat} (h : y ∉ X0.x.s.D) : sg y = false := by
  cases e : sg y with
  | false => rfl
  | true => exact absurd (k.old.static y e) h

/-- the value that was parsed can be printed -/
theorem shows_of (k : Core sg E.eqv oth X0 X H idx n l r) (lt : Consts E H) (v : Val) :
    ∀ j ∈ X.x.s.D, (sg j = true ∨ j ∉ X0.x.s.D) → holds E X idx hi v j → shows E.printer H v j := by
  obtain ⟨A, G, -⟩ := k.J.mem
  induction v using Val.ind with
  | h0 a =>
    intro j hj hn h
    have r := reads_of k.J _ j hj h
    rw [reads] at r
    rw [shows]
    refine ⟨r.1, ?_⟩
    have r := r.2
    cases a with
    | undef => exact r.elim
    | strn t => exact r.elim
    | blob t => exact r.elim
    | null => obtain rfl : j = E.null := r; exact lt.null
    | bool b =>
      cases b with
      | true => obtain rfl : j = E.yes := r; exact ⟨lt.yes, by simp [PEnv.printer]⟩
      | false => obtain rfl : j = E.no := r; exact ⟨lt.no, by simp [PEnv.printer, lt.ne]⟩
    | str t => exact r
    | i64 m => obtain ⟨h1, b, h2, h3, h4⟩ := r; exact ⟨h1, b, h2, h3, by simp only [PEnv.printer, h4, numOf_i64]⟩
    | u64 m => obtain ⟨h1, b, h2, h3, h4⟩ := r; exact ⟨h1, b, h2, h3, by simp only [PEnv.printer, h4, numOf_u64]⟩
    | dbl m => obtain ⟨h1, b, h2, h3, h4⟩ := r; exact ⟨h1, b, h2, h3, by simp only [PEnv.printer, h4, numOf_dbl]⟩
  | ha xs ih =>
    intro j hj hn h
    rw [holds] at h
    rw [shows]
    obtain ⟨b, vs, -, h2, h3⟩ := h
    obtain ⟨hb, hvs⟩ := h2.mem k.J hj
    have hj0 := box_new k hn h2.tag rfl
    have hb0 := part_new k (new_edge k hj hj0 (b := b) (by rw [h2.held]; simp)) (by rw [h2.kind]; simp)
    have hv0 : ∀ v ∈ vs, sg v = true ∨ v ∉ X0.x.s.D := fun v hv =>
      new_edge k hb hb0 (by rw [h2.kids]; exact List.mem_map.2 ⟨v, hv, rfl⟩)
    refine ⟨(k.J.live j).2 hj, by rw [k.J.tag j hj, h2.tag]; rfl, b, vs, held_of k.J h2.held, (k.J.live b).2 hb,
      by rw [k.J.kids]; exact h2.kids, ?_⟩
    clear h2
    induction xs generalizing vs with
    | nil => cases vs with
      | nil => rw [showsL]; trivial
      | cons v vs => simp [holdsL] at h3
    | cons x xs ihx => cases vs with
      | nil => simp [holdsL] at h3
      | cons v vs =>
        rw [holdsL] at h3
        rw [showsL]
        exact ⟨ih x (by simp) v (hvs v (by simp)).1 (hv0 v (by simp)) h3.1,
          ihx (fun y hy => ih y (List.mem_cons_of_mem _ hy)) vs h3.2 (fun w hw => hvs w (List.mem_cons_of_mem _ hw))
            (fun w hw => hv0 w (List.mem_cons_of_mem _ hw))⟩
  | ho xs ih =>
    intro j hj hn h
    rw [holds] at h
    rw [shows]
    obtain ⟨m, ps, -, h2, h3⟩ := h
    obtain ⟨hm, hps⟩ := h2.mem k.J hj
    have hj0 := box_new k hn h2.tag rfl
    have hm0 := part_new k (new_edge k hj hj0 (b := m) (by rw [h2.held]; simp)) (by rw [h2.kind]; simp)
    have hp : ∀ p ∈ ps, (p.1, some p.2) ∈ (X.x.maps m).pairs := fun p hp => by rw [h2.pairs]; exact List.mem_map.2 ⟨p, hp, rfl⟩
    have hv0 : ∀ p ∈ ps, sg p.2 = true ∨ p.2 ∉ X0.x.s.D := fun p h =>
      new_edge k hm hm0 (obj_edges k.J hm h2.kind (hp p h)).2
    have hk0 : ∀ p ∈ ps, KeyOk H p.1 ∧ H.m.h.deg p.1 + 500 < 65536 := by
      intro p h
      have sh := k.J.typed.shape m hm
      rw [h2.kind] at sh
      have he := (obj_edges k.J hm h2.kind (hp p h)).1
      have hr := (sh.2.2 _ (hp p h)).1
      have hn := part_new k (new_edge k hm hm0 he) (by rw [hr]; simp)
      have hD : p.1 ∈ X.x.s.D := Good.tgt G hm he
      obtain ⟨f1, f2⟩ := k.J.fields hD (static_of k hn)
      have := k.old.few p.1 hn
      refine ⟨⟨(k.J.live _).2 hD, f2, ?_⟩, by omega⟩
      rw [f1]
      rcases Nat.eq_zero_or_pos (X.x.s.rc p.1) with h0 | h0
      · exact absurd he ((rc_zero.1 h0).2 m hm)
      · exact h0
    have hnd : (xs.map Prod.fst).Nodup := by
      obtain ⟨hM, -⟩ := k.J.map hm h2.kind
      have hd := (G.wf m hm hM).dist
      rw [h2.pairs, List.pairwise_map] at hd
      have hx : ∀ (xs : List (List Byte × Val)) (ps : List (Nat × Nat)), holdsF E X idx hi xs ps → xs.map Prod.fst = ps.map fun p => E.txt p.1 := by
        intro xs
        induction xs with
        | nil => intro ps h; cases ps with
          | nil => rfl
          | cons p ps => simp [holdsF] at h
        | cons x xs ih => intro ps h; cases ps with
          | nil => simp [holdsF] at h
          | cons p ps => obtain ⟨q, x⟩ := x; rw [holdsF] at h; simp [ih ps h.2.2, h.1]
      rw [hx xs ps h3, List.Nodup, List.pairwise_map]
      exact hd.imp fun h e => by simp [PEnv.eqv, e] at h
    refine ⟨(k.J.live j).2 hj, by rw [k.J.tag j hj, h2.tag]; rfl, m, ps, held_of k.J h2.held, (k.J.live m).2 hm,
      by rw [k.J.maps]; exact h2.order, by rw [k.J.maps, h2.pairs], hnd, ?_⟩
    clear h2 hnd hp
    induction xs generalizing ps with
    | nil => cases ps with
      | nil => rw [showsF]; trivial
      | cons v vs => simp [holdsF] at h3
    | cons x xs ihx => cases ps with
      | nil => simp [holdsF] at h3
      | cons p ps =>
        obtain ⟨q, x⟩ := x
        rw [holdsF] at h3
        rw [showsF]
        exact ⟨⟨h3.1, hk0 p (by simp)⟩, ih (q, x) (by simp) p.2 (hps p (by simp)).2.1 (hv0 p (by simp)) h3.2.1,
          ihx (fun y hy => ih y (List.mem_cons_of_mem _ hy)) ps h3.2.2 (fun w hw => hps w (List.mem_cons_of_mem _ hw))
            (fun w hw => hv0 w (List.mem_cons_of_mem _ hw)) (fun w hw => hk0 w (List.mem_cons_of_mem _ hw))⟩

/-- the parser makes no blobs -/
theorem no_blobs (v : Val) : ∀ j, holds E X idx hi v j → blobs v = 0 := by
  induction v using Val.ind with
  | h0 a =>
    intro j h
    rw [holds] at h
    cases a with
    | blob t => exact h.elim
    | _ => rfl
  | ha xs ih =>
    intro j h
    rw [holds] at h
    obtain ⟨b, vs, -, -, h3⟩ := h
    rw [blobs]
    induction xs generalizing vs with
    | nil => rfl
    | cons x xs ihx => cases vs with
      | nil => simp [holdsL] at h3
      | cons v vs =>
        rw [holdsL] at h3
        rw [blobsL, ih x (by simp) v h3.1, ihx (fun y hy => ih y (List.mem_cons_of_mem _ hy)) vs h3.2]
  | ho xs ih =>
    intro j h
    rw [holds] at h
    obtain ⟨b, vs, -, -, h3⟩ := h
    rw [blobs]
    induction xs generalizing vs with
    | nil => rfl
    | cons x xs ihx => cases vs with
      | nil => simp [holdsF] at h3
      | cons v vs =>
        obtain ⟨q, x⟩ := x
        rw [holdsF] at h3
        rw [blobsF, ih (q, x) (by simp) v.2 h3.2.1, ihx (fun y hy => ih y (List.mem_cons_of_mem _ hy)) vs h3.2.2]

/-! ## memory that is the same where something is -/

/-- the specification with what is held in another memory -/
def withKids (X : JS) (f : Nat → List Edge) : JS := { X with x := { X.x with s := { X.x.s with kids := f } } }

theorem rc_kids {f : Nat → List Edge} (h : ∀ y ∈ X.x.s.D, X.x.s.kids y = f y) (x : Nat) : (withKids X f).x.s.rc x = X.x.s.rc x := by
  rw [Spec.rc, Spec.rc]
  show refs f X.x.s.D .rc x + X.x.s.ext x = _
  rw [← refs_congr h]

theorem same_good (J : JG sg eqv oth X H) (o : Over H H' [] []) : (∀ y ∈ X.x.s.D, X.x.s.kids y = H'.m.h.kids y) ∧
    JG sg eqv oth (withKids X H'.m.h.kids) H' := by
  have hl : ∀ y, H'.m.h.live y = true ↔ y ∈ X.x.s.D := fun y => by rw [o.live, J.live]; simp
  have hk : ∀ y ∈ X.x.s.D, X.x.s.kids y = H'.m.h.kids y := fun y hy => by
    rw [o.kids y ((J.live y).2 hy), J.kids]
  refine ⟨hk, ?_⟩
  obtain ⟨A, G, M⟩ := J.mem
  have hd : ∀ y ∈ X.x.s.D, sg y = false → H'.m.h.deg y = A.h.deg y ∧ H'.m.h.ret y = A.h.ret y := fun y hy hs => by
    have hy := (J.live y).2 hy
    exact ⟨by rw [o.deg y hy, M.h.deg y hs]; simp, by rw [o.ret y hy, M.h.ret y hs]⟩
  have hp : ∀ y ∈ X.x.s.D, ∀ x, Pts H'.m.h.kids y x ↔ Pts X.x.s.kids y x := by
    intro y hy x
    simp only [Pts, hk y hy]
  refine ⟨⟨fun y hy => ?_, J.typed.isMap, J.typed.static⟩,
    ⟨{ h := { live := H'.m.h.live, kids := H'.m.h.kids, deg := fun x => if sg x then A.h.deg x else H'.m.h.deg x,
              ret := fun x => if sg x then A.h.ret x else H'.m.h.ret x }, maps := A.maps, other := A.other }, ?_, ?_⟩,
    fun x hx => ?_, by rw [o.single, J.single], by rw [o.other, J.foreign]⟩
  · show Shape X.kind (H'.m.h.kids y) (X.x.maps y) (X.kind y)
    rw [← hk y hy]
    exact J.typed.shape y hy
  · refine ⟨⟨rfl, G.rel.nodup, hl, fun y hy x hpt => G.rel.tgt y hy x ((hp y hy x).1 hpt), G.rel.ext, fun x hx => ?_, fun x hx => ?_,
      fun x hx hr => ?_⟩, G.maps, fun m hm hM => ?_⟩
    · show (if sg x then A.h.deg x else H'.m.h.deg x) = (withKids X H'.m.h.kids).x.s.rc x
      rw [rc_kids hk, ← G.rel.deg x hx]
      split
      · rfl
      · next h => exact (hd x hx (by simpa using h)).1
    · show refs H'.m.h.kids X.x.s.D .del x = if (if sg x then A.h.ret x else H'.m.h.ret x) then 1 else 0
      rw [← refs_congr hk]
      have e : (if sg x then A.h.ret x else H'.m.h.ret x) = A.h.ret x := by
        split
        · rfl
        · next h => exact (hd x hx (by simpa using h)).2
      rw [e]
      exact G.rel.own x hx
    · rw [rc_kids hk]
      refine G.rel.excl x hx ?_
      have hr : (if sg x then A.h.ret x else H'.m.h.ret x) = true := hr
      split at hr
      · exact hr
      · next h => rw [← (hd x hx (by simpa using h)).2]; exact hr
    · have w := G.wf m hm hM
      exact ⟨by show H'.m.h.kids m = _; rw [← hk m hm]; exact w.kids, w.kp, w.vals, w.perm, w.dist⟩
  · refine ⟨⟨rfl, rfl, fun x hs => by simp [hs], fun x hs => by simp [hs]⟩, by rw [o.maps, M.maps], by rw [o.other, M.other]⟩
  · rw [o.tag x ((J.live x).2 hx), J.tag x hx]
    rfl

theorem same_core (k : Core sg E.eqv oth X0 X H idx n l r) (o : Over H H' [] []) :
    Core sg E.eqv oth X0 (withKids X H'.m.h.kids) H' idx n l r ∧
      ∀ {T Q : List Nat} {d : Nat}, Own sg X0 X T Q d → Own sg X0 (withKids X H'.m.h.kids) T Q d := by
  obtain ⟨hk, J'⟩ := same_good k.J o
  refine ⟨⟨J', ⟨k.old.dom, k.old.ext, fun y hy => ?_, k.old.maps, k.old.kind, fun y hy hn b hb => ?_, fun s hs => ?_, k.old.static,
    fun y hy => ?_⟩, fun y hy hn b hb hb0 => ?_, k.idx⟩, fun ow => ⟨ow.nodup, fun t ht => ?_, fun q hq => ?_, fun h b hb h0 hr => ?_⟩⟩
  · exact (hk y (k.old.sub hy)).symm.trans (k.old.kids y hy)
  · exact k.old.edges y hy hn b (by rw [hk y hy]; exact hb)
  · rw [rc_kids hk]; exact k.old.rcs s hs
  · rw [rc_kids hk]; exact k.old.few y hy
  · exact k.rank y hy hn b (by rw [hk y hy]; exact hb) hb0
  · obtain ⟨i, i0⟩ := ow.temps t ht
    exact ⟨⟨i.mem, i.kind, by rw [rc_kids hk]; exact i.rc, i.ns⟩, i0⟩
  · obtain ⟨h1, h2, h3, h4⟩ := ow.roots q hq
    exact ⟨h1, h2, by rw [rc_kids hk]; exact h3, h4⟩
  · rw [rc_kids hk] at hr
    exact ow.clean h b hb h0 hr

end
end RoundProps
end Verif.Rc
