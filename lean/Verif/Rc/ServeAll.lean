import Verif.Rc.ServeRc
import Verif.Json.Sizes

/-!
# C135: any number of texts of any kind

What C134 says of texts without keys given twice, here for all texts that the parser accepts: nothing is assumed of the keys.
-/

namespace Verif.Rc
open Verif.Json (Byte Tok Atom Val Libc Syn Spells nextToken compact nsteps)

namespace ParseProps
open Verif.Rc.Props Verif.Rc.MapProps Verif.Rc.JsonProps
open Verif.Chain (upd)

section
variable {sg oth : Nat → Bool} {E : PEnv} {X0 X : JS} {H0 H : JHeap} {idx : Nat → Nat} {n l r d : Nat}

/-- `cee_del` (cee-common.c:24-29) of a document with keys given twice or not: it is gone, and what was there before stays -/
theorem doc_del_any (J0 : JG sg E.eqv oth X0 H0) (k : Core sg E.eqv oth X0 X H idx n l r) {j : Nat} (hj : j ∈ X.x.s.D)
    (o : Own sg X0 X [] (dyn sg j) d) {fuel : Nat} (hf : X0.x.s.D.length + l ≤ fuel) :
    ∃ H', jsonDel fuel H (some j) = .ok (some H') ∧ Kept sg H0 H' ∧ (sg j = false → H'.m.h.live j = false) ∧
      ∃ X' L, JG sg E.eqv oth X' H' ∧ X'.x.s.D = X0.x.s.D ++ L ∧ L.length ≤ l := by
  obtain ⟨A, G, -⟩ := k.J.mem
  obtain ⟨A0, G0, -⟩ := J0.mem
  obtain ⟨L, hL, hl⟩ := k.old.dom
  by_cases hs : sg j = true
  · refine ⟨H, ?_, kept J0 k.J k.old, (fun h => by rw [hs] at h; cases h), X, L, k.J, hL, hl⟩
    rw [jsonDel, delWith, if_pos ((k.J.live j).2 hj), k.J.single]
    cases fuel <;> simp only [traceS, hs, if_true] <;> rfl
  · have hs : sg j = false := by simpa using hs
    have hdyn : dyn sg j = [j] := by simp [dyn, hs]
    rw [hdyn] at o
    obtain ⟨-, hj0, hjr, -⟩ := o.roots j (by simp)
    have rk : ∀ b, ∀ y ∈ X.x.s.D, Pts X.x.s.kids y b → (Policy.rc, some b) ∈ X.x.s.kids y := by
      rintro b y hy ⟨pol, -, hm⟩
      obtain ⟨v, hv⟩ := k.J.typed.edges G hy hm
      cases hv
      exact hm
    obtain ⟨c, e, J'⟩ := (drop_ok k.J hj hs (fuel := fuel) (by rw [hL]; simp; omega)).2 hjr
    have he : X.x.s.ext j = 0 := by
      rw [k.old.ext]
      rcases Nat.eq_zero_or_pos (X0.x.s.ext j) with h | h
      · exact h
      · exact absurd (G0.rel.ext j h) hj0
    have hext : upd X.x.s.ext j (X.x.s.ext j - 1) = X.x.s.ext := by
      funext y
      by_cases hy : y = j
      · subst hy; simp [upd, he]
      · simp [upd, hy]
    have old : ∀ b, Unref X.x.s.kids X.x.s.D X.x.s.ext j b → b ∉ X0.x.s.D := by
      intro b hu
      induction hu with
      | intro x hx he hs hp ih =>
        intro hx0
        rcases hs with rfl | ⟨y, hy, hyp⟩
        · exact hj0 hx0
        · rcases k.old.edges y hy (ih y hy hyp) x (rk x y hy hyp) with h | h
          · have := (k.J.typed.static x h).1
            omega
          · exact h hx0
    have self : Unref X.x.s.kids X.x.s.D X.x.s.ext j j := by
      refine .intro j hj he (.inl rfl) fun y hy hp => ?_
      have := refs_pos hy (rk j y hy hp)
      rw [Spec.rc] at hjr
      omega
    have hD : ∃ L', (stepDrop X j).x.s.D = X0.x.s.D ++ L' ∧ L'.Sublist L := by
      classical
      refine ⟨L.filter (fun x => ¬ Unref X.x.s.kids X.x.s.D X.x.s.ext j x), ?_, List.filter_sublist⟩
      simp only [stepDrop, Spec.drop, hext]
      have h1 : X0.x.s.D.filter (fun x => ¬ Unref X.x.s.kids X.x.s.D X.x.s.ext j x) = X0.x.s.D := by
        refine List.filter_eq_self.2 fun a ha => ?_
        simp only [decide_eq_true_eq]
        exact fun h => old a h ha
      conv_lhs => rw [hL]
      rw [List.filter_append, ← hL, h1]
    obtain ⟨L', hL', hsub⟩ := hD
    have rcle : ∀ y, (stepDrop X j).x.s.rc y ≤ X.x.s.rc y := by
      intro y
      rw [Spec.rc, Spec.rc, hL', hL]
      simp only [stepDrop, Spec.drop, hext]
      have := refs_sublist X.x.s.kids .rc y (List.Sublist.append (List.Sublist.refl X0.x.s.D) hsub)
      omega
    refine ⟨H.on c, by simp only [jsonDel, k.J.single, e, Res.map_ok', Option.map_some], ?_, fun _ => ?_, _, L', J', hL',
      Nat.le_trans hsub.length_le hl⟩
    · refine kept (l := l) (r := r) J0 J' ⟨⟨L', hL', Nat.le_trans hsub.length_le hl⟩, ?_, k.old.kids, k.old.maps, k.old.kind, ?_, ?_,
        k.old.static, ?_⟩
      · exact hext.trans k.old.ext
      · intro y hy hn b hb
        refine k.old.edges y ?_ hn b hb
        rw [hL'] at hy
        rw [hL]
        exact List.mem_append.2 ((List.mem_append.1 hy).imp id (hsub.subset ·))
      · intro s hs
        exact Nat.le_trans (rcle s) (k.old.rcs s hs)
      · intro y hy
        exact Nat.le_trans (rcle y) (k.old.few y hy)
    · cases h : (H.on c).m.h.live j with
      | false => rfl
      | true =>
        have := (J'.live j).1 h
        simp only [stepDrop, Spec.drop, hext, List.mem_filter, decide_eq_true_eq] at this
        exact absurd self this.2

/-- **C135**: reading and deleting a document from any source of tokens, with keys given twice or not.  The root is freed unless it is
one of the static blocks for `true`, `false` and `null`, what was in memory before is unchanged, and at most `2 + 4 * N` blocks are left
beside; none at all if no key was given twice. -/
theorem C135_delete {σ : Type} {next : σ → Res (Tok × σ)} {fuel N : Nat} {forceEof : Bool} (al : AlOk E) (st : Statics E sg)
    (J0 : JG sg E.eqv oth X0 H) (x : Syn) {t t' : σ} (hok : Lits next t)
    (hy : Verif.Json.Yields next t x.toks t') (hd : x.depth ≤ 511) (he : forceEof = true → ∃ t'', next t' = .ok (.eof, t''))
    (hN : x.toks.length ≤ N) (hf : X0.x.s.D.length + (2 + 4 * N) ≤ fuel) :
    ∃ j s' H' new, memParse E fuel next N forceEof H t = .ok (some (some (some j), s')) ∧ Parsed sg E oth H s'.H j x.val ∧
      jsonDel fuel s'.H (some j) = .ok (some H') ∧ Kept sg H H' ∧ (sg j = false → H'.m.h.live j = false) ∧
      (∀ y, H'.m.h.live y = true ↔ H.m.h.live y = true ∨ y ∈ new) ∧ new.length ≤ 2 + 4 * N ∧ (distinct x → new = []) ∧
      ∃ X, JG sg E.eqv oth X H' := by
  obtain ⟨j, s', X, idx, l, r, e, k, hl, hj, -, hh, d, o, hd⟩ := parse_core_any al st J0 x hok hy hd he hN hf
  obtain ⟨H', h1, h2, h3, X', L, J', hD, hL⟩ := doc_del_any J0 k hj o (fuel := fuel) (by omega)
  refine ⟨j, s', H', L, e, ⟨reads_of k.J x.val j hj hh, kept J0 k.J k.old, X, k.J⟩, h1, h2, h3,
    fun y => by rw [J'.live, J0.live, hD, List.mem_append], by omega, fun hdist => ?_, X', J'⟩
  obtain ⟨H3, h7, h8, -⟩ := doc_del J0 k hj (hd hdist ▸ o) (fuel := fuel) (by omega)
  rw [h1] at h7
  cases h7
  cases L with
  | nil => rfl
  | cons a L =>
    have h : H.m.h.live a = true := by rw [← h8]; exact (J'.live a).2 (by rw [hD]; simp)
    have hn := J'.nodup
    rw [hD] at hn
    exact absurd rfl ((List.nodup_append.1 hn).2.2 a ((J0.live a).1 h) a (by simp))

end
end ParseProps

namespace RoundProps
open Verif.Rc.Props Verif.Rc.MapProps Verif.Rc.JsonProps Verif.Rc.ParseProps
open Verif.Rc.PrintProps (Over Sane AlFree Adds shows over_refl)

/-- `text` is the text of `x`, which is nested at most 511 deep -/
def Reads [Libc] (text : List Byte) (x : Syn) : Prop := Spells text x.toks ∧ x.depth ≤ 511

/-- a text without NUL that is not too long, and, if it is a document that the parser accepts, not nested too deep for the printer -/
structure Servable [Libc] (N : Nat) (text : List Byte) : Prop where
  nul : 0 ∉ text
  short : text.length + 1 < 2 ^ 31
  bound : text.length + 1 ≤ N
  prints : ∀ x, Reads text x → x.depth ≤ 498

/-- the response that is right: the compact text of the value, or none if the text is no document -/
def Answers [Libc] (text : List Byte) : Option (List (Option Byte)) → Prop
  | some b => ∃ x, Reads text x ∧ b = (compact x.val).map some
  | none => ¬ ∃ x, Reads text x

/-- a text that is no document or one with a key given twice -/
def Wasteful [Libc] (text : List Byte) : Prop := ¬ ∃ x, Reads text x ∧ distinct x

section
variable [Libc] {sg oth : Nat → Bool} {E : PEnv} {X0 : JS} {H : JHeap} {fuel n N : Nat}

/-- **C135**: what a text says is unique, so that the response is -/
theorem C135_unique {text : List Byte} (hl : text.length < 2 ^ 31) {b b' : List (Option Byte)} (h : Answers text (some b))
    (h' : Answers text (some b')) : b = b' := by
  obtain ⟨x, hx, rfl⟩ := h
  obtain ⟨y, hy, rfl⟩ := h'
  obtain ⟨_, h1, -⟩ := text_source hx.1 hl []
  obtain ⟨_, h2, -⟩ := text_source hy.1 hl []
  suffices h : x.val = y.val by rw [h]
  rcases yields_prefix h1 h2 with ⟨r, h⟩ | ⟨r, h⟩
  · exact (Verif.Json.uniq x y r [] (by rw [h, List.append_nil])).1
  · exact (Verif.Json.uniq y x r [] (by rw [h, List.append_nil])).1.symm

/-- what there is after some texts -/
structure After (sg : Nat → Bool) (H H' : JHeap) (new dead : List Nat) : Prop where
  kept : Kept sg H H'
  nodup : new.Nodup
  fresh : ∀ y ∈ new, H.m.h.live y = false
  live : ∀ y, H'.m.h.live y = true ↔ H.m.h.live y = true ∨ y ∈ new
  deadNodup : dead.Nodup
  unreferenced : ∀ y ∈ dead, y ∈ new ∧ H'.m.h.deg y = 0

theorem after_trans {H1 H2 : JHeap} {n1 n2 d1 d2 : List Nat} (a : After sg H H1 n1 d1) (b : After sg H1 H2 n2 d2)
    (hs : ∀ y, sg y = true → H.m.h.live y = true) : After sg H H2 (n1 ++ n2) (d1 ++ d2) := by
  have sep : ∀ y ∈ n1, y ∉ n2 := fun y h1 h2 => by
    have := b.fresh y h2
    rw [(a.live y).2 (.inr h1)] at this; cases this
  refine ⟨kept_trans a.kept b.kept, List.nodup_append.2 ⟨a.nodup, b.nodup, fun y hy z hz hyz => sep y hy (hyz ▸ hz)⟩, fun y hy => ?_,
    fun y => by rw [b.live, a.live, List.mem_append, or_assoc],
    List.nodup_append.2 ⟨a.deadNodup, b.deadNodup, fun y hy z hz hyz => sep y (a.unreferenced y hy).1 (hyz ▸ (b.unreferenced z hz).1)⟩,
    fun y hy => ?_⟩
  · rcases List.mem_append.1 hy with hy | hy
    · exact a.fresh y hy
    · have := b.fresh y hy
      cases hy' : H.m.h.live y with
      | false => rfl
      | true => rw [(a.live y).2 (.inl hy')] at this; cases this
  · rcases List.mem_append.1 hy with hy | hy
    · obtain ⟨h1, h2⟩ := a.unreferenced y hy
      have hsy : sg y = false := by
        cases h : sg y with
        | false => rfl
        | true => have := a.fresh y h1; rw [hs y h] at this; cases this
      exact ⟨List.mem_append_left _ h1, (b.kept.deg y ((a.live y).2 (.inr h1)) hsy).trans h2⟩
    · exact ⟨List.mem_append_right _ (b.unreferenced y hy).1, (b.unreferenced y hy).2⟩

/-- one text of a document, with keys given twice or not -/
theorem request_any (al : AlOk E) (st : Statics E sg) (J0 : JG sg E.eqv oth X0 H) (c : Consts E H) {text : List Byte} {x : Syn}
    (hr : Servable N text) (hx : Reads text x) (hn : N ≤ n) (hf : X0.x.s.D.length + (2 + 4 * N) ≤ fuel) :
    ∃ H3 X3 L, JG sg E.eqv oth X3 H3 ∧ X3.x.s.D = X0.x.s.D ++ L ∧ L.length ≤ 2 + 4 * N ∧ (distinct x → L = []) ∧ Kept sg H H3 ∧
      ∀ texts, serve E fuel n N H (text :: texts) =
        bindO (serve E fuel n N H3 texts) fun (H4, rs) => .ok (some (H4, some ((compact x.val).map some) :: rs)) := by
  have hshort : text.length < 2 ^ 31 := by have := hr.short; omega
  have hh : x.val.height < 500 := by
    have := hr.prints x hx
    have := Verif.Json.height_le_depth x
    omega
  have hlen := Verif.Json.spells_length hx.1
  have hst : nsteps x.val ≤ n := by
    have := Verif.Json.nsteps_le_toks x
    have := hr.bound
    omega
  obtain ⟨t', hy, he⟩ := text_source hx.1 hshort []
  obtain ⟨j, s', X, idx, l, r, e, k, hl, hj, hjn, hh', d, o, hd⟩ := parse_core_any (forceEof := true) al st J0 x (lits_text _) hy hx.2
    (fun _ => he) (by have := hr.bound; omega) hf
  have sn := sane_of k.J
  have hsh := shows_of k (consts_kept J0 st c k) x.val j hj hjn hh'
  obtain ⟨H1, p, b, T, h1, h2, h3, h4⟩ := Verif.Rc.PrintProps.asprint_over (free_of al) sn (fuel := fuel) (by omega) hsh hh
    (Verif.Json.Props.C33_compact _ hh (read_short hx.1 hshort) n hst) s'.n
  rw [no_blobs x.val j hh'] at h4
  obtain rfl : T = [] := List.length_eq_zero_iff.1 h4
  obtain ⟨H2, h5, h6⟩ := h3.delRaw sn (fuel := fuel) (by omega)
  obtain ⟨k', own⟩ := same_core k h6
  have hb : b.take (compact x.val).length = (compact x.val).map some := by
    have := congrArg (List.take (compact x.val).length) h2
    rw [List.take_take, Nat.min_eq_left (by omega)] at this
    rw [this]; simp
  obtain ⟨H3, h7, h9, -, X3, L, J3, hD, hL⟩ := doc_del_any J0 k' hj (own o) (fuel := fuel) (by omega)
  refine ⟨H3, X3, L, J3, hD, by omega, fun hdist => ?_, h9, fun texts => ?_⟩
  · obtain ⟨H3', h7', h8, -⟩ := doc_del J0 k' hj (own (hd hdist ▸ o)) (fuel := fuel) (by omega)
    rw [h7] at h7'
    cases h7'
    cases L with
    | nil => rfl
    | cons a L =>
      have h : H.m.h.live a = true := by rw [← h8]; exact (J3.live a).2 (by rw [hD]; simp)
      have hn := J3.nodup
      rw [hD] at hn
      exact absurd rfl ((List.nodup_append.1 hn).2.2 a ((J0.live a).1 h) a (by simp))
  · rw [serve, e]
    simp only [bindO, Res.bind_ok, h1, h5, h7, hb]

/-- one text -/
theorem serve_one (al : AlOk E) (st : Statics E sg) (J0 : JG sg E.eqv oth X0 H) (c : Consts E H) {text : List Byte} (hr : Servable N text)
    (hn : N ≤ n) (hf : X0.x.s.D.length + (2 + 4 * N) ≤ fuel) :
    ∃ H3 X3 new dead r, JG sg E.eqv oth X3 H3 ∧ X3.x.s.D.length = X0.x.s.D.length + new.length ∧ After sg H H3 new dead ∧
      Answers text r ∧ new.length ≤ 3 + 4 * N ∧ (¬ Wasteful text → new = []) ∧ dead.length = (if r = none then 1 else 0) ∧
      ∀ texts, serve E fuel n N H (text :: texts) =
        bindO (serve E fuel n N H3 texts) fun (H4, rs) => .ok (some (H4, r :: rs)) := by
  by_cases hx : ∃ x, Reads text x
  · by_cases hxd : ∃ x, Reads text x ∧ distinct x
    · obtain ⟨x, hx, hxd⟩ := hxd
      obtain ⟨H3, X3, L, J3, hD, hL, hnil, hk, e⟩ := request_any al st J0 c hr hx hn hf
      cases hnil hxd
      rw [List.append_nil] at hD
      exact ⟨H3, X3, [], [], some ((compact x.val).map some), J3, by simp [hD],
        ⟨hk, List.nodup_nil, by simp, fun y => by rw [J3.live, J0.live, hD]; simp, List.nodup_nil, by simp⟩, ⟨x, hx, rfl⟩, by simp,
        fun _ => rfl, rfl, e⟩
    · obtain ⟨x, hx⟩ := hx
      obtain ⟨H3, X3, L, J3, hD, hL, -, hk, e⟩ := request_any al st J0 c hr hx hn hf
      have hn := J3.nodup
      rw [hD] at hn
      obtain ⟨-, hn, hne⟩ := List.nodup_append.1 hn
      refine ⟨H3, X3, L, [], some ((compact x.val).map some), J3, by simp [hD],
        ⟨hk, hn, fun y hy => ?_, fun y => by rw [J3.live, J0.live, hD, List.mem_append], List.nodup_nil, by simp⟩, ⟨x, hx, rfl⟩,
        by omega, fun h => absurd hxd h, rfl, e⟩
      cases h : H.m.h.live y with
      | false => rfl
      | true => exact absurd rfl (hne y ((J0.live y).1 h) y hy)
  · obtain ⟨s, e, hk, ⟨X3, J3⟩, new1, n1, n2, n3, n4, u, n5, n6⟩ := C106_text_rejects (fuel := fuel) al st J0 text [] hr.nul
      (by have := hr.short; simpa using this) hx (by have := hr.bound; simpa using this) (by omega)
    have ne : ∀ y, H.m.h.live y = true → y ∉ new1 := fun y hy h => by rw [n2 y h] at hy; cases hy
    have hD : X3.x.s.D.length = X0.x.s.D.length + new1.length := by
      have : X3.x.s.D.Perm (X0.x.s.D ++ new1) := (List.perm_ext_iff_of_nodup J3.nodup (List.nodup_append.2
        ⟨J0.nodup, n1, fun y hy z hz hyz => ne y ((J0.live y).2 hy) (hyz ▸ hz)⟩)).2 fun y => by
          rw [← J3.live, n3, J0.live, List.mem_append]
      simpa using this.length_eq
    refine ⟨s.H, X3, new1, [u], none, J3, hD, ⟨hk, n1, n2, n3, by simp, ?_⟩, hx, n4, ?_, rfl, fun texts => ?_⟩
    · intro y hy
      rw [List.mem_singleton.1 hy]
      exact ⟨n5, n6⟩
    · exact fun h => absurd (fun ⟨x, h1, _⟩ => hx ⟨x, h1⟩) h
    · rw [serve, e]
      rfl

open Classical in
/-- **C135**.  Let any texts come, in any order, that have no NUL, are not too long and are not documents that are nested 499 to 511
deep.  Then each one that is a document gets the compact text of its value, and the others get no response; what was in memory at the start is
there at the end, unchanged, and nothing undefined happens.  The blocks that are in memory beside (`new`) come from texts that are no
documents or have a key twice, at most `3 + 4 * N` from each, and one at least (`dead`), to which nothing refers, from each text that
is no document. -/
theorem C135_serve (al : AlOk E) (st : Statics E sg) (J0 : JG sg E.eqv oth X0 H) (c : Consts E H) (texts : List (List Byte))
    (hr : ∀ t ∈ texts, Servable N t) (hn : N ≤ n) (hf : X0.x.s.D.length + texts.length * (3 + 4 * N) + (2 + 4 * N) ≤ fuel) :
    ∃ H' rs new dead, serve E fuel n N H texts = .ok (some (H', rs)) ∧ List.Forall₂ Answers texts rs ∧ After sg H H' new dead ∧
      new.length ≤ (texts.countP fun t => Wasteful t) * (3 + 4 * N) ∧ dead.length = rs.count none ∧ ∃ X, JG sg E.eqv oth X H' := by
  induction texts generalizing X0 H with
  | nil =>
    exact ⟨H, [], [], [], rfl, .nil, ⟨kept_refl, List.nodup_nil, by simp, by simp, List.nodup_nil, by simp⟩, by simp, rfl, X0, J0⟩
  | cons text texts ih =>
    rw [List.length_cons, Nat.succ_mul] at hf
    obtain ⟨H3, X3, n1, d1, r, J3, hD, a1, h1, h2, h3, h4, e⟩ := serve_one (fuel := fuel) al st J0 c (hr text (by simp)) hn (by omega)
    have key : ∀ z, sg z = true → H3.tag z = H.tag z := fun z hz => a1.kept.tag z ((J0.live z).2 (J0.staticIn hz))
    obtain ⟨H', rs, n2, d2, e', f, a2, h5, h6, g⟩ := ih J3
      ⟨by rw [key _ st.yes]; exact c.yes, by rw [key _ st.no]; exact c.no, by rw [key _ st.null]; exact c.null, c.ne⟩
      (fun t ht => hr t (List.mem_cons_of_mem _ ht)) (by omega)
    refine ⟨H', r :: rs, n1 ++ n2, d1 ++ d2, ?_, .cons h1 f, after_trans a1 a2 fun y hy => (J0.live y).2 (J0.staticIn hy), ?_, ?_, g⟩
    · rw [e, e']
      simp only [bindO, Res.bind_ok]
    · rw [List.length_append]
      by_cases hw : Wasteful text
      · rw [List.countP_cons_of_pos (by simpa using hw), Nat.succ_mul]
        omega
      · rw [List.countP_cons_of_neg (by simpa using hw), h3 hw]
        simpa using h5
    · rw [List.length_append, h4, h6, List.count_cons]
      cases r <;> simp [Nat.add_comm]

/-- any text without NUL of at most 499 bytes can be served -/
theorem servable_short {text : List Byte} (h0 : 0 ∉ text) (hl : text.length ≤ 499) (hN : text.length + 1 ≤ N) : Servable N text :=
  ⟨h0, by omega, hN, fun x hx => by
    have := Verif.Json.depth_lt_toks x
    have := Verif.Json.spells_length hx.1
    omega⟩

end

/-! ## examples -/

/-- the hypotheses of `C135_serve` are met by any texts without NUL of at most 20 bytes -/
example [Libc] (texts : List (List Byte)) (h : ∀ t ∈ texts, 0 ∉ t ∧ t.length ≤ 20) : ∃ H' rs new dead,
    serve envD (100 + texts.length * 87) 21 21 stD texts = .ok (some (H', rs)) ∧ List.Forall₂ Answers texts rs ∧ After sgD stD H' new dead ∧
      dead.length = rs.count none := by
  obtain ⟨H', rs, new, dead, h1, h2, h3, -, h5, -⟩ := C135_serve (N := 21) (n := 21) (fuel := 100 + texts.length * 87) alD_ok statics_envD stD_good
    consts_stD texts (fun t ht => servable_short (h t ht).1 (by have := (h t ht).2; omega) (by have := (h t ht).2; omega)) (Nat.le_refl _)
    (by simp [specJ]; omega)
  exact ⟨H', rs, new, dead, h1, h2, h3, h5⟩

/-- the hypotheses of `C135_delete` are met by the tokens of a document with a key given twice -/
example : ∃ (j : Nat) (s' : MSt) (H' : JHeap) (new : List Nat), memParse envD 100 Verif.Json.listNext 9 true stD
      [.lc, .str [97], .colon, .str [], .comma, .str [97], .colon, .str [], .rc] = .ok (some (some (some j), s')) ∧
    Parsed sgD envD (fun _ => false) stD s'.H j (.obj [([97], .atom (.str []))]) ∧ jsonDel 100 s'.H (some j) = .ok (some H') ∧ Kept sgD stD H' ∧
    (∀ y, H'.m.h.live y = true ↔ stD.m.h.live y = true ∨ y ∈ new) ∧ new.length ≤ 38 := by
  obtain ⟨j, s', H', new, h1, h2, h3, h4, -, h6, h7, -⟩ := C135_delete (next := Verif.Json.listNext) (fuel := 100) (N := 9) (forceEof := true)
    alD_ok statics_envD stD_good (.obj [([97], .str []), ([97], .str [])] false)
    (t := [.lc, .str [97], .colon, .str [], .comma, .str [97], .colon, .str [], .rc]) (t' := []) (lits_list (by simp [TokOk]))
    (yields_list [.lc, .str [97], .colon, .str [], .comma, .str [97], .colon, .str [], .rc] []) (by decide) (fun _ => ⟨[], rfl⟩) (by decide)
    (by simp [specJ])
  exact ⟨j, s', H', new, h1, h2, h3, h4, h6, h7⟩

/-- among them a text with a key given twice, `{"a":"","a":[]}` -/
example [Libc] : ∃ x, Reads [123, 34, 97, 34, 58, 34, 34, 44, 34, 97, 34, 58, 91, 93, 125] x ∧ ¬ distinct x ∧
    compact x.val = [123, 34, 97, 34, 58, 91, 93, 125] := by
  have hs : Verif.Json.Lexeme [34, 97, 34] (.str [97]) := .str (s := [97]) (.raw (by decide) (by decide) (by decide) .nil)
    (Or.inl ⟨by decide, by decide, rfl⟩)
  have he : Verif.Json.Lexeme [34, 34] (.str []) := .str (s := []) .nil (Or.inl ⟨by decide, by decide, rfl⟩)
  refine ⟨.obj [([97], .str []), ([97], .arr [] false)] false, ⟨?_, by decide⟩, ?_, by rfl⟩
  · exact .tok .lc (.tok (w := [34, 97, 34]) hs (.tok .colon (.tok (w := [34, 34]) he (.tok .comma (.tok (w := [34, 97, 34]) hs
      (.tok .colon (.tok .lb (.tok .rb (.tok .rc .nil)))))))))
  · simp [distinct]

/-- the hypotheses of `C135_unique` are met by `[]` -/
example [Libc] {b : List (Option Byte)} (h : Answers [91, 93] (some b)) : b = ([91, 93] : List Byte).map some :=
  C135_unique (by decide) h ⟨.arr [] false, ⟨.tok .lb (.tok .rb .nil), by decide⟩, by rfl⟩

end RoundProps
end Verif.Rc
