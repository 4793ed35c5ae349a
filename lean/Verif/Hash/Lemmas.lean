import Verif.Hash.Model
import Mathlib.Data.Fintype.EquivFin
import Mathlib.Data.Nat.ModEq

/-! # Lemmas about triangular probing and the table invariant -/

namespace Verif.Hash

/-- triangular numbers -/
def T : Nat → Nat
  | 0 => 0
  | n + 1 => T n + (n + 1)

theorem two_T (n : Nat) : 2 * T n = n * (n + 1) := by
  induction n with
  | zero => rfl
  | succ n ih =>
    simp only [T]
    rw [Nat.mul_add, ih]
    simp only [Nat.add_mul, Nat.mul_add]
    omega

/-- slot visited by the `n`-th probe in a table of `2^k` slots -/
def pos (h k n : Nat) : Nat := (h + T n) % 2 ^ k

theorem pos_lt (h k n : Nat) : pos h k n < 2 ^ k := Nat.mod_lt _ (Nat.two_pow_pos k)

/-- a product divisible by `2^k` with an odd factor -/
theorem dvd_of_odd_mul {k a b : Nat} (h : 2 ^ k ∣ a * b) (hb : b % 2 = 1) : 2 ^ k ∣ a := by
  have : Nat.Coprime (2 ^ k) b := by
    apply Nat.Coprime.pow_left
    rw [Nat.coprime_comm]
    unfold Nat.Coprime
    rw [Nat.gcd_comm]
    rw [Nat.gcd_rec, hb]
    exact Nat.gcd_one_left 2
  exact this.dvd_of_dvd_mul_right h

theorem pos_inj {h k a b : Nat} (hb : b < 2 ^ k) (hab : a < b) : pos h k a ≠ pos h k b := by
  intro he
  unfold pos at he
  have h1 : 2 ^ k ∣ T b - T a := by
    have hle : T a ≤ T b := by
      have := two_T a; have := two_T b
      have : a * (a + 1) ≤ b * (b + 1) := Nat.mul_le_mul (by omega) (by omega)
      omega
    have := (Nat.modEq_iff_dvd' (Nat.add_le_add_left hle h)).1 he
    rwa [Nat.add_sub_add_left] at this
  have h2 : 2 ^ (k + 1) ∣ (b - a) * (a + b + 1) := by
    have : (b - a) * (a + b + 1) = 2 * (T b - T a) := by
      rw [Nat.mul_sub, two_T, two_T]
      obtain ⟨d, rfl⟩ : ∃ d, b = a + d := ⟨b - a, by omega⟩
      rw [Nat.add_sub_cancel_left]
      have : (a + d) * (a + d + 1) = a * (a + 1) + d * (a + (a + d) + 1) := by
        simp only [Nat.add_mul, Nat.mul_add]; rw [Nat.mul_comm d a]; omega
      rw [this]; omega
    rw [this, Nat.pow_succ, Nat.mul_comm (2 ^ k) 2]
    exact Nat.mul_dvd_mul_left 2 h1
  have hp : 2 ^ (k + 1) = 2 * 2 ^ k := by rw [Nat.pow_succ]; omega
  by_cases hpar : (a + b + 1) % 2 = 1
  · have := Nat.le_of_dvd (by omega) (dvd_of_odd_mul h2 hpar)
    omega
  · have hpar' : (b - a) % 2 = 1 := by omega
    rw [Nat.mul_comm] at h2
    have := Nat.le_of_dvd (by omega) (dvd_of_odd_mul h2 hpar')
    omega

/-- the probe sequence visits every slot within the first `2^k` probes -/
theorem pos_surj (h k p : Nat) (hp : p < 2 ^ k) : ∃ n, n < 2 ^ k ∧ pos h k n = p := by
  have hinj : Function.Injective (fun n : Fin (2 ^ k) => (⟨pos h k n, pos_lt h k n⟩ : Fin (2 ^ k))) := by
    intro a b hab
    simp only [Fin.mk.injEq] at hab
    rcases Nat.lt_trichotomy a.1 b.1 with h1 | h1 | h1
    · exact absurd hab (pos_inj b.2 h1)
    · exact Fin.ext h1
    · exact absurd hab.symm (pos_inj a.2 h1)
  obtain ⟨n, hn⟩ := (Finite.injective_iff_surjective.1 hinj) ⟨p, hp⟩
  exact ⟨n.1, n.2, by simpa using hn⟩

variable {V : Type}

theorem probe_from (stop : Entry V → Bool) (es : List (Entry V)) {k : Nat} (hk : k ≤ 63) (h d s i : Nat)
    (fuel : Nat) (hi : i % 2 ^ k = (h + T s) % 2 ^ k) (hsd : s + d < 2 ^ k) (hf : d < fuel)
    (hno : ∀ m, m < d → ∃ e, es[pos h k (s + m)]? = some e ∧ stop e = false)
    (hyes : ∃ e, es[pos h k (s + d)]? = some e ∧ stop e = true) :
    probe stop es (2 ^ k - 1) fuel i (s + 1) = .ok (pos h k (s + d)) := by
  induction d generalizing s i fuel with
  | zero =>
    obtain ⟨e, he, hs⟩ := hyes
    cases fuel with
    | zero => omega
    | succ fuel =>
      unfold probe
      rw [Nat.and_two_pow_sub_one_eq_mod, hi]
      simp only [Nat.add_zero, pos] at he ⊢
      rw [he]
      simp [hs]
  | succ d ih =>
    cases fuel with
    | zero => omega
    | succ fuel =>
      obtain ⟨e, he, hs⟩ := hno 0 (by omega)
      unfold probe
      rw [Nat.and_two_pow_sub_one_eq_mod, hi]
      simp only [Nat.add_zero, pos] at he
      rw [he]
      simp only [hs, Bool.false_eq_true, if_false]
      have hk2 : 2 ^ k ≤ 2 ^ 63 := Nat.pow_le_pow_right (by omega) hk
      rw [add64_small (x := s + 1) (by omega)]
      have e1 : s + (d + 1) = (s + 1) + d := by omega
      rw [e1]
      apply ih
      · rw [add64_mod_two_pow _ _ (by omega)]
        rw [Nat.add_mod, hi, ← Nat.add_mod]
        simp only [T]
        rw [Nat.add_assoc]
      · omega
      · omega
      · intro m hm
        have := hno (m + 1) (by omega)
        have e2 : s + 1 + m = s + (m + 1) := by omega
        rw [e2]; exact this
      · rw [← e1]; exact hyes

theorem probe_spec (stop : Entry V → Bool) (es : List (Entry V)) {k : Nat} (hk : k ≤ 63) (h n : Nat)
    (hn : n < 2 ^ k)
    (hno : ∀ m, m < n → ∃ e, es[pos h k m]? = some e ∧ stop e = false)
    (hyes : ∃ e, es[pos h k n]? = some e ∧ stop e = true) :
    probe stop es (2 ^ k - 1) (2 ^ k - 1 + 1) h 1 = .ok (pos h k n) := by
  have := probe_from stop es hk h n 0 h (2 ^ k - 1 + 1) (by simp [T]) (by omega) (by omega)
    (by simpa using hno) (by simpa using hyes)
  simpa using this

/-! ## The table invariant -/

structure Inv (k : Nat) (es : List (Entry V)) (A : List (Key × V)) : Prop where
  len : es.length = 2 ^ k
  perm : (es.filterMap id).Perm A
  nodup : (A.map (·.1)).Nodup
  reach : ∀ p key v, es[p]? = some (some (key, v)) → ∃ n, n < 2 ^ k ∧ pos (keyhash key) k n = p ∧
    ∀ m, m < n → ∃ k' v', es[pos (keyhash key) k m]? = some (some (k', v')) ∧ k' ≠ key

theorem Inv_empty (k : Nat) : Inv k (List.replicate (2 ^ k) (none : Entry V)) [] := by
  refine ⟨by simp, ?_, by simp, ?_⟩
  · rw [List.filterMap_replicate_of_none (by simp)]
  · intro p key v h
    have := List.mem_of_getElem? h
    simp at this

theorem filterMap_length_lt {es : List (Entry V)} (h : (es.filterMap id).length < es.length) :
    ∃ p : Nat, es[p]? = some none := by
  induction es with
  | nil => simp at h
  | cons e es ih =>
    cases e with
    | none => exact ⟨0, rfl⟩
    | some kv =>
      obtain ⟨p, hp⟩ := ih (by simpa using h)
      exact ⟨p + 1, by simpa using hp⟩

theorem filterMap_set {es : List (Entry V)} {p : Nat} (h : es[p]? = some none) (kv : Key × V) :
    ((es.set p (some kv)).filterMap id).Perm (kv :: es.filterMap id) := by
  induction es generalizing p with
  | nil => simp at h
  | cons e es ih =>
    cases p with
    | zero =>
      simp at h
      subst h
      simp
    | succ p =>
      have := ih (p := p) (by simpa using h)
      cases e with
      | none => simpa using this
      | some x =>
        simp only [List.set_cons_succ]
        exact (List.Perm.cons x this).trans (List.Perm.swap ..)

theorem Inv.exists_empty {k : Nat} {es : List (Entry V)} {A : List (Key × V)} (I : Inv k es A)
    (hA : A.length < 2 ^ k) : ∃ p : Nat, es[p]? = some none :=
  filterMap_length_lt (by rw [I.perm.length_eq, I.len]; exact hA)

theorem Inv.mem_iff {k : Nat} {es : List (Entry V)} {A : List (Key × V)} (I : Inv k es A)
    (kv : Key × V) : kv ∈ A ↔ ∃ p : Nat, es[p]? = some (some kv) := by
  rw [← I.perm.mem_iff, List.mem_filterMap]
  constructor
  · rintro ⟨e, he, rfl⟩
    obtain ⟨p, hp⟩ := List.getElem?_of_mem he
    exact ⟨p, hp⟩
  · rintro ⟨p, hp⟩
    exact ⟨some kv, List.mem_of_getElem? hp, rfl⟩

/-- first empty slot of the probe sequence of any hash value -/
theorem Inv.first_empty {k : Nat} {es : List (Entry V)} {A : List (Key × V)} (I : Inv k es A)
    (hA : A.length < 2 ^ k) (h : Nat) :
    ∃ n, n < 2 ^ k ∧ es[pos h k n]? = some none ∧
      ∀ m, m < n → ∃ kv, es[pos h k m]? = some (some kv) ∧ kv ∈ A := by
  obtain ⟨p, hp⟩ := I.exists_empty hA
  have hpl : p < 2 ^ k := by
    rw [← I.len]
    exact (List.getElem?_eq_some_iff.1 hp).1
  obtain ⟨n0, hn0, hpos⟩ := pos_surj h k p hpl
  have key : ∀ n, es[pos h k n]? = some none → ∃ n1, n1 ≤ n ∧ es[pos h k n1]? = some none ∧
      ∀ m, m < n1 → ∃ kv, es[pos h k m]? = some (some kv) := by
    intro n
    induction n using Nat.strongRecOn with
    | ind n ih =>
      intro hn
      by_cases hex : ∃ m, m < n ∧ es[pos h k m]? = some none
      · obtain ⟨m, hm, he⟩ := hex
        obtain ⟨n1, h1, h2⟩ := ih m hm he
        exact ⟨n1, by omega, h2⟩
      · refine ⟨n, Nat.le_refl _, hn, fun m hm => ?_⟩
        have hl : pos h k m < es.length := by rw [I.len]; exact pos_lt ..
        cases hv : es[pos h k m] with
        | none => exact absurd ⟨m, hm, by rw [List.getElem?_eq_getElem hl, hv]⟩ hex
        | some kv => exact ⟨kv, by rw [List.getElem?_eq_getElem hl, hv]⟩
  obtain ⟨n, hn, he, hocc⟩ := key n0 (by rw [hpos]; exact hp)
  refine ⟨n, by omega, he, fun m hm => ?_⟩
  obtain ⟨kv, hkv⟩ := hocc m hm
  exact ⟨kv, hkv, (I.mem_iff kv).2 ⟨_, hkv⟩⟩

/-- outcome of `lookup` for a present key -/
theorem lookup_present {k : Nat} {es : List (Entry V)} {A : List (Key × V)} (I : Inv k es A)
    (hk : k ≤ 63) {key : Key} {v : V} (hm : (key, v) ∈ A) (u : Nat) :
    ∃ p, lookup ⟨es, 2 ^ k - 1, u⟩ key (keyhash key) = .ok p ∧ es[p]? = some (some (key, v)) := by
  obtain ⟨p, hp⟩ := (I.mem_iff _).1 hm
  obtain ⟨n, hn, hpos, hno⟩ := I.reach p key v hp
  refine ⟨p, ?_, hp⟩
  rw [lookup, ← hpos]
  apply probe_spec _ _ hk _ _ hn
  · intro m hmn
    obtain ⟨k', v', h1, h2⟩ := hno m hmn
    exact ⟨_, h1, by simp [stopAt, h2]⟩
  · exact ⟨_, by rw [hpos]; exact hp, by simp [stopAt]⟩

/-- outcome of `lookup` for an absent key -/
theorem lookup_absent {k : Nat} {es : List (Entry V)} {A : List (Key × V)} (I : Inv k es A)
    (hk : k ≤ 63) (hA : A.length < 2 ^ k) {key : Key} (hm : key ∉ A.map (·.1)) (u : Nat) :
    ∃ n, n < 2 ^ k ∧ lookup ⟨es, 2 ^ k - 1, u⟩ key (keyhash key) = .ok (pos (keyhash key) k n) ∧
      es[pos (keyhash key) k n]? = some none ∧
      ∀ m, m < n → ∃ k' v', es[pos (keyhash key) k m]? = some (some (k', v')) ∧ k' ≠ key := by
  obtain ⟨n, hn, he, hocc⟩ := I.first_empty hA (keyhash key)
  have hne : ∀ m, m < n → ∃ k' v', es[pos (keyhash key) k m]? = some (some (k', v')) ∧ k' ≠ key := by
    intro m hmn
    obtain ⟨⟨k', v'⟩, h1, h2⟩ := hocc m hmn
    exact ⟨k', v', h1, fun h => hm (h ▸ List.mem_map_of_mem (f := (·.1)) h2)⟩
  refine ⟨n, hn, ?_, he, hne⟩
  apply probe_spec _ _ hk _ _ hn
  · intro m hmn
    obtain ⟨k', v', h1, h2⟩ := hne m hmn
    exact ⟨_, h1, by simp [stopAt, h2]⟩
  · exact ⟨_, he, rfl⟩

/-- storing a new key in the first empty slot of its probe sequence keeps the invariant -/
theorem Inv.insert {k : Nat} {es : List (Entry V)} {A : List (Key × V)} (I : Inv k es A)
    {key : Key} (v : V) (hm : key ∉ A.map (·.1)) {n : Nat} (hn : n < 2 ^ k)
    (he : es[pos (keyhash key) k n]? = some none)
    (hocc : ∀ m, m < n → ∃ k' v', es[pos (keyhash key) k m]? = some (some (k', v')) ∧ k' ≠ key) :
    Inv k (es.set (pos (keyhash key) k n) (some (key, v))) ((key, v) :: A) := by
  have hl : pos (keyhash key) k n < es.length := by rw [I.len]; exact pos_lt ..
  have keep : ∀ {q : Nat} {x : Key × V}, es[q]? = some (some x) →
      (es.set (pos (keyhash key) k n) (some (key, v)))[q]? = some (some x) := by
    intro q x hq
    rw [List.getElem?_set_ne (by rintro rfl; rw [he] at hq; simp at hq)]
    exact hq
  refine ⟨by simp [I.len], ?_, ?_, ?_⟩
  · exact (filterMap_set he _).trans (List.Perm.cons _ I.perm)
  · simp only [List.map_cons, List.nodup_cons]; exact ⟨hm, I.nodup⟩
  · intro p key' v' hp
    by_cases hpp : p = pos (keyhash key) k n
    · rw [hpp, List.getElem?_set_self hl] at hp
      simp only [Option.some.injEq, Prod.mk.injEq] at hp
      obtain ⟨rfl, rfl⟩ := hp
      refine ⟨n, hn, hpp.symm, fun m hmn => ?_⟩
      obtain ⟨a, b, h1, h2⟩ := hocc m hmn
      exact ⟨a, b, keep h1, h2⟩
    · rw [List.getElem?_set_ne (fun h => hpp h.symm)] at hp
      obtain ⟨n', h1, h2, h3⟩ := I.reach p key' v' hp
      refine ⟨n', h1, h2, fun m hmn => ?_⟩
      obtain ⟨a, b, h4, h5⟩ := h3 m hmn
      exact ⟨a, b, keep h4, h5⟩

/-- the copying loop of `resize` -/
theorem rehash_spec {k : Nat} (hk : k ≤ 63) (old new : List (Entry V)) (A : List (Key × V))
    (I : Inv k new A) (hlen : A.length + (old.filterMap id).length ≤ 2 ^ k)
    (hnd : ((old.filterMap id ++ A).map (·.1)).Nodup) :
    ∃ es, rehash (2 ^ k - 1) old new = .ok es ∧ Inv k es ((old.filterMap id).reverse ++ A) := by
  induction old generalizing new A with
  | nil => exact ⟨new, rfl, by simpa using I⟩
  | cons e old ih =>
    cases e with
    | none => simpa [rehash] using ih new A I (by simpa using hlen) (by simpa using hnd)
    | some kv =>
      obtain ⟨key, v⟩ := kv
      have hfm : List.filterMap id (some (key, v) :: old) = (key, v) :: List.filterMap id old := rfl
      rw [hfm] at hlen hnd ⊢
      simp only [List.length_cons, List.cons_append, List.map_cons, List.nodup_cons] at hlen hnd
      have hm : key ∉ A.map (·.1) := fun h => hnd.1 (by
        rw [List.map_append]; exact List.mem_append_right _ h)
      obtain ⟨n, hn, he, hocc⟩ := I.first_empty (by omega) (keyhash key)
      have hne : ∀ m, m < n → ∃ k' v', new[pos (keyhash key) k m]? = some (some (k', v')) ∧ k' ≠ key := by
        intro m hmn
        obtain ⟨⟨k', v'⟩, h1, h2⟩ := hocc m hmn
        exact ⟨k', v', h1, fun h => hm (h ▸ List.mem_map_of_mem (f := (·.1)) h2)⟩
      have hpr : probe Option.isNone new (2 ^ k - 1) (2 ^ k - 1 + 1) (keyhash key) 1 =
          .ok (pos (keyhash key) k n) := by
        apply probe_spec _ _ hk _ _ hn
        · intro m hmn
          obtain ⟨kv, h1, _⟩ := hocc m hmn
          exact ⟨_, h1, rfl⟩
        · exact ⟨_, he, rfl⟩
      simp only [rehash, hpr]
      obtain ⟨es, h1, h2⟩ := ih _ _ (I.insert v hm hn he hne) (by simp only [List.length_cons]; omega) (by
        have hp : (List.map (·.1) (List.filterMap id old ++ (key, v) :: A)).Perm
            (key :: List.map (·.1) (List.filterMap id old ++ A)) := by
          have := (List.perm_middle (a := (key, v)) (l₁ := List.filterMap id old) (l₂ := A)).map (·.1)
          simpa using this
        rw [hp.nodup_iff, List.nodup_cons]
        exact hnd)
      exact ⟨es, h1, by simpa using h2⟩

/-! ## Table sizes -/

theorem newSize_pow (nel f a : Nat) : ∃ b, a ≤ b ∧ newSize nel f (2 ^ a) = 2 ^ b := by
  induction f generalizing a with
  | zero => exact ⟨a, Nat.le_refl _, rfl⟩
  | succ f ih =>
    unfold newSize
    split
    · obtain ⟨b, h1, h2⟩ := ih (a + 1)
      refine ⟨b, by omega, ?_⟩
      rw [← h2, Nat.pow_succ, Nat.mul_comm]
    · exact ⟨a, Nat.le_refl _, rfl⟩

theorem newSize_ge (nel f s : Nat) (h : nel ≤ s * 2 ^ f) : nel ≤ newSize nel f s := by
  induction f generalizing s with
  | zero => simpa [newSize] using h
  | succ f ih =>
    unfold newSize
    split
    · apply ih; rw [Nat.pow_succ] at h; rw [Nat.mul_comm 2 s, Nat.mul_assoc, Nat.mul_comm 2]; exact h
    · omega

theorem tabSize_pow (nel : Nat) : ∃ k, 3 ≤ k ∧ tabSize nel = 2 ^ k := newSize_pow _ 60 3

theorem tabSize_ge (nel : Nat) (h : nel ≤ 2 ^ 63) : nel ≤ tabSize nel := by
  unfold tabSize
  rw [Nat.min_eq_left h]
  exact newSize_ge _ _ _ (by omega)

theorem newSize_le (nel f s : Nat) : newSize nel f s ≤ max s (2 * nel) := by
  induction f generalizing s with
  | zero => simp [newSize]
  | succ f ih =>
    unfold newSize
    split
    · have := ih (2 * s); omega
    · omega

theorem tabSize_le (nel : Nat) : tabSize nel ≤ max 8 (2 * nel) := by
  unfold tabSize
  exact Nat.le_trans (newSize_le _ _ _) (by omega)

theorem callocOk_pow {mem : Bool} {n k : Nat} (h : callocOk mem n = true) (hn : n = 2 ^ k) :
    k < 60 := by
  unfold callocOk at h
  simp only [Bool.and_eq_true, decide_eq_true_eq] at h
  have h2 := h.2
  rw [hn] at h2
  by_contra hc
  have : 2 ^ 60 ≤ 2 ^ k := Nat.pow_le_pow_right (by omega) (by omega)
  omega

/-- the invariant of a whole table -/
structure TabInv (t : Tab V) (A : List (Key × V)) : Prop where
  ex : ∃ k, 3 ≤ k ∧ k < 60 ∧ t.mask = 2 ^ k - 1 ∧ Inv k t.entries A
  used : t.used = A.length
  load : A.length ≤ t.mask - t.mask / 4

theorem TabInv_create {mem : Bool} {nel : Nat} {t : Tab V} (h : hcreate mem nel = some t) :
    TabInv t [] := by
  unfold hcreate at h
  split at h
  · next hc =>
    obtain ⟨k, hk, ht⟩ := tabSize_pow nel
    simp only [Option.some.injEq] at h
    subst h
    exact ⟨⟨k, hk, callocOk_pow hc ht, by simp [ht], by simp only [ht]; exact Inv_empty k⟩, rfl, by simp⟩
  · simp at h

theorem TabInv.lookup_present {t : Tab V} {A : List (Key × V)} (I : TabInv t A) {key : Key} {v : V}
    (hm : (key, v) ∈ A) :
    ∃ p, lookup t key (keyhash key) = .ok p ∧ t.entries[p]? = some (some (key, v)) := by
  obtain ⟨k, _, hk, hmask, Ik⟩ := I.ex
  obtain ⟨es, mask, u⟩ := t
  simp only at hmask
  subst hmask
  exact Hash.lookup_present Ik (by omega) hm u

theorem pow3 {k : Nat} (h : 3 ≤ k) : 8 ≤ 2 ^ k := by
  have : 2 ^ 3 ≤ 2 ^ k := Nat.pow_le_pow_right (by omega) h
  omega

theorem TabInv.lookup_absent {t : Tab V} {A : List (Key × V)} (I : TabInv t A) {key : Key}
    (hm : key ∉ A.map (·.1)) :
    ∃ p, lookup t key (keyhash key) = .ok p ∧ t.entries[p]? = some none := by
  obtain ⟨k, h3, hk, hmask, Ik⟩ := I.ex
  have hload := I.load
  obtain ⟨es, mask, u⟩ := t
  simp only at hmask hload
  subst hmask
  have := pow3 h3
  obtain ⟨n, _, h1, h2, _⟩ := Hash.lookup_absent Ik (by omega) (by omega) hm u
  exact ⟨_, h1, h2⟩

/-- `musl_hsearch_r(.., ENTER, ..)` -/
theorem henter_spec {t : Tab V} {A : List (Key × V)} (I : TabInv t A) (mem : Bool) (key : Key) (v : V) :
    (∃ v0 p, (key, v0) ∈ A ∧ henter mem t key v = .ok (some p, t) ∧
        t.entries[p]? = some (some (key, v0))) ∨
    (key ∉ A.map (·.1) ∧ ∃ p t', henter mem t key v = .ok (some p, t') ∧
        t'.entries[p]? = some (some (key, v)) ∧ ∃ A', A'.Perm ((key, v) :: A) ∧ TabInv t' A') ∨
    (key ∉ A.map (·.1) ∧ henter mem t key v = .ok (none, t) ∧
      (mem = true → 2 ^ 57 ≤ A.length)) := by
  by_cases hm : key ∈ A.map (·.1)
  · left
    obtain ⟨⟨k0, v0⟩, h1, h2⟩ := List.mem_map.1 hm
    simp only at h2
    subst h2
    obtain ⟨p, h3, h4⟩ := I.lookup_present h1
    exact ⟨v0, p, h1, by simp only [henter, h3, h4], h4⟩
  · right
    obtain ⟨k, h3, hk, hmask, Ik⟩ := I.ex
    have hload := I.load
    have hused := I.used
    obtain ⟨es, mask, u⟩ := t
    simp only at hmask hload hused Ik
    subst hmask hused
    have h8 := pow3 h3
    have hk60 : 2 ^ k ≤ 2 ^ 59 := Nat.pow_le_pow_right (by omega) (by omega)
    obtain ⟨n, hn, hlk, he, hocc⟩ := Hash.lookup_absent Ik (by omega) (by omega) hm A.length
    have I1 := Ik.insert v hm hn he hocc
    have hl : pos (keyhash key) k n < es.length := by rw [Ik.len]; exact pos_lt ..
    simp only [henter, hlk, he]
    rw [add64_small (x := A.length) (by omega)]
    split
    · next hfull =>
      have hmul : mul64 2 (A.length + 1) = 2 * (A.length + 1) := mul64_small (by omega)
      rw [hmul]
      unfold resize
      obtain ⟨k2, h32, hts⟩ := tabSize_pow (2 * (A.length + 1))
      by_cases hc : callocOk mem (tabSize (2 * (A.length + 1))) = true
      · left
        have hk2 := callocOk_pow hc hts
        have hge := tabSize_ge (2 * (A.length + 1)) (by omega)
        rw [if_pos hc]
        rw [hts] at hge ⊢
        have hlen : (((es.set (pos (keyhash key) k n) (some (key, v))).filterMap id)).length
            = A.length + 1 := by rw [I1.perm.length_eq]; simp
        obtain ⟨es', hr, I2⟩ := rehash_spec (k := k2) (by omega)
          (es.set (pos (keyhash key) k n) (some (key, v))) _ [] (Inv_empty k2)
          (by rw [hlen]; simp; omega) (by
            rw [List.append_nil]
            exact (I1.perm.map _).nodup_iff.2 I1.nodup)
        rw [List.append_nil] at I2
        have hperm : ((es.set (pos (keyhash key) k n) (some (key, v))).filterMap id).reverse.Perm
            ((key, v) :: A) := (List.reverse_perm _).trans I1.perm
        simp only [hr]
        obtain ⟨q, hq, hqe⟩ := Hash.lookup_present I2 (by omega) (key := key) (v := v)
          (hperm.mem_iff.2 (List.mem_cons_self ..)) (A.length + 1)
        simp only [hq]
        refine ⟨hm, q, _, rfl, hqe, _, hperm, ?_⟩
        refine ⟨⟨k2, h32, hk2, rfl, I2⟩, ?_, ?_⟩
        · rw [hperm.length_eq]; simp
        · rw [hperm.length_eq]; simp only [List.length_cons]
          omega
      · right
        rw [if_neg hc]
        refine ⟨hm, ?_, ?_⟩
        · simp only [decr64_succ]
          rw [List.set_set]
          congr 3
          apply List.ext_getElem?
          intro i
          by_cases hi : i = pos (keyhash key) k n
          · rw [hi, List.getElem?_set_self hl, he]
          · rw [List.getElem?_set_ne (fun h => hi h.symm)]
        · intro hmem
          subst hmem
          simp only [callocOk, Bool.true_and, decide_eq_true_eq, not_lt] at hc
          -- the new size is less than twice the requested number
          have hlt := tabSize_le (2 * (A.length + 1))
          omega
    · next hfull =>
      left
      refine ⟨hm, _, _, rfl, ?_, _, List.Perm.refl _, ?_⟩
      · exact List.getElem?_set_self hl
      · exact ⟨⟨k, h3, hk, rfl, I1⟩, by simp, by simp only [List.length_cons]; omega⟩

end Verif.Hash
