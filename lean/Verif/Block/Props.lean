import Verif.Block.Model

/-! # Properties of blocks (C117) -/

namespace Verif.Block

/-! ## bytes and memory -/

theorem bytes_length (n v : Nat) : (bytes n v).length = n := by
  induction n generalizing v with
  | zero => rfl
  | succ n ih => simp [bytes, ih]

theorem value_bytes (n : Nat) : ∀ v, value (bytes n v) = v % 256 ^ n := by
  induction n with
  | zero => intro v; simp [bytes, value, Nat.mod_one]
  | succ n ih =>
    intro v
    simp only [bytes, value, ih]
    have : (UInt8.ofNat (v % 256)).toNat = v % 256 := by
      rw [UInt8.toNat_ofNat']; omega
    rw [this, Nat.pow_succ, Nat.mul_comm (256 ^ n) 256, Nat.mod_mul]

theorem allInit_map (bs : List Byte) : allInit (bs.map some) = .ok bs := by
  induction bs with
  | nil => rfl
  | cons b bs ih => simp [allInit, ih, Res.map]

theorem store_ok {r : Cells} {off : Nat} {bs : List Byte} (h : off + bs.length ≤ r.length) :
    store r (off : Int) bs = .ok (r.take off ++ bs.map some ++ r.drop (off + bs.length)) := by
  unfold store
  rw [if_neg (by omega)]
  simp only [Int.toNat_natCast]
  rw [if_neg (by omega)]

theorem load_ok {r : Cells} {off n : Nat} (h : off + n ≤ r.length) :
    load r (off : Int) n = allInit ((r.drop off).take n) := by
  unfold load
  rw [if_neg (by omega)]
  simp only [Int.toNat_natCast]
  rw [if_neg (by omega)]

/-- the part of a region from `a`, `n` bytes long -/
def part (r : Cells) (a n : Nat) : Cells := (r.drop a).take n

theorem part_length {r : Cells} {a n : Nat} (h : a + n ≤ r.length) : (part r a n).length = n := by
  simp [part]; omega

/-- a write leaves the length, and all parts beside it -/
theorem store_spec {r : Cells} {off : Nat} {bs : List Byte} (h : off + bs.length ≤ r.length) :
    ∃ r', store r (off : Int) bs = .ok r' ∧ r'.length = r.length ∧
      (∀ i, r'[i]? = if off ≤ i ∧ i < off + bs.length then (bs.map some)[i - off]? else r[i]?) := by
  refine ⟨_, store_ok h, by simp; omega, fun i => ?_⟩
  by_cases h1 : i < off
  · rw [if_neg (by omega), List.append_assoc, List.getElem?_append_left (by simp; omega),
      List.getElem?_take_of_lt h1]
  · by_cases h2 : i < off + bs.length
    · rw [if_pos (by omega), List.append_assoc, List.getElem?_append_right (by simp; omega),
        List.getElem?_append_left (by simp; omega)]
      simp only [List.length_take]
      rw [Nat.min_eq_left (by omega)]
    · rw [if_neg (by omega), List.getElem?_append_right (by simp; omega), List.getElem?_drop]
      congr 1
      simp
      omega

/-- the words of the header: their offsets and contents.  The word at 16 are the flags (`resize_method` 1, that is
malloc; not retained, not marked), `n_product` and `in_degree`. -/
def fields (L : Links) (n : Nat) : List (Nat × Nat) :=
  [(0, n), (16, 2), (24, L.state), (32, 0), (40, L.prev), (48, n + 80), (56, L.memcmp), (64, L.trace)]

/-- a block of `n` bytes whose header says so, with the data `data` -/
structure Inv (L : Links) (r : Cells) (n : Nat) (data : Cells) : Prop where
  len : r.length = n + 80
  small : n + 80 < 2 ^ 64
  hdr : ∀ f ∈ fields L n, part r f.1 8 = (bytes 8 f.2).map some
  dat : part r 72 n = data

theorem fields_low {L : Links} {n : Nat} {f : Nat × Nat} (h : f ∈ fields L n) : f.1 + 8 ≤ 72 := by
  simp only [fields, List.mem_cons, List.not_mem_nil, or_false] at h
  rcases h with h | h | h | h | h | h | h | h <;> subst h <;> simp

theorem Inv.size {L : Links} {r : Cells} {n : Nat} {data : Cells} (I : Inv L r n data) : sizeOf r dataOffset = .ok n := by
  have h1 := I.len
  have h2 := I.small
  unfold sizeOf
  have : ((dataOffset : Nat) : Int) - dataOffset = ((0 : Nat) : Int) := by simp
  rw [this, load_ok (by omega)]
  have h3 := I.hdr (0, n) (by simp [fields])
  unfold part at h3
  rw [h3, allInit_map]
  simp only [Res.map, value_bytes]
  rw [Nat.mod_eq_of_lt (by omega)]

theorem Inv.data_length {L : Links} {r : Cells} {n : Nat} {data : Cells} (I : Inv L r n data) : data.length = n := by
  rw [← I.dat, part_length (by have := I.len; omega)]

theorem ext_part {r r' : Cells} {a n : Nat} (h : ∀ i, a ≤ i → i < a + n → r'[i]? = r[i]?) :
    part r' a n = part r a n := by
  apply List.ext_getElem?
  intro i
  simp only [part, List.getElem?_take, List.getElem?_drop]
  split
  · exact h _ (by omega) (by omega)
  · rfl

/-- a write into the data -/
theorem Inv.write {L : Links} {r : Cells} {n : Nat} {data : Cells} (I : Inv L r n data) {i : Nat} {bs : List Byte}
    (h : i + bs.length ≤ n) : ∃ r', store r ((dataOffset + i : Nat) : Int) bs = .ok r' ∧
      Inv L r' n (data.take i ++ bs.map some ++ data.drop (i + bs.length)) := by
  have hl := I.len
  have hd := I.data_length
  obtain ⟨r', e, l, g⟩ := store_spec (r := r) (off := dataOffset + i) (bs := bs)
    (by simp only [dataOffset]; omega)
  have hD : dataOffset = 72 := rfl
  refine ⟨r', e, by omega, I.small, ?_, ?_⟩
  · intro f hf
    rw [← I.hdr f hf]
    have := fields_low hf
    exact ext_part fun j _ hj => by rw [g, if_neg (by omega)]
  · apply List.ext_getElem?
    intro j
    have hdj : ∀ j, j < n → data[j]? = r[72 + j]? := by
      intro j hj
      rw [← I.dat]
      simp only [part, List.getElem?_take, List.getElem?_drop]
      rw [if_pos hj]
    simp only [part, List.getElem?_take, List.getElem?_drop]
    by_cases hj : j < n
    · rw [if_pos hj, g]
      by_cases h1 : j < i
      · rw [if_neg (by omega), List.append_assoc, List.getElem?_append_left (by simp; omega),
          List.getElem?_take_of_lt h1, hdj j hj]
      · by_cases h2 : j < i + bs.length
        · rw [if_pos (by omega), List.append_assoc, List.getElem?_append_right (by simp; omega),
            List.getElem?_append_left (by simp; omega)]
          congr 1
          simp
          omega
        · rw [if_neg (by omega), List.getElem?_append_right (by simp; omega), List.getElem?_drop, ← hdj j hj]
          congr 1
          simp
          omega
    · rw [if_neg hj]
      symm
      rw [List.getElem?_eq_none_iff]
      simp
      omega

/-- a new block: the data are unwritten -/
theorem mkNonzero_inv (L : Links) {n : Nat} (hn : n + 80 < 2 ^ 64) :
    ∃ r, mkNonzero L n = .ok r ∧ Inv L r n (List.replicate n none) := by
  have hs : (n + headerSize) % 2 ^ 64 = n + 80 := Nat.mod_eq_of_lt hn
  unfold mkNonzero
  simp only [hs]
  have h0 : (List.replicate (n + 80) (none : Option Byte)).length = n + 80 := by simp
  obtain ⟨r1, e1, l1, g1⟩ := store_spec (r := List.replicate (n + 80) none) (off := 16)
    (bs := List.replicate 56 0) (by simp)
  obtain ⟨r2, e2, l2, g2⟩ := store_spec (r := r1) (off := 8) (bs := bytes 4 0) (by rw [bytes_length]; omega)
  obtain ⟨r3, e3, l3, g3⟩ := store_spec (r := r2) (off := 24) (bs := bytes 8 L.state) (by rw [bytes_length]; omega)
  obtain ⟨r4, e4, l4, g4⟩ := store_spec (r := r3) (off := 40) (bs := bytes 8 L.prev) (by rw [bytes_length]; omega)
  obtain ⟨r5, e5, l5, g5⟩ := store_spec (r := r4) (off := 64) (bs := bytes 8 L.trace) (by rw [bytes_length]; omega)
  obtain ⟨r6, e6, l6, g6⟩ := store_spec (r := r5) (off := 16) (bs := bytes 1 2) (by rw [bytes_length]; omega)
  obtain ⟨r7, e7, l7, g7⟩ := store_spec (r := r6) (off := 48) (bs := bytes 8 (n + 80)) (by rw [bytes_length]; omega)
  obtain ⟨r8, e8, l8, g8⟩ := store_spec (r := r7) (off := 56) (bs := bytes 8 L.memcmp) (by rw [bytes_length]; omega)
  obtain ⟨r9, e9, l9, g9⟩ := store_spec (r := r8) (off := 0) (bs := bytes 8 n) (by rw [bytes_length]; omega)
  simp only [Int.cast_ofNat_Int] at e1 e2 e3 e4 e5 e6 e7 e8 e9
  rw [e1, Res.ok_bind, e2, Res.ok_bind, e3, Res.ok_bind, e4, Res.ok_bind, e5, Res.ok_bind, e6, Res.ok_bind, e7,
    Res.ok_bind, e8, Res.ok_bind, e9]
  refine ⟨r9, rfl, by omega, hn, ?_, ?_⟩
  · intro f hf
    apply List.ext_getElem?
    intro i
    simp only [part, List.getElem?_take, List.getElem?_drop]
    by_cases h : i < 8
    · rw [if_pos h]
      simp only [g9, g8, g7, g6, g5, g4, g3, g2, g1, bytes_length, List.length_replicate]
      simp only [fields, List.mem_cons, List.not_mem_nil, or_false] at hf
      rcases hf with h | h | h | h | h | h | h | h <;> subst h <;> simp only
      · rw [if_pos (by omega)]; simp
      · by_cases h0 : i = 0
        · subst h0; simp; rfl
        · repeat rw [if_neg (by omega)]
          rw [if_pos (by omega)]
          have : i = 1 ∨ i = 2 ∨ i = 3 ∨ i = 4 ∨ i = 5 ∨ i = 6 ∨ i = 7 := by omega
          rcases this with h | h | h | h | h | h | h <;> subst h <;> rfl
      · repeat rw [if_neg (by omega)]
        rw [if_pos (by omega)]; simp
      · repeat rw [if_neg (by omega)]
        rw [if_pos (by omega)]
        have : i = 0 ∨ i = 1 ∨ i = 2 ∨ i = 3 ∨ i = 4 ∨ i = 5 ∨ i = 6 ∨ i = 7 := by omega
        rcases this with h | h | h | h | h | h | h | h <;> subst h <;> rfl
      · repeat rw [if_neg (by omega)]
        rw [if_pos (by omega)]; simp
      · repeat rw [if_neg (by omega)]
        rw [if_pos (by omega)]; simp
      · repeat rw [if_neg (by omega)]
        rw [if_pos (by omega)]; simp
      · repeat rw [if_neg (by omega)]
        rw [if_pos (by omega)]; simp
    · rw [if_neg h]; symm; rw [List.getElem?_eq_none_iff]; simp [bytes_length]; omega
  · apply List.ext_getElem?
    intro i
    simp only [part, List.getElem?_take, List.getElem?_drop]
    rw [List.getElem?_replicate]
    by_cases h : i < n
    · rw [if_pos h, if_pos h]
      simp only [g9, g8, g7, g6, g5, g4, g3, g2, g1, bytes_length, List.length_replicate]
      repeat rw [if_neg (by omega)]
      rw [List.getElem?_replicate, if_pos (by omega)]
    · rw [if_neg h, if_neg h]

theorem mk_inv (L : Links) {n : Nat} (hn : n + 80 < 2 ^ 64) :
    ∃ r, mk L n = .ok r ∧ Inv L r n (List.replicate n (some 0)) := by
  obtain ⟨r, e, I⟩ := mkNonzero_inv L hn
  obtain ⟨r', e', I'⟩ := I.write (i := 0) (bs := List.replicate n 0) (by simp)
  refine ⟨r', ?_, by simpa using I'⟩
  unfold mk
  rw [e, Res.ok_bind]
  simpa using e'

/-! ## the claims -/

namespace Props

/-- the client's view of a block: an array of bytes -/
def writeArr (a : Cells) : List (Nat × List Byte) → Cells
  | [] => a
  | (i, bs) :: ws => writeArr (a.take i ++ bs.map some ++ a.drop (i + bs.length)) ws

/-- writes inside an array of `n` bytes -/
def Inside (n : Nat) (ws : List (Nat × List Byte)) : Prop := ∀ w ∈ ws, w.1 + w.2.length ≤ n

theorem writes_inv (ws : List (Nat × List Byte)) : ∀ {L : Links} {r : Cells} {n : Nat} {data : Cells}, Inv L r n data →
    Inside n ws → ∃ r', writes r ws = .ok r' ∧ Inv L r' n (writeArr data ws) := by
  induction ws with
  | nil => intro L r n data I _; exact ⟨r, rfl, I⟩
  | cons w ws ih =>
    obtain ⟨i, bs⟩ := w
    intro L r n data I h
    obtain ⟨r1, e1, I1⟩ := I.write (i := i) (bs := bs) (h _ (List.mem_cons_self ..))
    obtain ⟨r2, e2, I2⟩ := ih I1 fun w hw => h w (List.mem_cons_of_mem _ hw)
    exact ⟨r2, by rw [writes, e1]; exact e2, I2⟩

theorem load_data {L : Links} {r : Cells} {n : Nat} {data : Cells} (I : Inv L r n data) {i k : Nat} (h : i + k ≤ n) :
    load r ((dataOffset + i : Nat) : Int) k = allInit ((data.drop i).take k) := by
  rw [load_ok (by have := I.len; simp only [dataOffset]; omega), ← I.dat]
  congr 1
  apply List.ext_getElem?
  intro j
  simp only [part, List.getElem?_take, List.getElem?_drop, dataOffset]
  by_cases hj : j < k
  · rw [if_pos hj, if_pos hj, if_pos (by omega), Nat.add_assoc]
  · rw [if_neg hj, if_neg hj]

/-- **C117.**  A block of `n` bytes made by `cee_block_mk`, after any writes into it: nothing was written outside
the memory obtained, `cee_block_size` says `n`, and any part of it reads as that part of an array of `n` bytes
that began with zeros. -/
theorem C117_block (L : Links) (n : Nat) (hn : n + 80 < 2 ^ 64) (ws : List (Nat × List Byte)) (hw : Inside n ws) :
    ∃ r, (mk L n).bind (fun r => writes r ws) = .ok r ∧ sizeOf r dataOffset = .ok n ∧
      ∀ i k, i + k ≤ n → load r ((dataOffset + i : Nat) : Int) k =
        allInit (((writeArr (List.replicate n (some 0)) ws).drop i).take k) := by
  obtain ⟨r0, e0, I0⟩ := mk_inv L hn
  obtain ⟨r, e, I⟩ := writes_inv ws I0 hw
  exact ⟨r, by rw [e0]; exact e, I.size, fun i k h => load_data I h⟩

/-- **C117** (header).  No write of the client into the block changes a word of its header: the flags, the state and
the chain, the size of the memory and the functions are those `cee_block_mk` put there. -/
theorem C117_header (L : Links) (n : Nat) (hn : n + 80 < 2 ^ 64) (ws : List (Nat × List Byte)) (hw : Inside n ws) :
    ∃ r, (mk L n).bind (fun r => writes r ws) = .ok r ∧
      ∀ off v, (off, v) ∈ [(16, 2), (24, L.state), (32, 0), (40, L.prev), (48, n + 80), (56, L.memcmp),
        (64, L.trace)] → v < 2 ^ 64 → (load r (off : Nat) 8).map value = .ok v := by
  obtain ⟨r0, e0, I0⟩ := mk_inv L hn
  obtain ⟨r, e, I⟩ := writes_inv ws I0 hw
  refine ⟨r, by rw [e0]; exact e, fun off v hf hv => ?_⟩
  have hf' : (off, v) ∈ fields L n := List.mem_cons_of_mem _ hf
  have h := I.hdr _ hf'
  have h8 := fields_low hf'
  simp only at h h8
  unfold part at h
  rw [load_ok (by have := I.len; omega), h, allInit_map]
  simp only [Res.map, value_bytes]
  rw [Nat.mod_eq_of_lt (by omega)]

/-- an array that began with zeros is written everywhere: reading it is never undefined -/
theorem C117_defined (n : Nat) (ws : List (Nat × List Byte)) (hw : Inside n ws) :
    ∃ bs : List Byte, bs.length = n ∧ writeArr (List.replicate n (some 0)) ws = bs.map some := by
  have key : ∀ (ws : List (Nat × List Byte)) (bs : List Byte), bs.length = n → Inside n ws →
      ∃ bs' : List Byte, bs'.length = n ∧ writeArr (bs.map some) ws = bs'.map some := by
    intro ws
    induction ws with
    | nil => intro bs h _; exact ⟨bs, h, rfl⟩
    | cons w ws ih =>
      obtain ⟨i, xs⟩ := w
      intro bs h hw
      have h1 : i + xs.length ≤ n := hw _ (List.mem_cons_self ..)
      obtain ⟨bs', l, e⟩ := ih (bs.take i ++ xs ++ bs.drop (i + xs.length)) (by simp; omega)
        fun w hw' => hw w (List.mem_cons_of_mem _ hw')
      refine ⟨bs', l, ?_⟩
      rw [writeArr, ← e]
      simp [List.map_take, List.map_drop]
  have := key ws (List.replicate n 0) (by simp) hw
  simpa using this

/-- **C117** for `cee_block_mk_nonzero` and `cee_block_mk_e`: the same, with an array that began unwritten -/
theorem C117_nonzero (L : Links) (n : Nat) (hn : n + 80 < 2 ^ 64) (init : List (Nat × List Byte))
    (hw : Inside n init) :
    ∃ r, mkE L n init = .ok r ∧ sizeOf r dataOffset = .ok n ∧
      ∀ i k, i + k ≤ n → load r ((dataOffset + i : Nat) : Int) k =
        allInit (((writeArr (List.replicate n none) init).drop i).take k) := by
  obtain ⟨r0, e0, I0⟩ := mkNonzero_inv L hn
  obtain ⟨r, e, I⟩ := writes_inv init I0 hw
  exact ⟨r, by rw [mkE, e0]; exact e, I.size, fun i k h => load_data I h⟩

/-- **C117**: behind the `n` bytes there is room for eight more, which `cee_json_asprint` uses for the terminating NUL
(C32); a ninth is outside the memory obtained -/
theorem C117_room (L : Links) (n : Nat) (hn : n + 80 < 2 ^ 64) (bs : List Byte) :
    ∃ r, mk L n = .ok r ∧
      (bs.length ≤ 8 → ∃ r', store r ((dataOffset + n : Nat) : Int) bs = .ok r' ∧ sizeOf r' dataOffset = .ok n ∧
        load r' dataOffset n = .ok (List.replicate n 0)) ∧
      (8 < bs.length → store r ((dataOffset + n : Nat) : Int) bs = .ub) := by
  obtain ⟨r, e, I⟩ := mk_inv L hn
  have hl := I.len
  refine ⟨r, e, fun h => ?_, fun h => ?_⟩
  · obtain ⟨r', e', l, g⟩ := store_spec (r := r) (off := dataOffset + n) (bs := bs)
      (by simp only [dataOffset]; omega)
    have hD : dataOffset = 72 := rfl
    have I' : Inv L r' n (List.replicate n (some 0)) := by
      refine ⟨by omega, hn, ?_, ?_⟩
      · intro f hf
        have := fields_low hf
        rw [← I.hdr f hf]; exact ext_part fun j _ hj => by rw [g, if_neg (by omega)]
      · rw [← I.dat]; exact ext_part fun j _ hj => by rw [g, if_neg (by omega)]
    refine ⟨r', e', I'.size, ?_⟩
    have h1 := load_data I' (i := 0) (k := n) (by omega)
    rw [Nat.add_zero] at h1
    rw [h1, List.drop_zero, List.take_of_length_le (by simp), ← List.map_replicate, allInit_map]
  · unfold store
    rw [if_neg (by omega)]
    simp only [Int.toNat_natCast]
    rw [if_pos (by simp only [dataOffset]; omega)]

/-- **C117** is false from 2^64 − 80 bytes on: the sum of size and header overflows, and the header or the zeros are
written outside the memory obtained -/
theorem C117_huge_false (L : Links) (n : Nat) (h1 : 2 ^ 64 ≤ n + 80) (h2 : n < 2 ^ 64) : mk L n = .ub := by
  have hs : (n + headerSize) % 2 ^ 64 = n + 80 - 2 ^ 64 := by
    simp only [headerSize]
    rw [Nat.mod_eq_sub_mod h1, Nat.mod_eq_of_lt (by omega)]
  have key : ∀ r : Cells, mkNonzero L n = .ok r → r.length = n + 80 - 2 ^ 64 := by
    intro r h
    unfold mkNonzero at h
    rw [hs] at h
    have len : ∀ {r r' : Cells} {off : Int} {bs : List Byte}, store r off bs = .ok r' → r'.length = r.length := by
      intro r r' off bs h
      unfold store at h
      split at h
      · simp at h
      · split at h
        · simp at h
        · simp only [Res.ok.injEq] at h
          rw [← h]
          simp
          omega
    simp only [Res.bind_eq_ok] at h
    obtain ⟨_, e1, _, e2, _, e3, _, e4, _, e5, _, e6, _, e7, _, e8, e9⟩ := h
    rw [len e9, len e8, len e7, len e6, len e5, len e4, len e3, len e2, len e1]
    simp
  have st : ∀ (r : Cells) (off : Int) (bs : List Byte), store r off bs = .ub ∨ ∃ r', store r off bs = .ok r' := by
    intro r off bs
    unfold store
    split
    · exact .inl rfl
    · split
      · exact .inl rfl
      · exact .inr ⟨_, rfl⟩
  have hub : mkNonzero L n = .ub ∨ ∃ r, mkNonzero L n = .ok r := by
    unfold mkNonzero
    simp only
    have bnd : ∀ (r : Cells) (off : Int) (bs : List Byte) (f : Cells → Res Cells),
        (∀ r, f r = .ub ∨ ∃ r', f r = .ok r') →
        (store r off bs >>= f) = .ub ∨ ∃ r', (store r off bs >>= f) = .ok r' := by
      intro r off bs f hf
      rcases st r off bs with h | ⟨r', h⟩
      · rw [h]; exact .inl rfl
      · rw [h, Res.ok_bind]; exact hf r'
    iterate 8 refine bnd _ _ _ _ fun r => ?_
    exact st _ _ _
  unfold mk
  rcases hub with h | ⟨r, h⟩
  · rw [h]; rfl
  · rw [h, Res.ok_bind]
    have hl := key r h
    unfold store
    rw [if_neg (by omega)]
    simp only [Int.toNat_natCast, List.length_replicate]
    rw [if_pos (by simp only [dataOffset]; omega)]

/-- **C117** is false for `cee_block_empty`: it is made with the header of str.c, which is eight bytes shorter, so
`cee_block_size` reads in front of it -/
theorem C117_empty_false : ∃ r, empty = .ok r ∧ r[strDataOffset]? = some (some 0) ∧
    sizeOf r strDataOffset = .ub := ⟨_, rfl, rfl, rfl⟩

/-- **C117** (blobs).  The block of a blob has the size given and holds a copy of that many bytes of the source -/
theorem C117_blob (L : Links) (s : List Byte) (n : Nat) (hn : n + 80 < 2 ^ 64) (hs : n ≤ s.length) :
    ∃ r, blobMk L (some s) n = .ok r ∧ sizeOf r dataOffset = .ok n ∧ load r dataOffset n = .ok (s.take n) := by
  obtain ⟨r0, e0, I0⟩ := mkNonzero_inv L hn
  have hl : (s.take n).length = n := by simp; omega
  obtain ⟨r, e, I⟩ := I0.write (i := 0) (bs := s.take n) (by omega)
  refine ⟨r, ?_, I.size, ?_⟩
  · simp only [blobMk, e0, Res.bind]
    rw [if_pos hs]
    simpa using e
  · have h1 := load_data I (i := 0) (k := n) (by omega)
    rw [Nat.add_zero] at h1
    rw [h1]
    simp only [List.take_zero, List.nil_append, List.drop_zero]
    rw [List.take_append_of_le_length (by simp; omega), List.take_of_length_le (by simp; omega), allInit_map]

/-- **C117** is false for an empty blob of a database: `sqlite3_column_blob` returns NULL for it, and the code copies
from NULL -/
theorem C117_blob_false (L : Links) : blobMk L none 0 = .ub := by
  obtain ⟨r, e, _⟩ := mkNonzero_inv L (n := 0) (by decide)
  simp only [blobMk, e, Res.bind]

theorem flatten_zero {n i : Nat} (h : i + 40 ≤ n) :
    ((List.replicate n (some (0 : Byte))).drop i).take 40 = (List.replicate 40 (0 : Byte)).map some := by
  rw [List.drop_replicate, List.take_replicate, List.map_replicate]
  congr 1
  omega

/-- the three pointers, the last replaced -/
theorem op_data (A B C P : List Byte) (hA : A.length = 8) (hB : B.length = 8) (hC : C.length = 8)
    (hP : P.length = 8) (R : Cells) (hR : R.length = 24) :
    (R.take 0 ++ (A ++ B ++ C).map some ++ R.drop (0 + (A ++ B ++ C).length)).take 16 ++ P.map some ++
      (R.take 0 ++ (A ++ B ++ C).map some ++ R.drop (0 + (A ++ B ++ C).length)).drop (16 + P.length) =
      (A ++ B ++ P).map some := by
  have h1 : R.drop (0 + (A ++ B ++ C).length) = [] := List.drop_eq_nil_of_le (by simp; omega)
  rw [h1, List.take_zero, List.nil_append, List.append_nil]
  rw [show ((A ++ B ++ C).map some).drop (16 + P.length) = [] from List.drop_eq_nil_of_le (by simp; omega),
    List.append_nil, ← List.map_take, ← List.map_append]
  congr 2
  rw [List.take_append_of_le_length (by simp; omega), List.take_of_length_le (by simp; omega)]

theorem three_parts (A B P : List Byte) (hA : A.length = 8) (hB : B.length = 8) (hP : P.length = 8) :
    ((A ++ B ++ P).drop 0).take 8 = A ∧ ((A ++ B ++ P).drop 8).take 8 = B ∧
      ((A ++ B ++ P).drop 16).take 8 = P := by
  refine ⟨?_, ?_, ?_⟩
  · rw [List.drop_zero, List.append_assoc, List.take_append_of_le_length (by omega),
      List.take_of_length_le (by omega)]
  · rw [List.append_assoc, List.drop_append, List.drop_eq_nil_of_le (by omega), List.nil_append, hA]
    rw [Nat.sub_self, List.drop_zero, List.take_append_of_le_length (by omega), List.take_of_length_le (by omega)]
  · rw [List.drop_append, List.drop_eq_nil_of_le (by simp; omega), List.nil_append]
    simp only [List.length_append, hA, hB]
    rw [Nat.sub_self, List.drop_zero, List.take_of_length_le (by omega)]

/-- **C117** (operations).  For the size of an array of `n` bind infos, `new_cee_sqlite3_db_op` makes data with one
record of zeros for each info (no record has a value), and a copy of the operation that differs in the pointer to
the data only. -/
theorem C117_op (L : Links) (op : Nat × Nat × Nat) (p n : Nat) (hn : 40 * (80 * n) + 80 < 2 ^ 64)
    (h1 : op.1 < 2 ^ 64) (h2 : op.2.1 < 2 ^ 64) (hp : p < 2 ^ 64) :
    ∃ o d, newDbOp L op p (infoSize * n) = .ok (o, d) ∧
      sizeOf d dataOffset = .ok (dataSize * n) ∧
      (∀ i, i < n → load d ((dataOffset + dataSize * i : Nat) : Int) dataSize = .ok (List.replicate 40 0)) ∧
      (load o dataOffset 8).map value = .ok op.1 ∧
      (load o ((dataOffset + 8 : Nat) : Int) 8).map value = .ok op.2.1 ∧
      (load o ((dataOffset + 16 : Nat) : Int) 8).map value = .ok p := by
  have hsz : dataSize * (infoSize * n) % 2 ^ 64 / infoSize = 40 * n := by
    simp only [dataSize, infoSize]
    rw [Nat.mod_eq_of_lt (by omega)]
    omega
  obtain ⟨o0, e0, I0⟩ := mkNonzero_inv L (n := 24) (by decide)
  obtain ⟨o1, e1, I1⟩ := I0.write (i := 0) (bs := bytes 8 op.1 ++ bytes 8 op.2.1 ++ bytes 8 op.2.2)
    (by simp [bytes_length])
  obtain ⟨o2, e2, I2⟩ := I1.write (i := 16) (bs := bytes 8 p) (by simp [bytes_length])
  obtain ⟨d, ed, Id⟩ := mk_inv L (n := 40 * n) (by omega)
  refine ⟨o2, d, ?_, Id.size, ?_, ?_, ?_, ?_⟩
  · unfold newDbOp
    rw [Nat.add_zero] at e1
    rw [e0, Res.ok_bind, e1, Res.ok_bind, hsz, ed, Res.ok_bind, e2, Res.ok_bind]
    rfl
  · intro i hi
    have h := load_data Id (i := 40 * i) (k := 40) (by omega)
    simp only [dataSize]
    rw [h, flatten_zero (by omega), allInit_map]
  all_goals
    have hI := I2
    rw [op_data _ _ _ _ (bytes_length _ _) (bytes_length _ _) (bytes_length _ _) (bytes_length _ _) _ (by simp)] at hI
    obtain ⟨q1, q2, q3⟩ := three_parts (bytes 8 op.1) (bytes 8 op.2.1) (bytes 8 p) (bytes_length _ _)
      (bytes_length _ _) (bytes_length _ _)
  · have h := load_data hI (i := 0) (k := 8) (by omega)
    rw [Nat.add_zero] at h
    rw [h, ← List.map_drop, ← List.map_take, q1, allInit_map]
    simp only [Res.map, value_bytes]
    rw [Nat.mod_eq_of_lt (by omega)]
  · have h := load_data hI (i := 8) (k := 8) (by omega)
    rw [h, ← List.map_drop, ← List.map_take, q2, allInit_map]
    simp only [Res.map, value_bytes]
    rw [Nat.mod_eq_of_lt (by omega)]
  · have h := load_data hI (i := 16) (k := 8) (by omega)
    rw [h, ← List.map_drop, ← List.map_take, q3, allInit_map]
    simp only [Res.map, value_bytes]
    rw [Nat.mod_eq_of_lt (by omega)]

/-! ## the hypotheses are met -/

/-- a block of ten bytes, written twice, the second time over part of the first -/
example : Inside 10 [(2, [1, 2, 3]), (4, [9, 9, 9, 9])] := by unfold Inside; decide

example : writeArr (List.replicate 10 (some 0)) [(2, [1, 2, 3]), (4, [9, 9, 9, 9])] =
    [some 0, some 0, some 1, some 2, some 9, some 9, some 9, some 9, some 0, some 0] := rfl

/-- a fresh block that was not filled may not be read -/
example : allInit (((writeArr (List.replicate 3 none) [(0, [7])]).drop 0).take 2) = .ub := rfl

example : ∃ L n, 2 ^ 64 ≤ n + 80 ∧ n < 2 ^ 64 ∧ mk L n = .ub :=
  ⟨⟨1, 2, 3, 4⟩, 2 ^ 64 - 1, by decide, by decide, C117_huge_false _ _ (by decide) (by decide)⟩

/-- an operation with three infos -/
example : ∃ o d, newDbOp ⟨1, 2, 3, 4⟩ (10, 20, 30) 40 (infoSize * 3) = .ok (o, d) ∧
    sizeOf d dataOffset = .ok 120 := by
  obtain ⟨o, d, h, h', _⟩ := C117_op ⟨1, 2, 3, 4⟩ (10, 20, 30) 40 3 (by decide) (by decide) (by decide) (by decide)
  exact ⟨o, d, h, h'⟩

end Props
end Verif.Block
