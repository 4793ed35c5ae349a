import Verif.Own.Links

/-!
# A state owns the private memory of its containers (C113)

Histories of calls on lists, dictionaries, sets and maps of one state.  The allocator is arbitrary; the two `calloc`s of
musl-hsearch.c and the `malloc` of musl-tsearch.c may fail.
-/

namespace Verif.Own.Props

open Verif.Chain (upd)

variable {al : Malloc} {text : Nat → Hash.Key}

/-! ## Specification -/

/-- a call, with pointers to containers, elements, keys and values -/
inductive Op where
  | plain
  | listMk (cap : Nat)
  | append (l e : Nat)
  | insert (l : Nat) (i : Int) (e : Nat)
  | remove (l : Nat) (i : Int)
  | dictMk (pol : Policy) (size hsize : Nat)
  | add (d key value : Nat)
  | find (d key : Nat)
  | setMk (pol : Policy) (cmp : Nat → Nat → Int)
  | setAdd (p val : Nat)
  | setFind (p key : Nat)
  | setRemove (p key : Nat)
  | setClear (p : Nat)
  | mapMk (kp vp : Policy) (cmp : Nat → Nat → Int)
  | mapAdd (m key value : Nat)
  | mapFind (m key : Nat)
  | mapRemove (m key : Nat)
  | del (p : Nat)

/-- what a call returns: nothing, a new container, a new dictionary (with its two lists), a new map (with its list of keys), NULL
instead of a dictionary, a truth value, a pointer, the old value of a key (with the tuple of a new key); for deletions the
elements given to `cee_del_e` -/
inductive Out where
  | unit
  | new (p : Nat)
  | newDict (d k v : Nat)
  | newMap (m k : Nat)
  | null
  | bool (b : Bool)
  | ptr (p : Nat)
  | added (old tup : Nat)
  | dels (l : List (Option Nat))

/-- one call -/
def exec (al : Malloc) (text : Nat → Hash.Key) (s : St) : Op → Res (St × Out)
  | .plain => (plainMk al s).bind fun r => .ok (r.1, .new r.2)
  | .listMk cap => (listMk al s cap).bind fun r => .ok (r.1, .new r.2)
  | .append l e => (append al s l (some e)).bind fun s => .ok (s, .unit)
  | .insert l i e => (insert al s l i (some e)).bind fun s => .ok (s, .unit)
  | .remove l i => (remove s l i).bind fun r => .ok (r.1, .bool r.2)
  | .dictMk pol size hsize => (dictMk al text s pol size hsize).bind fun r =>
      .ok (r.1, match r.1.obj r.2 with
        | .dict _ k v _ => if r.2 = 0 then .null else .newDict r.2 k v
        | _ => .null)
  | .add d key value => (dictAdd al text s d key value).bind fun s => .ok (s, .unit)
  | .find d key => (dictFind text s d key).bind fun p => .ok (s, .ptr p)
  | .setMk pol cmp => (setMk al s pol cmp).bind fun r => .ok (r.1, .new r.2)
  | .setAdd p val => (setAdd al s p val).bind fun s => .ok (s, .unit)
  | .setFind p key => (setFind s p key).bind fun q => .ok (s, .ptr q)
  | .setRemove p key => (setRemove s p key).bind fun r => .ok (r.1, .ptr r.2)
  | .setClear p => (setClear s p).bind fun r => .ok (r.1, .dels (r.2.map some))
  | .mapMk kp vp cmp => (mapMk al s kp vp cmp).bind fun r =>
      .ok (r.1, match r.1.obj r.2 with
        | .map _ _ _ k _ => .newMap r.2 k
        | _ => .null)
  | .mapAdd m key value => (mapAdd al s m key value).bind fun r => .ok (r.1, .added r.2.1 r.2.2)
  | .mapFind m key => (mapFind s m key).bind fun q => .ok (s, .ptr q)
  | .mapRemove m key => (mapRemove s m key).bind fun r => .ok (r.1, .ptr r.2)
  | .del p => (getObj s p).bind fun o =>
      match o with
      | .plain => (plainFree s p).bind fun s => .ok (s, .dels [])
      | .list .. => (listDel s p).bind fun r => .ok (r.1, .dels r.2)
      | .dict .. => (dictDel s p).bind fun r => .ok (r.1, .dels r.2)
      | .pair .. => (delPairs [p] s).bind fun r => .ok (r.1, .dels r.2)
      | .set .. => (setDel s p).bind fun s => .ok (s, .dels [])
      | .map .. => (mapDel s p).bind fun r => .ok (r.1, .dels r.2)

/-- What the caller must see to: containers exist and are of the right kind, the lists of a dictionary and of a map are left to it,
so are the tuples of a map, comparison functions are orders, pointers are not NULL, indices are within the list, sizes within
bounds, and a set is empty when it is deleted. -/
def Legal (A : Abs) : Op → Prop
  | .plain => True
  | .listMk cap => cap < 2 ^ 60
  | .append l _ => ∃ xs, A l = some (.list none xs) ∧ xs.length < 2 ^ 31
  | .insert l i _ => ∃ xs, A l = some (.list none xs) ∧ xs.length < 2 ^ 31 ∧ 0 ≤ i ∧ i ≤ xs.length
  | .remove l i => ∃ xs, A l = some (.list none xs) ∧ xs.length < 2 ^ 31 ∧ -2 ^ 31 ≤ i ∧ i < 2 ^ 31
  | .dictMk _ size _ => size < 2 ^ 60
  | .add d key value => ∃ pol k v adds, A d = some (.dict pol k v adds) ∧ adds.length < 2 ^ 31 ∧ key ≠ 0 ∧ value ≠ 0
  | .find d key => ∃ pol k v adds, A d = some (.dict pol k v adds) ∧ key ≠ 0
  | .setMk _ cmp => Map.Spec.IsOrd cmp
  | .setAdd p val => ∃ pol cmp xs, A p = some (.set pol cmp xs) ∧ xs.length < 2 ^ 31 ∧ val ≠ 0
  | .setFind p _ => ∃ pol cmp xs, A p = some (.set pol cmp xs)
  | .setRemove p _ => ∃ pol cmp xs, A p = some (.set pol cmp xs)
  | .setClear p => ∃ pol cmp xs, A p = some (.set pol cmp xs)
  | .mapMk _ _ cmp => Map.Spec.IsOrd cmp
  | .mapAdd m key value => ∃ kp vp cmp k es, A m = some (.map kp vp cmp k es) ∧ es.length < 2 ^ 31 ∧ (key ≠ 0 → value ≠ 0)
  | .mapFind m _ => ∃ kp vp cmp k es, A m = some (.map kp vp cmp k es)
  | .mapRemove m _ => ∃ kp vp cmp k es, A m = some (.map kp vp cmp k es) ∧ es.length < 2 ^ 31
  | .del p => A p = some .plain ∨ (∃ xs, A p = some (.list none xs)) ∨ (∃ pol k v adds, A p = some (.dict pol k v adds)) ∨
      (∃ pol cmp, A p = some (.set pol cmp [])) ∨ ∃ kp vp cmp k es, A p = some (.map kp vp cmp k es)

/-- The call on lists, histories of additions, members, bindings and sets of addresses: `out` is right, and `A'` is what there is
afterwards. -/
inductive Step (text : Nat → Hash.Key) (A : Abs) : Op → Out → Abs → Prop
  | plain {p : Nat} : p ≠ 0 → A p = none → Step text A .plain (.new p) (upd A p (some .plain))
  | listMk {p cap : Nat} : p ≠ 0 → A p = none → Step text A (.listMk cap) (.new p) (upd A p (some (.list none [])))
  | append {l e : Nat} {xs : List (Option Nat)} : A l = some (.list none xs) →
      Step text A (.append l e) .unit (upd A l (some (.list none (xs ++ [some e]))))
  | insert {l i e : Nat} {xs : List (Option Nat)} : A l = some (.list none xs) →
      Step text A (.insert l i e) .unit (upd A l (some (.list none (xs.take i ++ some e :: xs.drop i))))
  | remove {l i : Nat} {xs : List (Option Nat)} : A l = some (.list none xs) → i < xs.length →
      Step text A (.remove l i) (.bool true) (upd A l (some (.list none (xs.eraseIdx i))))
  | removeNot {l : Nat} {i : Int} {xs : List (Option Nat)} : A l = some (.list none xs) → (i < 0 ∨ xs.length ≤ i) →
      Step text A (.remove l i) (.bool false) A
  | dictMk {pol : Policy} {size hsize d k v : Nat} : d ≠ 0 → A d = none → A k = none → A v = none →
      k ≠ v → k ≠ d → v ≠ d → Step text A (.dictMk pol size hsize) (.newDict d k v)
        (upd (upd (upd A k (some (.list (some d) []))) v (some (.list (some d) []))) d (some (.dict pol k v [])))
  | add {d key value k v : Nat} {pol : Policy} {adds : List (Nat × Nat)} : A d = some (.dict pol k v adds) →
      Step text A (.add d key value) .unit
        (upd (upd (upd A d (some (.dict pol k v (adds ++ [(key, value)]))))
          k (some (.list (some d) (adds.map (fun x => some x.1) ++ [some key]))))
          v (some (.list (some d) (adds.map (fun x => some x.2) ++ [some value]))))
  | find {d key k v : Nat} {pol : Policy} {adds : List (Nat × Nat)} : A d = some (.dict pol k v adds) →
      Step text A (.find d key) (.ptr (found text adds key)) A
  | delPlain {p : Nat} : A p = some .plain → Step text A (.del p) (.dels []) (upd A p none)
  | delList {p : Nat} {xs : List (Option Nat)} : A p = some (.list none xs) →
      Step text A (.del p) (.dels xs) (upd A p none)
  | delDict {d k v : Nat} {pol : Policy} {adds : List (Nat × Nat)} : A d = some (.dict pol k v adds) → pol ≠ .noop →
      Step text A (.del d) (.dels (adds.map (fun x => some x.1) ++ adds.map (fun x => some x.2)))
        (upd (upd (upd A k none) v none) d none)
  | delDictOnly {d k v : Nat} {adds : List (Nat × Nat)} : A d = some (.dict .noop k v adds) →
      Step text A (.del d) (.dels [])
        (upd (upd (upd A k (some (.list none (adds.map fun x => some x.1)))) v
          (some (.list none (adds.map fun x => some x.2)))) d none)

  | setMk {p : Nat} {pol : Policy} {cmp : Nat → Nat → Int} : p ≠ 0 → A p = none →
      Step text A (.setMk pol cmp) (.new p) (upd A p (some (.set pol cmp [])))
  | setAdd {p val : Nat} {pol : Policy} {cmp : Nat → Nat → Int} {xs : List Nat} : A p = some (.set pol cmp xs) →
      Step text A (.setAdd p val) .unit (upd A p (some (.set pol cmp (Set.Spec.insert cmp xs val))))
  | setFind {p key : Nat} {pol : Policy} {cmp : Nat → Nat → Int} {xs : List Nat} : A p = some (.set pol cmp xs) →
      Step text A (.setFind p key) (.ptr ((Set.Spec.member cmp xs key).getD 0)) A
  | setRemove {p key : Nat} {pol : Policy} {cmp : Nat → Nat → Int} {xs : List Nat} : A p = some (.set pol cmp xs) →
      Step text A (.setRemove p key) (.ptr ((Set.Spec.member cmp xs key).getD 0))
        (upd A p (some (.set pol cmp (Set.Spec.erase cmp xs key))))
  | setClear {p : Nat} {pol : Policy} {cmp : Nat → Nat → Int} {xs : List Nat} {ds : List (Option Nat)} :
      A p = some (.set pol cmp xs) → ds.Perm (if pol = .noop then [] else xs.map some) →
      Step text A (.setClear p) (.dels ds) (upd A p (some (.set pol cmp [])))
  | mapMk {m k : Nat} {kp vp : Policy} {cmp : Nat → Nat → Int} : m ≠ 0 → A m = none → A k = none → k ≠ m →
      Step text A (.mapMk kp vp cmp) (.newMap m k) (upd (upd A k (some (.list (some m) []))) m (some (.map kp vp cmp k [])))
  | mapNull {m value : Nat} : Step text A (.mapAdd m 0 value) (.added 0 0) A
  | mapOld {m key value k : Nat} {kp vp : Policy} {cmp : Nat → Nat → Int} {es : List Bind} {e : Bind} : key ≠ 0 →
      A m = some (.map kp vp cmp k es) → es.find? (fun e => cmp key e.key = 0) = some e →
      Step text A (.mapAdd m key value) (.added e.val 0)
        (upd (upd A e.tup (some (.pair m e.key value)))
          m (some (.map kp vp cmp k (es.map fun e => if cmp key e.key = 0 then ⟨e.key, value, e.tup⟩ else e))))
  | mapNew {m key value k t : Nat} {kp vp : Policy} {cmp : Nat → Nat → Int} {es : List Bind} : key ≠ 0 →
      A m = some (.map kp vp cmp k es) → (∀ e ∈ es, cmp key e.key ≠ 0) → t ≠ 0 → A t = none →
      Step text A (.mapAdd m key value) (.added 0 t)
        (upd (upd (upd A t (some (.pair m key value))) m (some (.map kp vp cmp k (es ++ [⟨key, value, t⟩]))))
          k (some (.list (some m) (es.map (fun e => some e.key) ++ [some key]))))
  | mapFind {m key k : Nat} {kp vp : Policy} {cmp : Nat → Nat → Int} {es : List Bind} {e : Bind} : key ≠ 0 →
      A m = some (.map kp vp cmp k es) → es.find? (fun e => cmp key e.key = 0) = some e → Step text A (.mapFind m key) (.ptr e.val) A
  | mapFindNot {m key k : Nat} {kp vp : Policy} {cmp : Nat → Nat → Int} {es : List Bind} :
      A m = some (.map kp vp cmp k es) → (key = 0 ∨ ∀ e ∈ es, cmp key e.key ≠ 0) → Step text A (.mapFind m key) (.ptr 0) A
  | mapRemove {m key k : Nat} {kp vp : Policy} {cmp : Nat → Nat → Int} {es : List Bind} {e : Bind} : key ≠ 0 →
      A m = some (.map kp vp cmp k es) → es.find? (fun e => cmp key e.key = 0) = some e →
      Step text A (.mapRemove m key) (.ptr e.val)
        (upd (upd (upd A m (some (.map kp vp cmp k (es.filter fun e => cmp key e.key ≠ 0)))) e.tup none)
          k (some (.list (some m) ((es.filter fun e => cmp key e.key ≠ 0).map fun e => some e.key))))
  | mapRemoveNot {m key k : Nat} {kp vp : Policy} {cmp : Nat → Nat → Int} {es : List Bind} :
      A m = some (.map kp vp cmp k es) → (key = 0 ∨ ∀ e ∈ es, cmp key e.key ≠ 0) → Step text A (.mapRemove m key) (.ptr 0) A
  | delSet {p : Nat} {pol : Policy} {cmp : Nat → Nat → Int} : A p = some (.set pol cmp []) →
      Step text A (.del p) (.dels []) (upd A p none)
  | delMap {m k : Nat} {kp vp : Policy} {cmp : Nat → Nat → Int} {es : List Bind} {ds : List (Option Nat)} :
      A m = some (.map kp vp cmp k es) → ds.Perm (es.flatMap fun e => [ptr e.key, ptr e.val]) →
      Step text A (.del m) (.dels (es.map (fun e => some e.key) ++ ds))
        (fun p => if p = m ∨ p = k ∨ p ∈ es.map Bind.tup then none else A p)

/-- what a program can reach from a new state by calls that end and do not return NULL -/
inductive Reach (al : Malloc) (text : Nat → Hash.Key) : St → Abs → Prop
  | mk : Reach al text stateMk fun _ => none
  | step {s s' : St} {A A' : Abs} {op : Op} {out : Out} : Reach al text s A → Legal A op → exec al text s op = .ok (s', out) →
      Step text A op out A' → Reach al text s' A'

/-- the addresses of the nodes of a tree; no tree is higher than 95 -/
def treeAddrs (s : St) : Nat → Nat → List Nat
  | 0, _ => []
  | fuel + 1, p =>
    if p = 0 then []
    else
      match s.mem p with
      | some (.node n) => p :: (treeAddrs s fuel n.a0 ++ treeAddrs s fuel n.a1)
      | _ => []

/-- the private blocks of the container at `p` -/
def blocks (s : St) (p : Nat) : List Nat :=
  match s.obj p with
  | .plain => []
  | .list _ _ a => [a]
  | .dict _ _ _ t =>
    match s.mem t with
    | some (.tab e _ _) => [t, e]
    | _ => []
  | .pair _ _ => []
  | .set _ _ root => treeAddrs s 96 root
  | .map _ _ _ _ root => treeAddrs s 96 root

/-! ## Proof -/

theorem mapOut {cmp : Nat → Nat → Int} {es : List Bind} {key : Nat} (h : bindOf cmp es key = none) : ∀ e ∈ es, cmp key e.key ≠ 0 := by
  simpa [bindOf] using h

/-- one legal call in a good state -/
theorem step_ok (hal : al.Sound) {s : St} {L : List Nat} {A : Abs} {G : Nat → Option Nat} (I : Inv text s L A G)
    (K : Links A) {op : Op} (hl : Legal A op) :
    (∃ s' out A' L' G', exec al text s op = .ok (s', out) ∧ Step text A op out A' ∧ Inv text s' L' A' G' ∧ Links A') ∨
    (∃ pol size hsize s', op = .dictMk pol size hsize ∧ exec al text s op = .ok (s', .null) ∧
      ((∃ i, al.fails i = true) ∨ 2 ^ 64 ≤ Hash.tabSize hsize * 16)) ∨
    (((∃ d key value, op = .add d key value) ∨ (∃ p val, op = .setAdd p val) ∨ ∃ m key value, op = .mapAdd m key value) ∧
      exec al text s op = .segv ∧ ∃ i, al.fails i = true) := by
  cases op with
  | plain =>
    obtain ⟨s', r, e, r0, _, rA, _, I'⟩ := plainMk_ok hal I .plain .plain (fun _ _ _ h1 h2 => ⟨h1, h2⟩)
    exact .inl ⟨s', _, _, _, G, by simp only [exec, plainMk, e, Res.bind_ok], .plain r0 rA, I',
      K.mono (by simp [rA]) (by simp [deps])⟩
  | listMk cap =>
    obtain ⟨s', r, G', e, r0, _, rA, I'⟩ := listMk_ok hal I none hl
    exact .inl ⟨s', _, _, _, G', by simp only [exec, e, Res.bind_ok], .listMk r0 rA, I', K.mono (by simp [rA]) (by simp [deps])⟩
  | append l e =>
    obtain ⟨xs, h1, h2⟩ := hl
    obtain ⟨s', G', e, I', _⟩ := append_ok hal I h1 h2 e
    exact .inl ⟨s', _, _, _, G', by simp only [exec, e, Res.bind_ok], .append h1, I', K.mono (by intro y o hy; rw [h1] at hy; cases hy; simp [ownerOf]) (by simp [deps])⟩
  | insert l i e =>
    obtain ⟨xs, h1, h2, h3, h4⟩ := hl
    obtain ⟨n, rfl⟩ := Int.eq_ofNat_of_zero_le h3
    obtain ⟨s', G', e, I'⟩ := insert_ok hal I h1 h2 n e (by omega)
    exact .inl ⟨s', _, _, _, G', by simp only [exec, e, Res.bind_ok], .insert h1, I', K.mono (by intro y o hy; rw [h1] at hy; cases hy; simp [ownerOf]) (by simp [deps])⟩
  | remove l i =>
    obtain ⟨xs, h1, h2, h3, h4⟩ := hl
    obtain ⟨s', G', e, I'⟩ := remove_ok I h1 h2 i ⟨h3, h4⟩
    by_cases hi : 0 ≤ i ∧ i < xs.length
    · obtain ⟨n, rfl⟩ := Int.eq_ofNat_of_zero_le hi.1
      simp only [hi, and_self, decide_true, if_true, Int.toNat_natCast] at e I'
      exact .inl ⟨s', _, _, _, G', by simp only [exec, e, Res.bind_ok], .remove h1 (by omega), I', K.mono (by intro y o hy; rw [h1] at hy; cases hy; simp [ownerOf]) (by simp [deps])⟩
    · simp only [hi, decide_false, if_false] at e I'
      rw [show upd A l (some (.list none xs)) = A by rw [← h1, upd_self]] at I'
      exact .inl ⟨s', _, _, _, G', by simp only [exec, e, Res.bind_ok], .removeNot h1 (by omega), I', K⟩
  | dictMk pol size hsize =>
    rcases dictMk_ok (text := text) hal I pol hl hsize with
      ⟨s', d, k, v, G', e, d0, ⟨t, ho⟩, hk, hv, hd, hkv, hkd, hvd, I'⟩ | ⟨s', d, e, _, _, _, _, _, why⟩
    · exact .inl ⟨s', _, _, _, G', by simp only [exec, e, Res.bind_ok, ho, d0, if_false], .dictMk d0 hd hk hv hkv hkd hvd, I',
        K.dictMk hd hk hv hkv hkd hvd⟩
    · refine .inr (.inl ⟨pol, size, hsize, s', rfl, ?_, why⟩)
      simp only [exec, e, Res.bind_ok, if_true]
      split <;> rfl
  | add d key value =>
    obtain ⟨pol, k, v, adds, h1, h2, h3, h4⟩ := hl
    rcases dictAdd_ok hal I K h1 h2 h3 h4 with ⟨s', G', e, I'⟩ | ⟨e, why⟩
    · exact .inl ⟨s', _, _, _, G', by simp only [exec, e, Res.bind_ok], .add h1, I', K.add h1 key value⟩
    · exact .inr (.inr ⟨.inl ⟨d, key, value, rfl⟩, by simp only [exec, e, Res.bind], why⟩)
  | find d key =>
    obtain ⟨pol, k, v, adds, h1, h2⟩ := hl
    exact .inl ⟨s, _, A, L, G, by simp only [exec, dictFind_ok I h1 h2, Res.bind_ok], .find h1, I, K⟩
  | setMk pol cmp =>
    obtain ⟨s', r, e, r0, rA, I'⟩ := setMk_ok hal I pol hl
    exact .inl ⟨s', _, _, _, G, by simp only [exec, e, Res.bind_ok], .setMk r0 rA, I', K.mono (by simp [rA]) (by simp [deps])⟩
  | setAdd p val =>
    obtain ⟨pol, cmp, xs, h1, h2, h3⟩ := hl
    rcases setAdd_ok hal I h1 h2 h3 with ⟨s', G', e, I', _⟩ | ⟨e, why⟩
    · exact .inl ⟨s', _, _, _, G', by simp only [exec, e, Res.bind_ok], .setAdd h1, I', K.mono (by intro y o hy; rw [h1] at hy; cases hy; simp [ownerOf]) (by simp [deps])⟩
    · exact .inr (.inr ⟨.inr (.inl ⟨p, val, rfl⟩), by simp only [exec, e, Res.bind], why⟩)
  | setFind p key =>
    obtain ⟨pol, cmp, xs, h1⟩ := hl
    exact .inl ⟨s, _, A, L, G, by simp only [exec, setFind_ok I h1 key, Res.bind_ok, answer], .setFind h1, I, K⟩
  | setRemove p key =>
    obtain ⟨pol, cmp, xs, h1⟩ := hl
    obtain ⟨s', G', e, I'⟩ := setRemove_ok I h1 key
    exact .inl ⟨s', _, _, _, G', by simp only [exec, e, Res.bind_ok, answer], .setRemove h1, I',
      K.mono (by intro y o hy; rw [h1] at hy; cases hy; simp [ownerOf]) (by simp [deps])⟩
  | setClear p =>
    obtain ⟨pol, cmp, xs, h1⟩ := hl
    obtain ⟨s', G', ks, e, hks, I'⟩ := setClear_ok I h1
    refine .inl ⟨s', .dels (ks.map some), _, _, G', by simp only [exec, e, Res.bind_ok], .setClear h1 ?_, I',
      K.mono (by intro y o hy; rw [h1] at hy; cases hy; simp [ownerOf]) (by simp [deps])⟩
    have := hks.map some
    split at this
    · next h => rw [if_pos h]; exact this
    · next h => rw [if_neg h]; exact this
  | mapMk kp vp cmp =>
    obtain ⟨s', r, k, G', e, r0, ro, kA, rA, hkr, I'⟩ := mapMk_ok hal I kp vp hl
    exact .inl ⟨s', _, _, _, G', by simp only [exec, e, Res.bind_ok, ro], .mapMk r0 rA kA hkr, I', K.mapMk rA kA hkr⟩
  | mapAdd m key value =>
    obtain ⟨kp, vp, cmp, k, es, h1, h2, h3⟩ := hl
    by_cases h0 : key = 0
    · subst h0
      exact .inl ⟨s, _, A, L, G, by simp only [exec, mapAdd, if_true, Res.bind_ok], .mapNull, I, K⟩
    · rcases mapAdd_ok hal I K h1 h2 h0 (h3 h0) with ⟨e, s', L', G', hb, e1, I', _⟩ | ⟨hb, ⟨t, s', L', G', t0, tA, e1, I', _⟩ | ⟨e1, why⟩⟩
      · obtain ⟨he, hq⟩ := bindOf_mem hb
        obtain ⟨root, M⟩ := I.isMap' K h1
        exact .inl ⟨s', _, _, L', G', by simp only [exec, e1, Res.bind_ok], .mapOld h0 h1 hb, I', K.old h1 he hq fun e' he' hq' => by
          have := bindOf_some M.ord M.uniq he' hq'
          rw [hb] at this
          simpa using this.symm⟩
      · exact .inl ⟨s', _, _, L', G', by simp only [exec, e1, Res.bind_ok], .mapNew h0 h1 (mapOut hb) t0 tA, I', K.new h1 tA⟩
      · exact .inr (.inr ⟨.inr (.inr ⟨m, key, value, rfl⟩), by simp only [exec, e1, Res.bind], why⟩)
  | mapFind m key =>
    obtain ⟨kp, vp, cmp, k, es, h1⟩ := hl
    left
    by_cases h0 : key = 0
    · exact ⟨s, _, A, L, G, by simp only [exec, mapFind, h0, if_true, Res.bind_ok], .mapFindNot h1 (.inl h0), I, K⟩
    · have e := mapFind_ok I K h1 h0
      cases hb : bindOf cmp es key with
      | none =>
        rw [hb] at e
        exact ⟨s, _, A, L, G, by simp only [exec, e, Res.bind_ok]; rfl, .mapFindNot h1 (.inr (mapOut hb)), I, K⟩
      | some b =>
        rw [hb] at e
        exact ⟨s, _, A, L, G, by simp only [exec, e, Res.bind_ok]; rfl, .mapFind h0 h1 hb, I, K⟩
  | mapRemove m key =>
    obtain ⟨kp, vp, cmp, k, es, h1, h2⟩ := hl
    left
    by_cases h0 : key = 0
    · exact ⟨s, _, A, L, G, by simp only [exec, mapRemove, h0, if_true, Res.bind_ok], .mapRemoveNot h1 (.inl h0), I, K⟩
    · rcases mapRemove_ok I K h1 h2 h0 with ⟨b, s', L', G', hb, e, I'⟩ | ⟨hb, e⟩
      · obtain ⟨he, hq⟩ := bindOf_mem hb
        exact ⟨s', _, _, L', G', by simp only [exec, e, Res.bind_ok], .mapRemove h0 h1 hb, I', K.dropKey h1 he hq⟩
      · exact ⟨s, _, A, L, G, by simp only [exec, e, Res.bind_ok], .mapRemoveNot h1 (.inr (mapOut hb)), I, K⟩
  | del p =>
    left
    rcases hl with h1 | ⟨xs, h1⟩ | ⟨pol, k, v, adds, h1⟩ | ⟨pol, cmp, h1⟩ | ⟨kp, vp, cmp, k, es, h1⟩
    · obtain ⟨s2, e2, I2, _⟩ := plainFree_ok I h1 (I.holds p _ h1).2
      exact ⟨s2, _, _, _, G, by simp only [exec, I.getObj h1, Res.bind_ok, (I.holds p _ h1).1, e2], .delPlain h1, I2,
        K.mono (by intro y o hy; rw [h1] at hy; cases hy; simp [ownerOf]) (by simp [deps])⟩
    · obtain ⟨s', G', e, I', _⟩ := listDel_ok I h1
      obtain ⟨size, cap, a, cs, g1, _⟩ := I.holds p _ h1
      exact ⟨s', _, _, _, G', by simp only [exec, I.getObj h1, Res.bind_ok, g1, e], .delList h1, I',
        K.mono (by intro y o hy; rw [h1] at hy; cases hy; simp [ownerOf]) (by simp [deps])⟩
    · obtain ⟨s', L', G', e, I'⟩ := dictDel_ok I K h1
      obtain ⟨t, e', m, u, es, g1, _⟩ := I.holds p _ h1
      have he : exec al text s (.del p) = .ok (s', .dels (dels pol adds)) := by
        simp only [exec, I.getObj h1, Res.bind_ok, g1, e]
      cases pol with
      | noop => exact ⟨s', _, _, L', G', he, .delDictOnly h1, I', K.del h1 (by simp [deps]) (by simp [deps])⟩
      | rc => exact ⟨s', _, _, L', G', he, .delDict h1 (by simp), I', K.del h1 (by simp) (by simp)⟩
      | del => exact ⟨s', _, _, L', G', he, .delDict h1 (by simp), I', K.del h1 (by simp) (by simp)⟩
    · obtain ⟨s', G', e, I'⟩ := (setDel_ok I h1).1 rfl
      obtain ⟨_, _, root, g1, _⟩ := I.holds p _ h1
      exact ⟨s', _, _, _, G', by simp only [exec, I.getObj h1, Res.bind_ok, g1, e], .delSet h1, I',
        K.mono (by intro y o hy; rw [h1] at hy; cases hy; simp [ownerOf]) (by simp)⟩
    · obtain ⟨s', L', G', ds, e, hds, I'⟩ := mapDel_ok I K h1
      obtain ⟨_, _, root, g1, _⟩ := I.holds p _ h1
      have hw : withoutMap A p k es = fun q => if q = p ∨ q = k ∨ q ∈ es.map Bind.tup then none else A q := by
        funext q
        simp only [withoutMap, without, List.mem_cons]
      refine ⟨s', _, _, L', G', by simp only [exec, I.getObj h1, Res.bind_ok, g1, e], .delMap h1 hds, ?_, ?_⟩
      · rw [← hw]; exact I'
      · rw [← hw]; exact K.delMap h1

/-- the answer determines what there is afterwards -/
theorem Step.det {A A1 A2 : Abs} {op op2 : Op} {out out2 : Out} (h1 : Step text A op out A1) (h2 : Step text A op2 out2 A2)
    (ho : op = op2) (hq : out = out2) : A1 = A2 := by
  cases h1 <;> cases h2 <;> (try cases ho) <;> (try cases hq) <;> first | rfl | grind

theorem Inv_mk : Inv text stateMk [] (fun _ => none) (fun _ => none) where
  chain := ⟨true, Chain.Props.Inv_mk⟩
  dom := by simp
  own := by simp [stateMk]
  ownL := by simp
  sep := by simp [stateMk]
  fin := ⟨[], by simp [stateMk]⟩
  holds := by simp

theorem Reach.inv (hal : al.Sound) {s : St} {A : Abs} (h : Reach al text s A) : ∃ L G, Inv text s L A G ∧ Links A := by
  induction h with
  | mk => exact ⟨[], _, Inv_mk, by simp [Links]⟩
  | step h hl he hs ih =>
    obtain ⟨L, G, I, K⟩ := ih
    rcases step_ok hal I K hl with ⟨s', out, A', L', G', e, h', I', K'⟩ | ⟨_, _, _, s', rfl, e, _⟩ | ⟨_, e, _⟩
    · rw [e] at he
      simp only [Res.ok.injEq, Prod.mk.injEq] at he
      obtain ⟨rfl, rfl⟩ := he
      rw [hs.det h' rfl rfl]
      exact ⟨L', G', I', K'⟩
    · rw [e] at he
      simp only [Res.ok.injEq, Prod.mk.injEq] at he
      obtain ⟨rfl, rfl⟩ := he
      cases hs
    · rw [e] at he; simp at he

theorem treeAddrs_ok {s : St} {root : Nat} {key : Nat → Nat} {cmp : Nat → Nat → Int} {xs : List Nat} {own : Nat → Prop}
    (h : TreeIn (nodes s.mem) root key cmp xs own) (hn : xs.length < 2 ^ 64) (b : Nat) : b ∈ treeAddrs s 96 root ↔ own b := by
  obtain ⟨t, a, hi, hs, hp, hb⟩ := h
  have hr : root = TreeMem.addr t := a.ctx
  have key : ∀ (t : TreeMem.LT Nat) fuel, TreeMem.Holds (nodes s.mem) t → Tree.realHeight t < fuel →
      treeAddrs s fuel (TreeMem.addr t) = TreeMem.addrs t := by
    intro t
    induction t with
    | nil =>
      intro fuel _ hf
      obtain ⟨n, rfl⟩ : ∃ n, fuel = n + 1 := ⟨fuel - 1, by omega⟩
      rfl
    | node k a0 a1 hh ih0 ih1 =>
      intro fuel hH hf
      obtain ⟨n, rfl⟩ : ∃ n, fuel = n + 1 := ⟨fuel - 1, by omega⟩
      obtain ⟨h0, h1, h2, h3⟩ := hH
      simp only [Tree.realHeight] at hf
      rw [nodes_some] at h1
      rw [show TreeMem.addr (.node k a0 a1 hh) = k.1 from rfl, treeAddrs, if_neg h0, h1]
      simp only [ih0 n h2 (by omega), ih1 n h3 (by omega), TreeMem.addrs]
  rw [hr, key t 96 a.holds (height_lt hi hp hn), hb b]

theorem Inv.blocks {s : St} {L : List Nat} {A : Abs} {G : Nat → Option Nat} (I : Inv text s L A G) {p : Nat} {x : SObj}
    (hp : A p = some x) (hx : x.real) (b : Nat) : b ∈ blocks s p ↔ G b = some p := by
  have h := I.holds p x hp
  cases x with
  | plain => simp [Props.blocks, h.1, h.2 b]
  | gone => exact hx.elim
  | frozen o f => exact hx.elim
  | list o xs =>
    obtain ⟨size, cap, a, cs, g1, g2, g3, g4⟩ := h
    simp [Props.blocks, g1, g4 b]
  | dict pol k v adds =>
    obtain ⟨t, e, m, u, es, g1, g2, g3, g4, g5, g6⟩ := h
    simp [Props.blocks, g1, g2, g6 b]
  | pair o k v => simp [Props.blocks, h.1, h.2 b]
  | set pol cmp xs =>
    obtain ⟨_, g1, root, g2, T⟩ := h
    rw [Props.blocks, g2]
    exact treeAddrs_ok T (by omega) b
  | map kp vp cmp k es =>
    obtain ⟨_, g1, root, g2, T⟩ := h
    rw [Props.blocks, g2]
    exact treeAddrs_ok T (by simp; omega) b

/-- no block is left half made or half deleted -/
theorem Reach.real {s : St} {A : Abs} (h : Reach al text s A) (p : Nat) (x : SObj) : A p = some x → x.real := by
  induction h with
  | mk => simp
  | step h hl he hs ih =>
    cases hs <;> (try simp only [upd]) <;> (repeat' split) <;> first | exact ih | (intro hx; cases hx; trivial) | simp

/-! ## The property -/

/-- **C113, the calls.**  In every reachable state every legal call ends without undefined behaviour, with the right
answer, and leaves a reachable state, however lists and tables have been moved by growth; except that `cee_dict_mk` returns
NULL, or `cee_dict_add`, `cee_set_add` and `cee_map_add` crash on purpose, when there is no memory for the table or the node. -/
theorem C113_partial (hal : al.Sound) {s : St} {A : Abs} (h : Reach al text s A) {op : Op} (hl : Legal A op) :
    (∃ s' out A', exec al text s op = .ok (s', out) ∧ Step text A op out A' ∧ Reach al text s' A') ∨
    (∃ pol size hsize s', op = .dictMk pol size hsize ∧ exec al text s op = .ok (s', .null) ∧
      ((∃ i, al.fails i = true) ∨ 2 ^ 64 ≤ Hash.tabSize hsize * 16)) ∨
    (((∃ d key value, op = .add d key value) ∨ (∃ p val, op = .setAdd p val) ∨ ∃ m key value, op = .mapAdd m key value) ∧
      exec al text s op = .segv ∧ ∃ i, al.fails i = true) := by
  obtain ⟨L, G, I, K⟩ := h.inv hal
  rcases step_ok hal I K hl with ⟨s', out, A', L', G', e, h', I', K'⟩ | h' | h'
  · exact .inl ⟨s', out, A', e, h', h.step hl e h'⟩
  · exact .inr (.inl h')
  · exact .inr (.inr h')

/-- **C113, the private memory.**  In every reachable state the blocks of the chain are the containers of the history and
the state; the private blocks in use are exactly those of the containers, no two containers share one, and none is a block
of the chain. -/
theorem C113_owner (hal : al.Sound) {s : St} {A : Abs} (h : Reach al text s A) :
    (∀ p, s.ch.live p = true ↔ p = 0 ∨ A p ≠ none) ∧
    (∀ b, s.mem b ≠ none ↔ ∃ p, A p ≠ none ∧ b ∈ blocks s p) ∧
    (∀ p q b, A p ≠ none → A q ≠ none → b ∈ blocks s p → b ∈ blocks s q → p = q) ∧
    (∀ b, s.mem b ≠ none → s.ch.live b = false) := by
  obtain ⟨L, G, I, K⟩ := h.inv hal
  have hb : ∀ p, A p ≠ none → ∀ b, b ∈ blocks s p ↔ G b = some p := by
    intro p hp b
    obtain ⟨x, hx⟩ := Option.ne_none_iff_exists'.1 hp
    exact Inv.blocks I hx (h.real p x hx) b
  refine ⟨fun p => by rw [I.live p, I.dom p], fun b => ?_, fun p q b hp hq h1 h2 => ?_, I.sep⟩
  · rw [I.own b]
    constructor
    · intro hg
      obtain ⟨p, hp⟩ := Option.ne_none_iff_exists'.1 hg
      exact ⟨p, (I.dom p).2 (I.ownL b p hp), (hb p ((I.dom p).2 (I.ownL b p hp)) b).2 hp⟩
    · rintro ⟨p, hp, h1⟩
      simp [(hb p hp b).1 h1]
  · have h1 := (hb p hp b).1 h1
    rw [(hb q hq b).1 h2] at h1
    simpa using h1.symm

/-- **C113, the end.**  Deleting the state in a reachable state ends, after as many rounds as there are containers, and frees
every block of the chain and every private block. -/
theorem C113_delState (hal : al.Sound) {s : St} {A : Abs} (h : Reach al text s A) :
    ∃ L : List Nat, L.Nodup ∧ (∀ p, p ∈ L ↔ A p ≠ none) ∧ ∃ s', delState (L.length + 1) s = .ok (some s') ∧
      (∀ p, s'.ch.live p = false) ∧ ∀ b, s'.mem b = none := by
  obtain ⟨L, G, I, K⟩ := h.inv hal
  obtain ⟨c, hc⟩ := I.chain
  obtain ⟨s', e, h1, h2⟩ := delState_ok _ I h.real rfl
  exact ⟨L, (List.nodup_cons.1 hc.links.nodup).2, fun p => (I.dom p).symm, s', e, h1, h2⟩

/-- **C113 fails when `cee_dict_mk` does.**  It frees the block of the dictionary but leaves it in the chain
(dict.c:77-80): from then on deleting the state is undefined, and so is the next allocation, unless it gets the address of
that very block; and then deleting the state still is. -/
theorem C113_null_false (hal : al.Sound) {s : St} {A : Abs} (h : Reach al text s A) {pol : Policy} {size hsize : Nat}
    (hs : size < 2 ^ 60) {s' : St} (he : exec al text s (.dictMk pol size hsize) = .ok (s', .null)) :
    (∀ fuel, delState (fuel + 1) s' = .ub) ∧
    (exec al text s' .plain = .ub ∨
      ∃ s'', exec al text s' .plain = .ok (s'', .new s'.ch.tail) ∧ ∀ fuel, delState (fuel + 2) s'' = .ub) := by
  obtain ⟨L, G, I, K⟩ := h.inv hal
  rcases dictMk_ok (text := text) hal I pol hs hsize with
    ⟨s1, d, k, v, G', e, d0, ⟨t, ho⟩, _⟩ | ⟨s1, d, e, d0, h1, h2, h3, h4, why⟩
  · simp only [exec, e, Res.bind_ok, ho, d0, if_false] at he
    simp at he
  · have : s1 = s' := by
      simp only [exec, e, Res.bind_ok, Res.ok.injEq, Prod.mk.injEq] at he
      exact he.1
    subst this
    refine ⟨fun fuel => ?_, ?_⟩
    · rw [delState, h1, if_neg d0, traceFree, getObj, h2]; rfl
    · by_cases hr : al.addr s1.n (used s1) = d
      · right
        refine ⟨⟨⟨upd s1.ch.live d true, upd (upd s1.ch.next d none) d (some d), upd (upd s1.ch.prev d none) d (some d), d⟩,
          upd s1.obj d .plain, s1.mem, s1.n + 1⟩, ?_, fun fuel => ?_⟩
        · simp [exec, plainMk, mkObj, hr, Chain.alloc, Chain.chain, Chain.setPrev, Chain.setNext, upd_same, h1, Res.bind_ok,
            Bind.bind, Pure.pure]
        · simp [delState, d0, traceFree, getObj, upd_same, plainFree, deChain, Chain.deChain, Chain.setNext, freeObj, Chain.free,
            Res.bind_ok, Bind.bind, Pure.pure, Res.bind]
      · left
        simp [exec, plainMk, mkObj, Chain.alloc, Chain.chain, Chain.setPrev, Chain.setNext, h1, Bind.bind, Pure.pure,
          Res.bind, upd, Ne.symm hr, h2]

/-- **C113 fails for sets with members.**  `cee_del` of a set that is not empty is undefined: the function that deletes the elements reads
the policy through NULL (set.c:26, 53-57). -/
theorem C113_setDel_false (hal : al.Sound) {s : St} {A : Abs} (h : Reach al text s A) {p : Nat} {pol : Policy} {cmp : Nat → Nat → Int}
    {xs : List Nat} (hp : A p = some (.set pol cmp xs)) (hx : xs ≠ []) : exec al text s (.del p) = .ub := by
  obtain ⟨L, G, I, K⟩ := h.inv hal
  obtain ⟨_, _, root, g1, _⟩ := I.holds p _ hp
  simp only [exec, I.getObj hp, Res.bind_ok, g1, (setDel_ok I hp).2 hx, Res.bind]

/-! ## The hypotheses are met -/

/-- an allocator that returns the addresses 1, 2, ... unless they are in use, and some free address otherwise -/
noncomputable def counting (fails : Nat → Bool) : Malloc :=
  ⟨fails, fun i u => if u (i + 1) = false then i + 1 else
    open Classical in if h : ∃ p, p ≠ 0 ∧ u p = false then Classical.choose h else 1⟩

theorem counting_sound (fails : Nat → Bool) : (counting fails).Sound := by
  intro i u l hl
  have h : ∃ p, p ≠ 0 ∧ u p = false := by
    refine ⟨l.sum + 1, by omega, ?_⟩
    cases hu : u (l.sum + 1) with
    | false => rfl
    | true =>
      exfalso
      have : ∀ (l : List Nat) x, x ∈ l → x ≤ l.sum := by
        intro l
        induction l with
        | nil => simp
        | cons a l ih =>
          intro x hx
          rcases List.mem_cons.1 hx with rfl | hx
          · simp
          · have := ih x hx; simp; omega
      have := this l _ (hl _ hu)
      omega
  simp only [counting]
  split
  · next h1 => exact ⟨by omega, h1⟩
  · exact Classical.choose_spec h

/-- texts of the keys: the pointers 100 and 101 point to equal texts -/
def demoText (p : Nat) : Hash.Key := if p = 101 then [100] else [UInt8.ofNat p]

/-- if no allocation fails, the calls that make nothing succeed -/
theorem go (hal : al.Sound) (hf : ∀ i, al.fails i = false) {s : St} {A A' : Abs} (h : Reach al text s A) {op : Op}
    (hl : Legal A op) (hd : ∀ pol size hsize, op ≠ .dictMk pol size hsize) {out : Out} (hs : Step text A op out A')
    (hu : ∀ out' A', Step text A op out' A' → out' = out) : ∃ s', Reach al text s' A' := by
  rcases C113_partial hal h hl with ⟨s', out', A'', _, h1, h2⟩ | ⟨pol, size, hsize, s', e, _⟩ | ⟨_, _, i, h'⟩
  · rw [hs.det h1 rfl (hu _ _ h1).symm]; exact ⟨s', h2⟩
  · exact absurd e (hd _ _ _)
  · rw [hf i] at h'; simp at h'

/-- A reachable state with a list that grew twice, and a dictionary to which two equal keys were added; the second is
found with the first value, and deleting the dictionary takes its lists along. -/
example : (counting fun _ => false).Sound ∧ ∃ s A, Reach (counting fun _ => false) demoText s A ∧
    A 1 = some (.list none [some 50, some 52]) ∧ A 7 = some (.dict .rc 3 5 [(100, 200), (101, 201)]) ∧
    Step demoText A (.find 7 101) (.ptr 200) A ∧
    Step demoText A (.del 7) (.dels [some 100, some 101, some 200, some 201]) (upd (upd (upd A 3 none) 5 none) 7 none) := by
  have hs := counting_sound fun _ => false
  have hf : ∀ i, (counting fun _ => false).fails i = false := fun _ => rfl
  have r1 := Reach.step (al := counting fun _ => false) (text := demoText) (op := .listMk 0) (out := .new 1) .mk
    (by simp [Legal]) rfl (.listMk (by simp) rfl)
  have r2 := r1.step (op := .dictMk .rc 4 5) (out := .newDict 7 3 5) (by simp [Legal]) rfl
    (.dictMk (by simp) rfl rfl rfl (by simp) (by simp) (by simp))
  have r3 := r2.step (op := .plain) (out := .new 10) (by simp [Legal]) rfl (.plain (by simp) rfl)
  obtain ⟨_, r4⟩ := go (op := .append 1 50) hs hf r3 ⟨_, rfl, by simp⟩ (by simp) (.append rfl) (by rintro _ _ ⟨⟩; rfl)
  obtain ⟨_, r5⟩ := go (op := .insert 1 (1 : Nat) 52) hs hf r4 ⟨_, rfl, by simp, by simp, by simp⟩ (by simp) (.insert rfl)
    (by intro _ _ h; generalize ho : Op.insert 1 (1 : Nat) 52 = o at h; cases h <;> simp at ho; rfl)
  obtain ⟨_, r6⟩ := go (op := .add 7 100 200) hs hf r5 ⟨_, _, _, _, rfl, by simp, by simp, by simp⟩ (by simp) (.add rfl)
    (by rintro _ _ ⟨⟩; rfl)
  obtain ⟨_, r7⟩ := go (op := .add 7 101 201) hs hf r6 ⟨_, _, _, _, rfl, by simp, by simp, by simp⟩ (by simp) (.add rfl)
    (by rintro _ _ ⟨⟩; rfl)
  refine ⟨hs, _, _, r7, rfl, rfl, ?_, ?_⟩
  · exact Step.find (adds := [(100, 200), (101, 201)]) rfl
  · exact Step.delDict (adds := [(100, 200), (101, 201)]) rfl (by simp)

/-- `cee_dict_mk` does return NULL: the sixth allocation (the table) fails -/
example : ∃ s', exec (counting fun i => i == 5) demoText stateMk (.dictMk .rc 4 5) = .ok (s', .null) := ⟨_, rfl⟩

/-- numeric order of pointers -/
def byAddr (a b : Nat) : Int := (a : Int) - b

theorem byAddr_ord : Map.Spec.IsOrd byAddr := ⟨by simp [byAddr], by intro a b; simp [byAddr], by intro a b c; simp [byAddr]; omega⟩

/-- a new key, if no allocation fails -/
theorem goNew (hal : al.Sound) (hf : ∀ i, al.fails i = false) {s : St} {A : Abs} (h : Reach al text s A) {m key value k : Nat}
    {kp vp : Policy} {cmp : Nat → Nat → Int} {es : List Bind} (hm : A m = some (.map kp vp cmp k es)) (h0 : key ≠ 0) (hv : value ≠ 0)
    (hlen : es.length < 2 ^ 31) (hno : ∀ e ∈ es, cmp key e.key ≠ 0) :
    ∃ s' t, t ≠ 0 ∧ A t = none ∧ Reach al text s' (withNew A m kp vp cmp k es t key value) := by
  rcases C113_partial hal h (op := .mapAdd m key value) ⟨_, _, _, _, _, hm, hlen, fun _ => hv⟩ with
    ⟨s', out', A'', _, h1, h2⟩ | ⟨pol, size, hsize, s', e, _⟩ | ⟨_, _, i, h'⟩
  · cases h1 with
    | mapNull => exact absurd rfl h0
    | mapOld a1 a2 a3 =>
      rw [hm] at a2
      simp only [Option.some.injEq, SObj.map.injEq] at a2
      obtain ⟨rfl, rfl, rfl, rfl, rfl⟩ := a2
      exact absurd (by simpa using List.find?_some a3) (hno _ (List.mem_of_find?_eq_some a3))
    | mapNew a1 a2 a3 a4 a5 =>
      rw [hm] at a2
      simp only [Option.some.injEq, SObj.map.injEq] at a2
      obtain ⟨rfl, rfl, rfl, rfl, rfl⟩ := a2
      exact ⟨s', _, a4, a5, h2⟩
  · simp at e
  · rw [hf i] at h'; simp at h'

/-- a key that is there -/
theorem goOld (hal : al.Sound) (hf : ∀ i, al.fails i = false) {s : St} {A : Abs} (h : Reach al text s A) {m key value k : Nat}
    {kp vp : Policy} {cmp : Nat → Nat → Int} {es : List Bind} (hm : A m = some (.map kp vp cmp k es)) (h0 : key ≠ 0) (hv : value ≠ 0)
    (hlen : es.length < 2 ^ 31) {e : Bind} (he : bindOf cmp es key = some e) :
    ∃ s', Reach al text s' (withOld A m kp vp cmp k es e key value) := by
  rcases C113_partial hal h (op := .mapAdd m key value) ⟨_, _, _, _, _, hm, hlen, fun _ => hv⟩ with
    ⟨s', out', A'', _, h1, h2⟩ | ⟨pol, size, hsize, s', e, _⟩ | ⟨_, _, i, h'⟩
  · cases h1 with
    | mapNull => exact absurd rfl h0
    | mapOld a1 a2 a3 =>
      rw [hm] at a2
      simp only [Option.some.injEq, SObj.map.injEq] at a2
      obtain ⟨rfl, rfl, rfl, rfl, rfl⟩ := a2
      have : bindOf cmp es key = some _ := a3
      rw [he, Option.some.injEq] at this
      subst this
      exact ⟨s', h2⟩
    | mapNew a1 a2 a3 a4 a5 =>
      rw [hm] at a2
      simp only [Option.some.injEq, SObj.map.injEq] at a2
      obtain ⟨rfl, rfl, rfl, rfl, rfl⟩ := a2
      exact absurd (bindOf_mem he).2 (a3 _ (bindOf_mem he).1)
  · simp at e
  · rw [hf i] at h'; simp at h'

/-- A reachable state with a set to which three elements, two of them equal, were added, and a map with two keys, one of them
added twice; what finding, removing and deleting then give. -/
example : ∃ s A t u, Reach (counting fun _ => false) demoText s A ∧ Map.Spec.IsOrd byAddr ∧ t ≠ u ∧
    A 1 = some (.set .rc byAddr [60, 50]) ∧ A 4 = some (.map .rc .rc byAddr 2 [⟨70, 82, t⟩, ⟨71, 81, u⟩]) ∧
    A 2 = some (.list (some 4) [some 70, some 71]) ∧ A t = some (.pair 4 70 82) ∧
    Step demoText A (.mapFind 4 70) (.ptr 82) A ∧
    (∃ A', Step demoText A (.mapRemove 4 70) (.ptr 82) A' ∧ A' 2 = some (.list (some 4) [some 71]) ∧ A' t = none) ∧
    ∃ A', Step demoText A (.del 4) (.dels [some 70, some 71, some 71, some 81, some 70, some 82]) A' ∧ A' t = none ∧ A' 2 = none := by
  have hs := counting_sound fun _ => false
  have hf : ∀ i, (counting fun _ => false).fails i = false := fun _ => rfl
  have r1 := Reach.step (al := counting fun _ => false) (text := demoText) (op := .setMk .rc byAddr) (out := .new 1) .mk
    byAddr_ord rfl (.setMk (by simp) rfl)
  have r2 := r1.step (op := .mapMk .rc .rc byAddr) (out := .newMap 4 2) byAddr_ord rfl
    (.mapMk (by simp) rfl rfl (by simp))
  obtain ⟨_, r3⟩ := go (op := .setAdd 1 60) hs hf r2 ⟨_, _, _, rfl, by simp, by simp⟩ (by simp) (.setAdd rfl) (by rintro _ _ ⟨⟩; rfl)
  obtain ⟨_, r4⟩ := go (op := .setAdd 1 50) hs hf r3 ⟨_, _, _, rfl, by decide, by simp⟩ (by simp) (.setAdd rfl) (by rintro _ _ ⟨⟩; rfl)
  obtain ⟨_, r5⟩ := go (op := .setAdd 1 60) hs hf r4 ⟨_, _, _, rfl, by decide, by simp⟩ (by simp) (.setAdd rfl) (by rintro _ _ ⟨⟩; rfl)
  obtain ⟨_, t, t0, tA, r6⟩ := goNew (m := 4) (key := 70) (value := 80) hs hf r5 rfl (by simp) (by simp) (by simp) (by simp)
  have t4 : t ≠ 4 := by rintro rfl; simp [upd] at tA
  have t2 : t ≠ 2 := by rintro rfl; simp [upd] at tA
  have t1 : t ≠ 1 := by rintro rfl; simp [upd] at tA
  obtain ⟨_, u, u0, uA, r7⟩ := goNew (m := 4) (key := 71) (value := 81) hs hf r6 rfl (by simp) (by simp) (by simp) (by simp [byAddr])
  have u4 : u ≠ 4 := by rintro rfl; simp [withNew, upd] at uA
  have u2 : u ≠ 2 := by rintro rfl; simp [withNew, upd] at uA
  have u1 : u ≠ 1 := by rintro rfl; simp [withNew, upd, t1.symm] at uA
  have ut : u ≠ t := by rintro rfl; simp [withNew, upd, t4, t2] at uA
  obtain ⟨_, r8⟩ := goOld (m := 4) (key := 70) (value := 82) (e := ⟨70, 80, t⟩) hs hf r7 rfl (by simp) (by simp) (by simp)
    (by simp [bindOf, byAddr])
  have h4 : ∀ B : Abs, withOld (withNew (withNew B 4 .rc .rc byAddr 2 [] t 70 80) 4 .rc .rc byAddr 2 [⟨70, 80, t⟩] u 71 81) 4 .rc .rc byAddr 2
      [⟨70, 80, t⟩, ⟨71, 81, u⟩] ⟨70, 80, t⟩ 70 82 4 = some (.map .rc .rc byAddr 2 [⟨70, 82, t⟩, ⟨71, 81, u⟩]) := by
    intro B; simp [withOld, upd, setVal, byAddr]
  refine ⟨_, _, t, u, r8, byAddr_ord, ut.symm, ?_, h4 _, ?_, ?_, ?_, ⟨_, .mapRemove (e := ⟨70, 82, t⟩) (by simp) (h4 _) ?_, ?_, ?_⟩,
    ⟨_, .delMap (ds := [some 71, some 81, some 70, some 82]) (h4 _) ?_, ?_, ?_⟩⟩
  · simp [withOld, withNew, upd, t1.symm, u1.symm, Set.Spec.insert, Set.Spec.member, byAddr]
  · simp [withOld, withNew, upd, t2.symm]
  · simp [withOld, upd, t4]
  · exact .mapFind (e := ⟨70, 82, t⟩) (by simp) (h4 _) (by simp [byAddr])
  · simp [byAddr]
  · simp [upd, byAddr]
  · simp [upd, t2]
  · simpa [ptr] using (List.perm_append_comm (l₁ := [some 71, some 81]) (l₂ := [some 70, some 82]))
  · simp
  · simp

end Verif.Own.Props
