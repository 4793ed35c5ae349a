import Verif.List.Model

/-!
# Model of `musl-hsearch.c` and `dict.c`

Keys are the C strings' contents (bytes before the terminating NUL), compared with `strcmp`, i.e.
by equality of contents.  An entry whose `key` pointer is NULL is `none` (its `data` is never read).
The probe loops `for (i = hash, j = 1; ; i += j++)` have no bound in C; here they run for at most as
many rounds as there are slots and give the bad outcome `ub` when still running.  Accesses outside
the entry array are `ub`.  `calloc` of the entry array may fail: each operation that may allocate
takes a Boolean telling whether the allocator has memory.
-/

namespace Verif.Hash

/-- contents of a C string -/
abbrev Key := List UInt8

variable {V : Type}

/-- `MUSL_ENTRY` (musl-search.h); `none` when `key == NULL`. -/
abbrev Entry (V : Type) := Option (Key × V)

/-- `struct __tab` (musl-hsearch.c:24-28). -/
structure Tab (V : Type) where
  entries : List (Entry V)
  mask : Nat
  used : Nat

/-- `keyhash` (musl-hsearch.c:38-46). -/
def keyhash (k : Key) : Nat := k.foldl (fun h b => add64 (mul64 31 h) b.toNat) 0

/-- the probe loop of `lookup` (musl-hsearch.c:95-99) and of `resize` (69-73): first slot of the
probe sequence for which `stop` holds. -/
def probe (stop : Entry V → Bool) (entries : List (Entry V)) (mask : Nat) : Nat → Nat → Nat → Res Nat
  | 0, _, _ => .ub
  | fuel + 1, i, j =>
    match entries[i &&& mask]? with
    | none => .ub
    | some e => if stop e then .ok (i &&& mask) else probe stop entries mask fuel (add64 i j) (add64 j 1)

/-- exit test of `lookup`: `!e->key || strcmp(e->key, key) == 0` (musl-hsearch.c:97) -/
def stopAt (key : Key) : Entry V → Bool
  | none => true
  | some (k, _) => k = key

/-- `lookup` (musl-hsearch.c:90-101): index of the slot found. -/
def lookup (t : Tab V) (key : Key) (hash : Nat) : Res Nat :=
  probe (stopAt key) t.entries t.mask (t.mask + 1) hash 1

/-- `for (newsize = MINSIZE; newsize < nel; newsize *= 2);` (musl-hsearch.c:58); `nel ≤ 2^63` so 60
doublings of 8 suffice -/
def newSize (nel : Nat) : Nat → Nat → Nat
  | 0, s => s
  | fuel + 1, s => if s < nel then newSize nel fuel (2 * s) else s

/-- the size chosen by `resize` (musl-hsearch.c:56-58), MINSIZE 8 and MAXSIZE 2^63 -/
def tabSize (nel : Nat) : Nat := newSize (min nel (2 ^ 63)) 60 8

/-- `calloc(newsize, 16)` succeeds: no overflow, and the allocator has memory -/
def callocOk (mem : Bool) (n : Nat) : Bool := mem && decide (n * 16 < 2 ^ 64)

/-- the copying loop of `resize` (musl-hsearch.c:67-75) -/
def rehash (mask : Nat) : List (Entry V) → List (Entry V) → Res (List (Entry V))
  | [], new => .ok new
  | none :: old, new => rehash mask old new
  | some (k, v) :: old, new =>
    match probe Option.isNone new mask (mask + 1) (keyhash k) 1 with
    | .ok p => rehash mask old (new.set p (some (k, v)))
    | .ub => .ub
    | .segv => .segv

/-- `resize` (musl-hsearch.c:48-78) for an existing table; `none` = returned 0, table as before. -/
def resize (mem : Bool) (nel : Nat) (t : Tab V) : Res (Option (Tab V)) :=
  if callocOk mem (tabSize nel) then
    match rehash (tabSize nel - 1) t.entries (List.replicate (tabSize nel) none) with
    | .ok es => .ok (some { t with entries := es, mask := tabSize nel - 1 })
    | .ub => .ub
    | .segv => .segv
  else .ok none

/-- `musl_hcreate_r` (musl-hsearch.c:110-123); `none` = returned 0. -/
def hcreate (mem : Bool) (nel : Nat) : Option (Tab V) :=
  if callocOk mem (tabSize nel) then some ⟨List.replicate (tabSize nel) none, tabSize nel - 1, 0⟩
  else none

/-- `musl_hsearch_r(item, FIND, ..)` (musl-hsearch.c:132-145): index of the entry, if any. -/
def hfind (t : Tab V) (key : Key) : Res (Option Nat) :=
  match lookup t key (keyhash key) with
  | .ok p =>
    match t.entries[p]? with
    | some (some _) => .ok (some p)
    | some none => .ok none
    | none => .ub
  | .ub => .ub
  | .segv => .segv

/-- `musl_hsearch_r(item, ENTER, ..)` (musl-hsearch.c:132-158): index of the entry (`none` =
returned 0) and the table.  On failure of `resize` the slot is cleared again. -/
def henter (mem : Bool) (t : Tab V) (key : Key) (v : V) : Res (Option Nat × Tab V) :=
  match lookup t key (keyhash key) with
  | .ok p =>
    match t.entries[p]? with
    | some (some _) => .ok (some p, t)
    | some none =>
      let t1 : Tab V := { t with entries := t.entries.set p (some (key, v)), used := add64 t.used 1 }
      if t1.mask - t1.mask / 4 < t1.used then
        match resize mem (mul64 2 t1.used) t1 with
        | .ok (some t2) =>
          match lookup t2 key (keyhash key) with
          | .ok q => .ok (some q, t2)
          | .ub => .ub
          | .segv => .segv
        | .ok none => .ok (none, { t1 with entries := t1.entries.set p none, used := decr64 t1.used })
        | .ub => .ub
        | .segv => .segv
      else .ok (some p, t1)
    | none => .ub
  | .ub => .ub
  | .segv => .segv

/-- `struct header` of dict.c (17-24) -/
structure Dict (V : Type) where
  keys : CList.CList Key
  vals : CList.CList V
  tab : Tab (Option V)

/-- `cee_dict_mk_e` (dict.c:53-82).  `hsize = (size_t)((float)size * 1.25)` is a parameter (floating
point is not modelled); the lists of keys and values have policy DEL_RC (`cee_list_mk`). -/
def mkE (mem : Bool) (size hsize : Nat) : Option (Dict V) :=
  match hcreate mem hsize with
  | some t => some ⟨CList.mkE .rc size, CList.mkE .rc size, t⟩
  | none => none

/-- `cee_dict_add` (dict.c:88-97). -/
def add [DecidableEq V] (mem : Bool) (d : Dict V) (key : Key) (value : Option V) : Res (Dict V) :=
  match henter mem d.tab key value with
  | .ok (none, _) => .segv
  | .ok (some _, t) => do
    let ks ← CList.append d.keys (some key)
    let vs ← CList.append d.vals value
    return ⟨ks, vs, t⟩
  | .ub => .ub
  | .segv => .segv

/-- `cee_dict_find` (dict.c:99-108); the message on stderr is not modelled. -/
def find (d : Dict V) (key : Key) : Res (Option V) :=
  match hfind d.tab key with
  | .ok (some p) =>
    match d.tab.entries[p]? with
    | some (some (_, v)) => .ok v
    | _ => .ub
  | .ok none => .ok none
  | .ub => .ub
  | .segv => .segv

end Verif.Hash
