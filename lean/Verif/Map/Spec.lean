import Verif.Base

/-!
# Specification of maps: insertion-ordered association lists

Independent of the tree: a map is the list of its bindings in insertion order; two keys are the
same key when the comparator returns 0.
-/

namespace Verif.Map.Spec

variable {K V : Type}

/-- A comparator is a total (pre)order: what `cee_map_mk` asks of its `cmp` argument
(cee.h:383-390). -/
structure IsOrd (cmp : K → K → Int) : Prop where
  refl : ∀ a, cmp a a = 0
  swap : ∀ a b, cmp a b < 0 ↔ cmp b a > 0
  trans : ∀ a b c, cmp a b ≤ 0 → cmp b c ≤ 0 → cmp a c ≤ 0

/-- bindings in insertion order -/
abbrev SMap (K V : Type) := List (K × Option V)

/-- value of a key (`none` = NULL: absent or bound to NULL) -/
def lookup (cmp : K → K → Int) (l : SMap K V) (k : K) : Option V :=
  match l.find? (fun e => cmp k e.1 = 0) with
  | some e => e.2
  | none => none

def present (cmp : K → K → Int) (l : SMap K V) (k : K) : Prop := ∃ e ∈ l, cmp k e.1 = 0

instance (cmp : K → K → Int) (l : SMap K V) (k : K) : Decidable (present cmp l k) := by
  unfold present; infer_instance

/-- replace the value of a present key, keeping its position; append an absent key -/
def insert (cmp : K → K → Int) (l : SMap K V) (k : K) (v : Option V) : SMap K V :=
  if present cmp l k then l.map (fun e => if cmp k e.1 = 0 then (e.1, v) else e)
  else l ++ [(k, v)]

/-- remove a key -/
def erase (cmp : K → K → Int) (l : SMap K V) (k : K) : SMap K V :=
  l.filter (fun e => cmp k e.1 ≠ 0)

/-- the user-visible operations of a map -/
inductive Op (K V : Type) where
  | add (k : Option K) (v : Option V)
  | addE (k : Option K) (v : Option V) (merge : Option V → Option V → Option V)
  | remove (k : Option K)
  | rename (k k' : Option K)
  | find (k : Option K)
  | size

inductive Out (V : Type) where
  | ptr (v : Option V)
  | num (n : Nat)
  | bool (b : Bool)
  deriving DecidableEq, Repr

/-- what an operation returns and does -/
def step (cmp : K → K → Int) (l : SMap K V) : Op K V → Out V × SMap K V
  | .add none _ => (.ptr none, l)
  | .add (some k) v => (.ptr (lookup cmp l k), insert cmp l k v)
  | .addE none _ _ => (.ptr none, l)
  | .addE (some k) v f =>
    (.ptr (lookup cmp l k),
      if present cmp l k then insert cmp l k (f (lookup cmp l k) v) else insert cmp l k v)
  | .remove none => (.ptr none, l)
  | .remove (some k) => (.ptr (lookup cmp l k), erase cmp l k)
  | .rename (some k) (some k') =>
    -- a key bound to a non-NULL value is replaced by the new key (at the end of the order); the
    -- code reports `false` for an absent key, and also drops a binding to NULL
    match lookup cmp l k with
    | some v => (.bool true, insert cmp (erase cmp l k) k' (some v))
    | none => (.bool false, erase cmp l k)
  | .rename _ _ => (.bool false, l)
  | .find none => (.ptr none, l)
  | .find (some k) => (.ptr (lookup cmp l k), l)
  | .size => (.num l.length, l)

def run (cmp : K → K → Int) (l : SMap K V) : List (Op K V) → List (Out V) × SMap K V
  | [] => ([], l)
  | op :: ops =>
    let r := step cmp l op
    let r' := run cmp r.2 ops
    (r.1 :: r'.1, r'.2)

/-- operations respecting the ownership rule: a NULL value may only be stored in a map whose value
policy does not touch the value (`CEE_DP_NOOP`) -/
def Op.legal (vpol : Policy) : Op K V → Prop
  | .add _ v => v ≠ none ∨ vpol = .noop
  | .addE _ v f => (v ≠ none ∧ ∀ o, f o v ≠ none) ∨ vpol = .noop
  | _ => True

end Verif.Map.Spec
