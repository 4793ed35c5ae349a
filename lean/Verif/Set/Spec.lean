import Verif.Map.Spec

/-! # Specification of sets: lists of pairwise inequivalent elements -/

namespace Verif.Set.Spec

variable {E : Type}

/-- the member equal to a key -/
def member (cmp : E → E → Int) (l : List E) (k : E) : Option E := l.find? (fun e => cmp k e = 0)

/-- the first of two equal elements is kept -/
def insert (cmp : E → E → Int) (l : List E) (x : E) : List E :=
  if (member cmp l x).isSome then l else l ++ [x]

def erase (cmp : E → E → Int) (l : List E) (k : E) : List E := l.filter (fun e => cmp k e ≠ 0)

inductive Op (E : Type) where
  | add (x : E)
  | remove (x : E)
  | clear
  | find (x : E)

/-- abstract effect and returned pointer (`none` = NULL or void) -/
def step (cmp : E → E → Int) (l : List E) : Op E → Option E × List E
  | .add x => (none, insert cmp l x)
  | .remove x => (member cmp l x, erase cmp l x)
  | .clear => (none, [])
  | .find x => (member cmp l x, l)

def run (cmp : E → E → Int) (l : List E) : List (Op E) → List (Option E) × List E
  | [] => ([], l)
  | op :: ops =>
    let r := step cmp l op
    let r' := run cmp r.2 ops
    (r.1 :: r'.1, r'.2)

/-- no operation adds a pointer that is already stored -/
def NoReadd (cmp : E → E → Int) (l : List E) : List (Op E) → Prop
  | [] => True
  | .add x :: ops => x ∉ l ∧ NoReadd cmp (step cmp l (.add x)).2 ops
  | op :: ops => NoReadd cmp (step cmp l op).2 ops

end Verif.Set.Spec
