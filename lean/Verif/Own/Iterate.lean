import Verif.Own.Walk

/-!
# `cee_map_iterate` and `cee_set_iterate` with a callback that may change memory

The callback works on data of its own and on the memory of the state.
-/

namespace Verif.Own

variable {γ : Type}

/-- `S(apply_each)` (map.c:279-295): data of the callback, `ret`, memory -/
def applyMap (f : γ → St → Nat → Nat → Res (γ × St × Int)) (x : γ × St × Int) (t : Nat) : Res (γ × St × Int) :=
  if x.2.2 ≠ 0 then .ok x
  else (pairOf x.2.1 t).bind fun kv => f x.1 x.2.1 kv.1 kv.2

/-- `cee_map_iterate` (map.c:300-307): the data of the callback, the memory and the value returned -/
def mapIterate (f : γ → St → Nat → Nat → Res (γ × St × Int)) (c : γ) (s : St) (m : Nat) : Res (γ × St × Int) :=
  if m = 0 then .ok (c, s, 0)
  else
    (getObj s m).bind fun o =>
    match o with
    | .map _ _ _ _ root => walk (fun x => x.2.1) (applyMap f) 96 (c, s, 0) root
    | _ => .ub

/-- `cee_set_iterate` (set.c:228-253) -/
def setIterate (f : γ → St → Nat → Res (γ × St)) (c : γ) (s : St) (p : Nat) : Res (γ × St) :=
  if p = 0 then .ok (c, s)
  else
    (getObj s p).bind fun o =>
    match o with
    | .set _ _ root => walk Prod.snd (fun x v => f x.1 x.2 v) 96 (c, s) root
    | _ => .ub

end Verif.Own
