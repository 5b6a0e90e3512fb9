import Verif.Spec.Linear

/-! Diagrams at different times. -/

namespace Pooya

section
variable {F I : Type} [_root_.Field F]

/-- What the user's functions compute is the same at the times `t + c i`, for all `t`. -/
def Leaf.Steady (c : I → F) (l : Leaf F) : Prop :=
  match l.kind with
  | .source f _ => ∀ t i j, f (t + c i) = f (t + c j)
  | .sources f _ => ∀ t i j, f (t + c i) = f (t + c j)
  | .siso f _ _ => ∀ t i j v, f (t + c i) v = f (t + c j) v
  | .so f _ _ => ∀ t i j vs, f (t + c i) vs = f (t + c j) vs
  | .func f _ _ => ∀ t i j vs, f (t + c i) vs = f (t + c j) vs
  | _ => True

/-- The members of a block with all times in them later by `d`. -/
def Mem.later (d : F) (m : Mem F) : Mem F := { m with t := m.t.map (· + d), ts := m.ts.map (· + d) }

/-- `w` is `-v`, for arrays coefficient by coefficient. -/
inductive Val.Opposite : Val F → Val F → Prop
  | scalar (x : F) : Opposite (.scalar x) (.scalar (-x))
  | array (xs : List F) : Opposite (.array xs) (.array (xs.map (-·)))

end

end Pooya
