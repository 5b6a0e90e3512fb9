import Verif.Spec.Quad

/-! Simulated decay and oscillation. -/

namespace Pooya

variable {F : Type} [_root_.Field F]

/-- From the values `x` of some states at time `t` the method gets to the values `y` by way of the given times, in steps that follow each other (one step from time to time for Euler
and Rk4), when the derivatives of the states are `f` of the time and of the states. -/
inductive Method.Through [Arith F] [LT F] (M : Method) (f : F → List F → List F) : F → List F → List F → List F → Prop
  | nil {t : F} {x : List F} : Through M f t x [] x
  | cons {t u : F} {x y us : List F} (steps : List (F × F)) : Tiles t u steps → (M ≠ .rkf45 → steps = [(t, u)]) → Through M f u (M.stepper.over f x steps) us y →
      Through M f t x (u :: us) y

/-- The number `r` is the product of `γ` of the lengths of steps from the time `t` by way of the given times (one step from time to time for Euler and Rk4). -/
inductive Method.Grows [LT F] (M : Method) (γ : F → F) : F → List F → F → Prop
  | nil {t : F} : Grows M γ t [] 1
  | cons {t u r : F} {us : List F} (steps : List (F × F)) : Tiles t u steps → (M ≠ .rkf45 → steps = [(t, u)]) → Grows M γ u us r →
      Grows M γ t (u :: us) ((steps.map fun p => γ (p.2 - p.1)).prod * r)

/-- What a step multiplies a solution of `x' = c x` by, where `z` is `c` times the length of the step. -/
def Method.factor (z : F) : Method → F
  | .euler => 1 + z
  | .rk4 => 1 + z + z ^ 2 / 2 + z ^ 3 / 6 + z ^ 4 / 24
  | .rkf45 => 1 + z + z ^ 2 / 2 + z ^ 3 / 6 + z ^ 4 / 24 + z ^ 5 / 104

/-- What a step multiplies the energy of the oscillator `x'' = - k x` by, where `w` is `k` times the square of the length of the step. -/
def Method.energy (w : F) : Method → F
  | .euler => 1 + w
  | .rk4 => 1 - w ^ 3 / 72 + w ^ 4 / 576
  | .rkf45 => 1 + 5 / 936 * w ^ 3 - 11 / 7488 * w ^ 4 + w ^ 5 / 10816

/-- The signal `d` is `c` times the signal `x`, whenever the equations of the diagram hold. -/
def Proportional [Arith F] (cfg : Config F) (ps : List (Wire F)) (c : F) (x d : SigId) : Prop :=
  ∀ (V : Vars) (mem : BlkId → Mem F) (t : F) (y : List F) (val : SigId → Option (Val F)) (v : F),
    (∀ s, s ∈ V.scalars ++ V.arrays ↔ ∃ p ∈ ps, p.obj.isState = true ∧ p.Gives s) → Solution cfg V mem t y val → val x = some (.scalar v) → val d = some (.scalar (c * v))

end Pooya
