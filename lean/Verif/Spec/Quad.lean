import Verif.Spec.Passage
import Mathlib.Algebra.Field.Defs

/-! Sums that approximate integrals. -/

namespace Pooya

/-- The methods of the library. -/
inductive Method
  | euler
  | rk4
  | rkf45

def Method.stepper {K : Type} [Arith K] : Method → Stepper K
  | .euler => Pooya.euler
  | .rk4 => Pooya.rk4
  | .rkf45 => Pooya.rkf45

variable {F : Type} [_root_.Field F]

/-- A rule for the integral of `g` from `s` to `u`: the value at the left end times the length for Euler, Simpson's rule for Rk4, and the rule with the coefficients of the
fourth-order formula of Runge, Kutta and Fehlberg for Rkf45. -/
def Method.rule (g : F → F) (s u : F) : Method → F
  | .euler => (u - s) * g s
  | .rk4 => (u - s) / 6 * (g s + 4 * g ((s + u) / 2) + g u)
  | .rkf45 => (u - s) * (25 / 216 * g s + 1408 / 2565 * g (s + 3 / 8 * (u - s)) + 2197 / 4104 * g (s + 12 / 13 * (u - s)) - 1 / 5 * g u)

/-- The number `r` is the sum of the rules from the time `t` by way of the given times, when the integrand is `φ s` in the step that begins at `s`.  From each time to the
next there are steps that follow each other (one step for Euler and Rk4). -/
inductive Method.Sums [LT F] (M : Method) (φ : F → F → F) : F → List F → F → Prop
  | nil {t : F} : Sums M φ t [] 0
  | cons {t u r : F} {us : List F} (steps : List (F × F)) : Tiles t u steps → (M ≠ .rkf45 → steps = [(t, u)]) → Sums M φ u us r →
      Sums M φ t (u :: us) ((steps.map fun p => M.rule (φ p.1) p.1 p.2).sum + r)

/-- The sum of the lengths of the intervals times the values at their left ends. -/
def leftSum (f : F → F) : F → List F → F
  | _, [] => 0
  | t, u :: us => (u - t) * f t + leftSum f u us

/-- Simpson's rule, applied to each of the intervals. -/
def simpsonSum (f : F → F) : F → List F → F
  | _, [] => 0
  | t, u :: us => (u - t) / 6 * (f t + 4 * f ((t + u) / 2) + f u) + simpsonSum f u us

end Pooya
