import Verif.Spec.Smooth
import Verif.Spec.Rounding

/-! Simulation of a drawing with errors: of the arithmetic, and of the numbers and functions the program gives to the blocks. -/

namespace Pooya

open Set

/-- Every operation, and the conversion of literals, errs by `ρ` at most, as long as the exact result is not larger than `R`; comparisons are exact. -/
structure Arith.Within (A : Arith ℝ) (R ρ : ℝ) : Prop where
  add : ∀ a b, |a + b| ≤ R → |A.add a b - (a + b)| ≤ ρ
  sub : ∀ a b, |a - b| ≤ R → |A.sub a b - (a - b)| ≤ ρ
  mul : ∀ a b, |a * b| ≤ R → |A.mul a b - a * b| ≤ ρ
  div : ∀ a b, b ≠ 0 → |a / b| ≤ R → |A.div a b - a / b| ≤ ρ
  lit : ∀ q : ℚ, |(q : ℝ)| ≤ R → |A.lit q - q| ≤ ρ
  lt : ∀ a b, A.lt a b = decide (a < b)
  le : ∀ a b, A.le a b = decide (a ≤ b)
  eq : ∀ a b, A.eq a b = decide (a = b)

/-- A block of the same class: its numbers differ by `ρ` at most, and so do the values of its functions, at times from `a` to `b` and for values up to `R`. -/
def Part.Within (R ρ a b : ℝ) : Part → Part → Prop
  | .const v, .const v' | .gain v, .gain v' | .add v, .add v' | .multiply v, .multiply v' | .integrator v, .integrator v' => |v' - v| ≤ ρ
  | .source f, .source f' => ∀ t ∈ Icc a b, |f' t - f t| ≤ ρ
  | .siso f, .siso f' | .func f, .func f' => ∀ t ∈ Icc a b, ∀ x, |x| ≤ R → |f' t x - f t x| ≤ ρ
  | .subtract, .subtract | .divide, .divide | .pipe, .pipe => True
  | .delay life, .delay life' => life' = life
  | _, _ => False

/-- The same blocks, connected in the same way, and the same inputs, up to such differences. -/
structure Sketch.Within (d : Sketch) (R ρ a b : ℝ) (d' : Sketch) : Prop where
  pieces : List.Forall₂ (fun p p' : Piece => p'.id = p.id ∧ p'.ins = p.ins ∧ p'.out = p.out ∧ p.part.Within R ρ a b p'.part) d.pieces d'.pieces
  inputs : List.Forall₂ (fun u u' : SigId × (ℝ → ℝ) => u'.1 = u.1 ∧ ∀ t ∈ Icc a b, |u'.2 t - u.2 t| ≤ ρ) d.inputs d'.inputs

/-- The program, with another method. -/
def Config.with (cfg : Config ℝ) (st : Stepper ℝ) : Config ℝ := { cfg with stepper := some st }

end Pooya
