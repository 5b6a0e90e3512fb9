import Verif.Spec.Passage
import Verif.Model.Rounded
import Mathlib.Order.Monotone.Basic

/-! What the theorems on floating-point arithmetic assume. -/

namespace Pooya

variable {K : Type}

/-- The order of the comparisons of the program. -/
@[reducible] def Arith.before (K : Type) [Arith K] : LT K := ⟨fun a b => (a <. b) = true⟩

/-- The time `u` comes after the time `t`, for the comparisons of the program, and their difference equals itself (`NaN` does not). -/
structure Later [Arith K] (t u : K) : Prop where
  lt : (t <. u) = true
  back : (u <. t) = false
  ne : (u ==. t) = false
  self : (u <. u) = false
  length : ((u -. t) <=. (u -. t)) = true

/-- Rounding: monotone, leaves representable numbers and 0 and 2 as they are, changes numbers up to `R` by at most `ρ`. -/
structure Rounding [Field K] [LinearOrder K] (rnd : K → K) (R ρ : K) : Prop where
  mono : Monotone rnd
  idem : ∀ x, rnd (rnd x) = rnd x
  zero : rnd 0 = 0
  two : rnd 2 = 2
  near : ∀ x, |x| ≤ R → |rnd x - x| ≤ ρ

end Pooya
