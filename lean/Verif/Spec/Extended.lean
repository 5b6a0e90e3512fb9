import Verif.Spec.Rounding

/-! What the theorems on overflow assume of the arithmetic. -/

namespace Pooya

variable {K F : Type}

/-- The arithmetic of `K` has numbers, and computes with rounding as long as the exact results are at most `R`.  Nothing is said of larger results, of division by
zero, or of values that are no numbers (infinities, `NaN`). -/
structure Hosts [Arith K] [Field F] [LinearOrder F] (num : F → K) (rnd : F → F) (R : F) : Prop where
  add : ∀ x y, |x + y| ≤ R → num x +. num y = num (rnd (x + y))
  sub : ∀ x y, |x - y| ≤ R → num x -. num y = num (rnd (x - y))
  mul : ∀ x y, |x * y| ≤ R → num x *. num y = num (rnd (x * y))
  div : ∀ x y, y ≠ 0 → |x / y| ≤ R → num x /. num y = num (rnd (x / y))
  lt : ∀ x y, (num x <. num y) = decide (x < y)
  le : ∀ x y, (num x <=. num y) = decide (x ≤ y)
  eq : ∀ x y, (num x ==. num y) = decide (x = y)
  zero : Arith.lit 0 = num 0
  two : Arith.lit 2 = num 2

end Pooya
