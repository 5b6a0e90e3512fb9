import Mathlib.Algebra.Order.Field.Basic
import Mathlib.Algebra.Order.Group.Unbundled.Abs
import Mathlib.Data.Rat.Cast.Defs
import Mathlib.Data.Rat.Cast.Order
import Mathlib.Algebra.Order.Ring.Rat
import Verif.Model.Base

/-! Exact arithmetic: the operations of an ordered field, for the numerical properties. -/

namespace Pooya

/-- Exact arithmetic in an ordered field (an idealisation of `double`). -/
@[reducible] def Arith.exact (K : Type) [Field K] [LinearOrder K] : Arith K where
  add := (· + ·)
  sub := (· - ·)
  mul := (· * ·)
  div := (· / ·)
  abs x := |x|
  lt a b := decide (a < b)
  le a b := decide (a ≤ b)
  eq a b := decide (a = b)
  lit q := (q : K)

/-- Exact arithmetic in which a division by zero has the value `bad`: a computation whose result does not depend on `bad`
does not use a division by zero. -/
@[reducible] def exactBad {K : Type} [Field K] [LinearOrder K] (bad : K) : Arith K :=
  { Arith.exact K with div := fun a b => if b = 0 then bad else a / b }

/-- The rationals, for concrete examples. -/
instance : Arith ℚ := Arith.exact ℚ

section
variable {K : Type} [Field K] [LinearOrder K]
attribute [local instance] Arith.exact

@[simp] theorem exact_add (a b : K) : a +. b = a + b := rfl
@[simp] theorem exact_sub (a b : K) : a -. b = a - b := rfl
@[simp] theorem exact_mul (a b : K) : a *. b = a * b := rfl
@[simp] theorem exact_div (a b : K) : a /. b = a / b := rfl
@[simp] theorem exact_abs (a : K) : Arith.abs a = |a| := rfl
@[simp] theorem exact_lt (a b : K) : (a <. b) = decide (a < b) := rfl
@[simp] theorem exact_le (a b : K) : (a <=. b) = decide (a ≤ b) := rfl
@[simp] theorem exact_eq (a b : K) : (a ==. b) = decide (a = b) := rfl
@[simp] theorem exact_lit (q : ℚ) : (Arith.lit q : K) = (q : K) := rfl

end
end Pooya
