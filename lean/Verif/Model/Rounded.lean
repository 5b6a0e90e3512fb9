import Verif.Model.Field
import Mathlib.Data.Int.Log
import Mathlib.Data.Rat.Floor

/-! Floating-point arithmetic: exact operations followed by rounding. -/

namespace Pooya

/-- Arithmetic with rounding: `+`, `-`, `*`, `/` and the conversion of literals compute the exact result and round it; comparisons and absolute values are exact.
Stands for the `double`s of the code (e.g. src/solver/simulator_base.cpp:119-222, src/solver/rkf45.cpp:25-61) as long as nothing overflows or is divided by zero,
and as long as the compiler does not contract operations; `+0` and `-0` are one number. -/
@[reducible] def Arith.rounded {K : Type} [Field K] [LinearOrder K] (rnd : K → K) : Arith K where
  add a b := rnd (a + b)
  sub a b := rnd (a - b)
  mul a b := rnd (a * b)
  div a b := rnd (a / b)
  abs x := |x|
  lt a b := decide (a < b)
  le a b := decide (a ≤ b)
  eq a b := decide (a = b)
  lit q := rnd (q : K)

/-- The nearest integer, the even one if there are two. -/
def nearest (y : ℚ) : ℤ :=
  if y - ⌊y⌋ < 1 / 2 then ⌊y⌋
  else if 1 / 2 < y - ⌊y⌋ then ⌊y⌋ + 1
  else if ⌊y⌋ % 2 = 0 then ⌊y⌋ else ⌊y⌋ + 1

/-- The unit in the last of `p` binary digits of a positive number. -/
def ulp (p : Nat) (x : ℚ) : ℚ := 2 ^ (Int.log 2 x + 1 - p)

/-- Rounding to `p` binary digits, to nearest, ties to even (IEEE 754), with exponents of any size. -/
def binary (p : Nat) (x : ℚ) : ℚ :=
  if x < 0 then -(nearest (-x / ulp p (-x)) * ulp p (-x)) else nearest (x / ulp p x) * ulp p x

/-- The rounding of `double`, the type of all values and times (src/signal/scalar_signal.hpp:41-57, src/signal/array.hpp:27, src/solver/simulator_base.hpp:45-50), without
overflow and subnormal numbers. -/
def double : ℚ → ℚ := binary 53

end Pooya
