import Verif.Model.Rounded

/-! Floating-point arithmetic with overflow, infinities and not-a-numbers. -/

namespace Pooya

/-- The values of a floating-point type: numbers, infinities and not-a-number.  Stands for the `double`s of the code (src/signal/scalar_signal.hpp:41-57,
src/signal/array.hpp:27, src/solver/simulator_base.hpp:45-50).  Simplified: `+0` and `-0` are one number, and there is one not-a-number. -/
inductive Ext (F : Type)
  | num (x : F)
  | inf (positive : Bool)
  | nan
deriving DecidableEq

namespace Ext

variable {F : Type} [Field F] [LinearOrder F]

/-- Rounding of a result; results beyond the largest number `M` are infinite. -/
def fit (rnd : F → F) (M : F) (x : F) : Ext F := if |rnd x| ≤ M then num (rnd x) else inf (decide (0 < x))

/-- The negative. -/
def neg : Ext F → Ext F
  | num x => num (-x)
  | inf s => inf (!s)
  | nan => nan

/-- `+` of IEEE 754. -/
def add (rnd : F → F) (M : F) : Ext F → Ext F → Ext F
  | num x, num y => fit rnd M (x + y)
  | nan, _ | _, nan => nan
  | inf s, inf s' => if s = s' then inf s else nan
  | inf s, num _ | num _, inf s => inf s

/-- `*` of IEEE 754. -/
def mul (rnd : F → F) (M : F) : Ext F → Ext F → Ext F
  | num x, num y => fit rnd M (x * y)
  | nan, _ | _, nan => nan
  | inf s, inf s' => inf (s == s')
  | inf s, num x | num x, inf s => if x = 0 then nan else inf (s == decide (0 < x))

/-- `/` of IEEE 754, a zero in the denominator being `+0`. -/
def div (rnd : F → F) (M : F) : Ext F → Ext F → Ext F
  | num x, num y => if y = 0 then (if x = 0 then nan else inf (decide (0 < x))) else fit rnd M (x / y)
  | nan, _ | _, nan => nan
  | inf _, inf _ => nan
  | inf s, num x => inf (s == decide (0 ≤ x))
  | num _, inf _ => num 0

/-- `std::abs`. -/
def abs : Ext F → Ext F
  | num x => num |x|
  | inf _ => inf true
  | nan => nan

/-- `<` of IEEE 754. -/
def lt : Ext F → Ext F → Bool
  | num x, num y => decide (x < y)
  | nan, _ | _, nan => false
  | inf s, inf s' => !s && s'
  | inf s, num _ => !s
  | num _, inf s => s

/-- `<=` of IEEE 754. -/
def le : Ext F → Ext F → Bool
  | num x, num y => decide (x ≤ y)
  | nan, _ | _, nan => false
  | inf s, inf s' => !s || s'
  | inf s, num _ => !s
  | num _, inf s => s

/-- `==` of IEEE 754. -/
def eq : Ext F → Ext F → Bool
  | num x, num y => decide (x = y)
  | inf s, inf s' => s == s'
  | _, _ => false

end Ext

/-- Arithmetic with rounding, overflow, infinities and not-a-numbers. -/
@[reducible] def Arith.extended {F : Type} [Field F] [LinearOrder F] (rnd : F → F) (M : F) : Arith (Ext F) where
  add := Ext.add rnd M
  sub a b := Ext.add rnd M a b.neg
  mul := Ext.mul rnd M
  div := Ext.div rnd M
  abs := Ext.abs
  lt := Ext.lt
  le := Ext.le
  eq := Ext.eq
  lit q := Ext.fit rnd M (q : F)

end Pooya
