/-
Outcomes, build mode and arithmetic interface shared by the whole model.
-/

namespace Pooya

/-- C++ exceptions the modelled code can throw (all are `std::runtime_error` raised by
`pooya_throw_exception`, src/helper/util.cpp:28-40, except where noted). -/
inductive Exc where
  /-- "attempting to access an unassigned value!" (src/signal/scalar_signal.hpp:44 and siblings) -/
  | unassigned
  /-- "re-assignment is prohibited!" (src/signal/scalar_signal.hpp:51 and siblings) -/
  | reassigned
  /-- "size mismatch" (src/signal/array_signal.hpp:61-63, src/signal/float_signal.hpp:43) -/
  | sizeMismatch
  /-- "invalid signal type!" (src/signal/signal.hpp:48-52) -/
  | invalidType
  /-- "Label not found in the bus" (src/signal/bus.hpp:104) -/
  | labelNotFound
  /-- `std::out_of_range` from `vector::at` / `unordered_map::at` (src/signal/bus.hpp:86) -/
  | outOfRange
  /-- "illegal attempt to reconnect a block!" (src/block/block.cpp:52) -/
  | reconnect
  /-- wrong number of inputs (src/block/block.cpp:54-57) -/
  | iports
  /-- wrong number of outputs (src/block/block.cpp:59-62) -/
  | oports
  /-- "Simulation cannot go back in time." (src/solver/simulator_base.cpp:157-166) -/
  | backInTime
  /-- "The FastSimulator does not seem the right choice" (src/solver/fast_simulator.cpp:112-113) -/
  | notFast
  /-- `std::bad_variant_access` from `std::get` (src/block/extra/bus_memory.cpp:65-83) -/
  | badVariant
  /-- "cannot create a memory/pipe block for a non-value signal." (bus_memory.cpp:88, bus_pipe.cpp:61) -/
  | nonValue
  /-- unused initial values (src/block/extra/bus_memory.cpp:41-52) -/
  | unusedInit
  /-- a failed `pooya_debug_verify0` (src/helper/verify.hpp:41) -/
  | debugVerify
  /-- an exception thrown by user code -/
  | user (code : Nat)
deriving DecidableEq, Repr

/-- Undefined behaviour the C++ code can run into; a distinct outcome, never assumed away. -/
inductive Ub where
  /-- reading an indeterminate (never written) value in a release build -/
  | uninitRead
  | nullDeref
  /-- `static_cast` to a wrong dynamic type -/
  | badCast
  | outOfBounds
  | intOverflow
  /-- Eigen coefficient-wise operation on arrays of different sizes -/
  | eigenSize
  /-- access through a statically wrong type (excluded by the C++ type system) -/
  | typeConfusion
  /-- `vector::erase(end())` -/
  | eraseEnd
  /-- use of an object that has been destroyed -/
  | dangling
deriving DecidableEq, Repr

/-- Why a modelled computation did not return normally. `fuel` is an artefact of modelling
unbounded `while` loops by fuel; it corresponds to no C++ outcome. -/
inductive Err where
  | exc (e : Exc)
  | ub (u : Ub)
  | fuel
deriving DecidableEq, Repr

/-- The operations of `double` used by the code.  No laws are assumed: every theorem stated
for an arbitrary `Arith K` also holds for IEEE-754 arithmetic.  `lt`, `le`, `eq` are the C++
comparison operators (so `eq` need not be reflexive), `lit` is the value of a source literal. -/
class Arith (K : Type) where
  add : K → K → K
  sub : K → K → K
  mul : K → K → K
  div : K → K → K
  abs : K → K
  lt : K → K → Bool
  le : K → K → Bool
  eq : K → K → Bool
  lit : Rat → K

infixl:65 " +. " => Arith.add
infixl:65 " -. " => Arith.sub
infixl:70 " *. " => Arith.mul
infixl:70 " /. " => Arith.div
infix:50 " <. " => Arith.lt
infix:50 " <=. " => Arith.le
infix:50 " ==. " => Arith.eq

variable {K : Type} [Arith K]

/-- `std::min(a, b)`: `(b < a) ? b : a`. -/
def fmin (a b : K) : K := if b <. a then b else a

/-- `std::max(a, b)`: `(a < b) ? b : a`. -/
def fmax (a b : K) : K := if a <. b then b else a

/-- Lean's own doubles, to be able to execute the model (not used by any theorem). -/
instance : Arith Float where
  add := (· + ·)
  sub := (· - ·)
  mul := (· * ·)
  div := (· / ·)
  abs := Float.abs
  lt a b := a < b
  le a b := a ≤ b
  eq a b := a == b
  lit q := Float.ofInt q.num / Float.ofNat q.den

/-- C++ strings as sequences of bytes. -/
abbrev Str := List UInt8

/-- ASCII string literals. -/
def str (s : String) : Str := s.toList.map (fun c => UInt8.ofNat c.toNat)

end Pooya
