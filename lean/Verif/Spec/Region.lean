import Verif.Spec.Passage
import Verif.Spec.Typed
import Mathlib.Algebra.Order.Field.Basic

/-! Sets of states. -/

namespace Pooya

variable {F : Type} [_root_.Field F] [LinearOrder F]

/-- The number, or the coefficient `i` of the array. -/
def Val.part (i : Nat) : Val F → F
  | .scalar x => x
  | .array xs => xs.getD i 0
  | _ => 0

/-- The outputs of the Integrators. -/
def Config.states (cfg : Config F) (val : SigId → Option (Val F)) (s : SigId) (i : Nat) : F :=
  if (cfg.deriv s).isSome then (val s).elim 0 (Val.part i) else 0

/-- The inputs of the Integrators, under the names of their outputs. -/
def Config.slopes (cfg : Config F) (val : SigId → Option (Val F)) (s : SigId) (i : Nat) : F :=
  (cfg.deriv s).elim 0 fun x => (val x).elim 0 (Val.part i)

/-- With two states the set contains all between them. -/
def Bulging (S : (SigId → Nat → F) → Prop) : Prop :=
  ∀ z y, S z → S y → ∀ θ : F, 0 ≤ θ → θ ≤ 1 → S fun s i => z s i + θ * (y s i - z s i)

/-- Where bounds are given, the numbers are not below the lower ones and not above the upper ones. -/
def Between (lo hi : SigId → Nat → Option F) (z : SigId → Nat → F) : Prop := ∀ s i, (∀ a, lo s i = some a → a ≤ z s i) ∧ ∀ a, hi s i = some a → z s i ≤ a

/-- The values solve the diagram at the time `t`, and the outputs of the Integrators have values of their types. -/
def Config.Solves [Arith F] (cfg : Config F) (ty : SigId → Ty) (t : F) (val : SigId → Option (Val F)) : Prop :=
  (∃ V mem x, Solution cfg V mem t x val) ∧ ∀ s, (cfg.deriv s).isSome → ∃ v, val s = some v ∧ v.Fits (ty s)

/-- Whoever is in the set at a time from `t0` on and follows the slopes for the time `g`, is in the set again. -/
def Config.Stays [Arith F] (cfg : Config F) (ty : SigId → Ty) (t0 g : F) (S : (SigId → Nat → F) → Prop) : Prop :=
  ∀ t val, t0 ≤ t → cfg.Solves ty t val → S (cfg.states val) → S fun s i => cfg.states val s i + g * cfg.slopes val s i

end Pooya
