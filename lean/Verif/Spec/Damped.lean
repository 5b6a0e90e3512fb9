import Verif.Spec.Swing

/-! A mass, a spring and a damper. -/

namespace Pooya

variable {F : Type} [_root_.Field F]

/-- What a step multiplies the energy of a damped oscillator by (see `vigour`), where `a` is the damping `c` times the length of the step and `w` the stiffness `k` times its square. -/
def Method.damped (a w : F) : Method → F
  | .euler => 1 - a + w
  | .rk4 => 1 - a + a ^ 2 / 2 - a ^ 3 / 6 + a ^ 4 / 24 - a ^ 3 * w / 24 + a * w ^ 2 / 24 + a ^ 2 * w ^ 2 / 48 - a * w ^ 3 / 144 - w ^ 3 / 72 + w ^ 4 / 576
  | .rkf45 => 1 - a + a ^ 2 / 2 - a ^ 3 / 6 + a ^ 4 / 24 - a ^ 5 / 104 + a ^ 3 * w / 156 + a ^ 4 * w / 104 - a * w ^ 2 / 156 - 11 / 624 * a ^ 2 * w ^ 2 - a ^ 3 * w ^ 2 / 208 +
      7 / 936 * a * w ^ 3 + a ^ 2 * w ^ 3 / 624 - a * w ^ 4 / 2496 + 5 / 936 * w ^ 3 - 11 / 7488 * w ^ 4 + w ^ 5 / 10816

/-- A quadratic form that measures how far a damped oscillator is from rest, where `x` is the distance from the place where it rests and `v` the speed; the energy if there is no
damping. -/
def vigour (k c x v : F) : F := v ^ 2 + c * x * v + k * x ^ 2

/-- Gaps of at most `g` are small enough for the method to damp the oscillation. -/
def Method.Calm [LE F] (k c g : F) : Method → Prop
  | .euler => k * g ≤ c
  | .rk4 => k * g ^ 2 ≤ 1
  | .rkf45 => k * g ^ 2 ≤ 1 ∧ k ^ 3 * g ^ 5 ≤ 20 * c

/-- The signal `d` is `u - k x - c v`, where `u` is a function of time, whenever the equations of the diagram hold. -/
def Driven [Arith F] (cfg : Config F) (ps : List (Wire F)) (k c : F) (u : F → F) (x v d : SigId) : Prop :=
  ∀ (V : Vars) (mem : BlkId → Mem F) (t : F) (y : List F) (val : SigId → Option (Val F)) (a b : F),
    (∀ s, s ∈ V.scalars ++ V.arrays ↔ ∃ p ∈ ps, p.obj.isState = true ∧ p.Gives s) → Solution cfg V mem t y val →
      val x = some (.scalar a) → val v = some (.scalar b) → val d = some (.scalar (u t - k * a - c * b))

/-- Two states of a diagram with scalar values: the derivative of the first is the second, and the derivative of the second is as in `Driven`. -/
structure SpringDamper [Arith F] (cfg : Config F) (ps : List (Wire F)) (ty : SigId → Ty) (k c : F) (u : F → F) (x v d : SigId) : Prop where
  place : ty x = .scalar ∧ ∃ p ∈ ps, p.obj.isState = true ∧ p.Gives x
  speed : ty v = .scalar ∧ ∃ p ∈ ps, p.obj.isState = true ∧ p.Gives v
  deriv : cfg.deriv x = some v ∧ cfg.deriv v = some d
  driven : Driven cfg ps k c u x v d

end Pooya
