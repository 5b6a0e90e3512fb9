import Verif.Spec.Sketch

/-! Two drawings with the same states. -/

namespace Pooya

/-- The signal `s` is the output of an Integrator with the initial value `x0` and the input `x`. -/
def Sketch.Slope (d : Sketch) (s : SigId) (x0 : ℝ) (x : SigId) : Prop := ∃ p ∈ d.pieces, p.part = .integrator x0 ∧ p.ins = [x] ∧ p.out = s

/-- Where the outputs of the Integrators of two drawings differ by no more than `δ`, their inputs differ by no more than `L δ + ε`, at each time from `t0` on. -/
def Sketch.Alike (d d' : Sketch) (t0 L ε : ℝ) : Prop :=
  ∀ t X X' δ, t0 ≤ t → 0 ≤ δ → d.Meets t X → d'.Meets t X' → (∀ s x0 x, d.Slope s x0 x → |X s - X' s| ≤ δ) →
    ∀ s x0 x x0' x', d.Slope s x0 x → d'.Slope s x0' x' → |X x - X' x'| ≤ L * δ + ε

end Pooya
