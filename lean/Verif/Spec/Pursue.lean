import Verif.Spec.Alike
import Verif.Spec.Forget

/-! Diagrams that pursue a target. -/

namespace Pooya

/-- Where the states of a diagram are no more than `δ` away from the target `r t`, they are no more than `(1 - μ g) δ + g ε` away from it after following their slopes for the time `g`, at each time `t`
from `t0` on. -/
def Config.Pursues {F : Type} [_root_.Field F] [LinearOrder F] [Arith F] (cfg : Config F) (ty : SigId → Ty) (r : F → SigId → Nat → F) (t0 g μ ε : F) : Prop :=
  ∀ t val δ, t0 ≤ t → cfg.Solves ty t val → Nearby δ (cfg.states val) (r t) → Nearby ((1 - μ * g) * δ + g * ε) (fun s i => cfg.states val s i + g * cfg.slopes val s i) (r t)

/-- Where all Integrators of a drawing are no more than `δ` away from their targets `r t`, they are no more than `(1 - μ g) δ + g ε` away after following their inputs for the time `g`, at each time
`t` from `t0` on. -/
def Sketch.Pursues (d : Sketch) (r : ℝ → SigId → ℝ) (t0 g μ ε : ℝ) : Prop :=
  ∀ t X δ, t0 ≤ t → 0 ≤ δ → d.Meets t X → (∀ s x0 x, d.Slope s x0 x → |X s - r t s| ≤ δ) → ∀ s x0 x, d.Slope s x0 x → |X s + g * X x - r t s| ≤ (1 - μ * g) * δ + g * ε

end Pooya
