import Verif.Spec.Near
import Verif.Spec.Alike

/-! The same diagram in other units. -/

namespace Pooya

variable {F : Type} [_root_.Field F]

/-- The numbers `z` in other units: `k` of the new units are one of the old ones, and `o` is what was zero. -/
def inUnits (k o z : SigId → Nat → F) : SigId → Nat → F := fun s i => k s i * z s i + o s i

/-- Where the states of the second diagram at the time `c t + d` are those of the first one at the time `t` in other units, so are the slopes: `k / c` of the new units are one of the old ones. -/
def Converts [LinearOrder F] [Arith F] (cfg cfg' : Config F) (ty ty' : SigId → Ty) (k o : SigId → Nat → F) (c d : F) : Prop :=
  ∀ t val val', cfg.Solves ty t val → cfg'.Solves ty' (c * t + d) val' → cfg'.states val' = inUnits k o (cfg.states val) → ∀ s i, cfg'.slopes val' s i = k s i / c * cfg.slopes val s i

/-- Where the outputs of the Integrators of the second drawing at the time `c t + d` are those of the first one at the time `t` in other units, so are the inputs. -/
def Sketch.Converts (a b : Sketch) (k o : SigId → ℝ) (c d : ℝ) : Prop :=
  ∀ t X X', a.Meets t X → b.Meets (c * t + d) X' → (∀ s x0 x, a.Slope s x0 x → X' s = k s * X s + o s) → ∀ s x0 x x0' x', a.Slope s x0 x → b.Slope s x0' x' → X' x' = k s / c * X x

end Pooya
