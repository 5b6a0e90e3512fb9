import Verif.Spec.Compare

/-! Diagrams that forget how they began. -/

namespace Pooya

variable {F : Type} [_root_.Field F] [LinearOrder F]

/-- Where the states of two diagrams differ by no more than `δ`, they differ by no more than `(1 - μ g) δ + g ε` after following their slopes for the time `g`, at each time from `t0` on. -/
def Forgets [Arith F] (cfg cfg' : Config F) (ty ty' : SigId → Ty) (t0 g μ ε : F) : Prop :=
  ∀ t val val' δ, t0 ≤ t → cfg.Solves ty t val → cfg'.Solves ty' t val' → Nearby δ (cfg.states val) (cfg'.states val') →
    Nearby ((1 - μ * g) * δ + g * ε) (fun s i => cfg.states val s i + g * cfg.slopes val s i) (fun s i => cfg'.states val' s i + g * cfg'.slopes val' s i)

/-- The product of `1 - μ h` over the gaps `h` between the times. -/
def faded (μ : F) : F → List F → F
  | _, [] => 1
  | t, u :: ts => (1 - μ * (u - t)) * faded μ u ts

end Pooya
