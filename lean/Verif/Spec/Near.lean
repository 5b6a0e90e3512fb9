import Verif.Spec.Region
import Verif.Spec.Swing

/-! Two simulations of one diagram. -/

namespace Pooya

variable {F : Type} [_root_.Field F] [LinearOrder F]

/-- No number of the one differs from that of the other by more than `δ`. -/
def Nearby (δ : F) (z y : SigId → Nat → F) : Prop := ∀ s i, |z s i - y s i| ≤ δ

/-- The slopes of two states that differ by no more than `δ` differ by no more than `L δ`, at each time from `t0` on. -/
def Config.Lipschitz [Arith F] (cfg : Config F) (ty : SigId → Ty) (t0 L : F) : Prop :=
  ∀ t val val' δ, t0 ≤ t → cfg.Solves ty t val → cfg.Solves ty t val' → Nearby δ (cfg.states val) (cfg.states val') → Nearby (L * δ) (cfg.slopes val) (cfg.slopes val')

/-- Two states that differ by no more than `δ` do not differ by more after following their slopes for the time `g`, at each time from `t0` on. -/
def Config.Closing [Arith F] (cfg : Config F) (ty : SigId → Ty) (t0 g : F) : Prop :=
  ∀ t val val' δ, t0 ≤ t → cfg.Solves ty t val → cfg.Solves ty t val' → Nearby δ (cfg.states val) (cfg.states val') →
    Nearby δ (fun s i => cfg.states val s i + g * cfg.slopes val s i) (fun s i => cfg.states val' s i + g * cfg.slopes val' s i)

/-- The product of the factors of the method for the differential equation `x' = L x`, from time to time. -/
def Method.spread (M : Method) (L : F) : F → List F → F
  | _, [] => 1
  | t, u :: ts => M.factor (L * (u - t)) * M.spread L u ts

end Pooya
