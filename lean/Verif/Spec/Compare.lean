import Verif.Spec.Near

/-! Simulations of two diagrams. -/

namespace Pooya

variable {F : Type} [_root_.Field F] [LinearOrder F]

/-- Where the states of two diagrams differ by no more than `δ` and those of the second are in `S`, the slopes differ by no more than `L δ + ε`, at each time from `t0` on. -/
def Departs [Arith F] (cfg cfg' : Config F) (ty ty' : SigId → Ty) (S : (SigId → Nat → F) → Prop) (t0 L ε : F) : Prop :=
  ∀ t val val' δ, t0 ≤ t → cfg.Solves ty t val → cfg'.Solves ty' t val' → S (cfg'.states val') → Nearby δ (cfg.states val) (cfg'.states val') →
    Nearby (L * δ + ε) (cfg.slopes val) (cfg'.slopes val')

/-- No number of the one is greater than that of the other. -/
def Under (z y : SigId → Nat → F) : Prop := ∀ s i, z s i ≤ y s i

/-- Where the state of the first diagram is not greater than that of the second, it is not greater after following the slopes for the time `g` either, at each time from `t0` on. -/
def Trails [Arith F] (cfg cfg' : Config F) (ty ty' : SigId → Ty) (t0 g : F) : Prop :=
  ∀ t val val', t0 ≤ t → cfg.Solves ty t val → cfg'.Solves ty' t val' → Under (cfg.states val) (cfg'.states val') →
    Under (fun s i => cfg.states val s i + g * cfg.slopes val s i) (fun s i => cfg'.states val' s i + g * cfg'.slopes val' s i)

end Pooya
