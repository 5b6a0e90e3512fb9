import Verif.Spec.Region

/-! Sets of states that Euler's steps do not leave, in the arithmetic at hand. -/

namespace Pooya

variable {F : Type} [_root_.Field F] [LinearOrder F]

/-- Whoever is in the set at a time from `t0` on and follows the slopes for a time of at most `g`, as computed, is in the set again. -/
def Config.Keeps [Arith F] (cfg : Config F) (ty : SigId → Ty) (t0 g : F) (S : (SigId → Nat → F) → Prop) : Prop :=
  ∀ t val k, t0 ≤ t → cfg.Solves ty t val → S (cfg.states val) → 0 ≤ k → k ≤ g → S fun s i => cfg.states val s i +. k *. cfg.slopes val s i

/-- All numbers can be represented. -/
def Exactly (rnd : F → F) (z : SigId → Nat → F) : Prop := ∀ s i, rnd (z s i) = z s i

end Pooya
