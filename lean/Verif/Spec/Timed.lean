import Verif.Spec.Passage
import Mathlib.Algebra.Order.Field.Basic

/-! Signals that are functions of time. -/

namespace Pooya

/-- The signal `s` of the diagram is the function `f` of time: it is `f t` in every solution at time `t`, whatever the members of the blocks and the state. -/
def Timed {K : Type} [Arith K] (cfg : Config K) (ps : List (Wire K)) (s : SigId) (f : K → K) : Prop :=
  ∀ (V : Vars) (mem : BlkId → Mem K) (t : K) (x : List K) (val : SigId → Option (Val K)),
    (∀ s, s ∈ V.scalars ++ V.arrays ↔ ∃ p ∈ ps, p.obj.isState = true ∧ p.Gives s) → Solution cfg V mem t x val → val s = some (.scalar (f t))

/-- The number `z` lies above `q` on a chord of `f`, over an interval of length at most `h` that begins at `lo` or later and ends at `hi` or before. -/
def OnChord {F : Type} [Field F] [LinearOrder F] (f : F → F) (lo hi h q z : F) : Prop :=
  ∃ a b, lo ≤ a ∧ a < q ∧ q ≤ b ∧ b ≤ hi ∧ b - a ≤ h ∧ z = f a + (f b - f a) / (b - a) * (q - a)

end Pooya
