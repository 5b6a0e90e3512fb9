import Verif.Model.Extended
import Mathlib.Topology.Instances.Real.Lemmas
import Mathlib.Topology.Algebra.Order.Field

/-! What arithmetic with infinities and not-a-numbers should do: results are limits, and not-a-numbers where there is no limit. -/

namespace Pooya.Ext

open Filter Topology

/-- The numbers near a value: an infinity stands for large numbers, a not-a-number for all of them. -/
def near : Ext ℝ → Filter ℝ
  | num x => 𝓝 x
  | inf true => atTop
  | inf false => atBot
  | nan => ⊤

/-- The numbers near a denominator: a zero is `+0`. -/
noncomputable def near0 (b : Ext ℝ) : Filter ℝ := if b = num 0 then 𝓝[>] 0 else near b

/-- The value `c` is the limit of `f` on `L`, and a not-a-number only if there is no other. -/
def Limit (f : ℝ × ℝ → ℝ) (L : Filter (ℝ × ℝ)) (c : Ext ℝ) : Prop :=
  Tendsto f L (near c) ∧ (c = nan → ∀ c', Tendsto f L (near c') → c' = nan)

/-- The rounded value, infinite beyond the largest number. -/
noncomputable def rounded (rnd : ℝ → ℝ) (M : ℝ) : Ext ℝ → Ext ℝ
  | num x => if |rnd x| ≤ M then num (rnd x) else if 0 < x then inf true else inf false
  | c => c

end Pooya.Ext
