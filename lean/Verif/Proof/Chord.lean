import Mathlib.Analysis.Calculus.Deriv.MeanValue
import Mathlib.Analysis.Calculus.Deriv.Mul
import Mathlib.Analysis.Calculus.Deriv.Pow
import Mathlib.Tactic.Linarith
import Mathlib.Tactic.FieldSimp
import Mathlib.Tactic.Ring

/-! Chords and tangents of functions whose derivative is Lipschitz. -/

namespace Pooya.Chord

open Set

variable {f f' : ℝ → ℝ} {M lo hi : ℝ}

theorem nonpos_of (g g' : ℝ → ℝ) (hd : ∀ x ∈ Icc lo hi, HasDerivWithinAt g (g' x) (Icc lo hi) x) {x y : ℝ} (hx : x ∈ Icc lo hi) (hy : y ∈ Icc lo hi) (h0 : g x = 0)
    (h1 : ∀ z ∈ Icc lo hi, x < z → g' z ≤ 0) (h2 : ∀ z ∈ Icc lo hi, z < x → 0 ≤ g' z) : g y ≤ 0 := by
  rcases le_total x y with h | h
  · have hs : Icc x y ⊆ Icc lo hi := Icc_subset_Icc hx.1 hy.2
    have := antitoneOn_of_hasDerivWithinAt_nonpos (convex_Icc x y) (fun z hz => ((hd z (hs hz)).mono hs).continuousWithinAt)
      (f' := g') (fun z hz => ((hd z (hs (interior_subset hz))).mono (interior_subset.trans hs))) (fun z hz => by
        rw [interior_Icc] at hz
        exact h1 z (hs (Ioo_subset_Icc_self hz)) hz.1)
    exact (this (left_mem_Icc.2 h) (right_mem_Icc.2 h) h).trans_eq h0
  · have hs : Icc y x ⊆ Icc lo hi := Icc_subset_Icc hy.1 hx.2
    have := monotoneOn_of_hasDerivWithinAt_nonneg (convex_Icc y x) (fun z hz => ((hd z (hs hz)).mono hs).continuousWithinAt)
      (f' := g') (fun z hz => ((hd z (hs (interior_subset hz))).mono (interior_subset.trans hs))) (fun z hz => by
        rw [interior_Icc] at hz
        exact h2 z (hs (Ioo_subset_Icc_self hz)) hz.2)
    exact (this (left_mem_Icc.2 h) (right_mem_Icc.2 h) h).trans_eq h0

/-- A function is near its tangents. -/
theorem tangent (hd : ∀ x ∈ Icc lo hi, HasDerivWithinAt f (f' x) (Icc lo hi) x) (hM : ∀ x ∈ Icc lo hi, ∀ y ∈ Icc lo hi, |f' x - f' y| ≤ M * |x - y|) {x y : ℝ}
    (hx : x ∈ Icc lo hi) (hy : y ∈ Icc lo hi) : |f y - f x - f' x * (y - x)| ≤ M / 2 * (y - x) ^ 2 := by
  have hq : ∀ c z : ℝ, HasDerivWithinAt (fun z => c * (z - x) + M / 2 * (z - x) ^ 2) (c + M * (z - x)) (Icc lo hi) z := by
    intro c z
    have h1 : HasDerivWithinAt (fun z => z - x) 1 (Icc lo hi) z := (hasDerivWithinAt_id z _).sub_const x
    have := (h1.const_mul c).add ((h1.pow 2).const_mul (M / 2))
    refine this.congr_deriv ?_
    simp
    ring
  have up := nonpos_of (fun z => (f z - f x) - (f' x * (z - x) + M / 2 * (z - x) ^ 2)) (fun z => f' z - (f' x + M * (z - x)))
    (fun z hz => ((hd z hz).sub_const (f x)).sub (hq (f' x) z)) hx hy (by simp)
    (fun z hz hxz => by
      have := hM z hz x hx
      rw [abs_of_pos (sub_pos.2 hxz)] at this
      linarith [le_abs_self (f' z - f' x)])
    (fun z hz hxz => by
      have := hM z hz x hx
      rw [abs_of_neg (sub_neg.2 hxz)] at this
      linarith [neg_abs_le (f' z - f' x)])
  have down := nonpos_of (fun z => (-f' x) * (z - x) * (-1) - (f z - f x) - M / 2 * (z - x) ^ 2) (fun z => f' x - f' z - M * (z - x))
    (fun z hz => by
      have h1 : HasDerivWithinAt (fun z => z - x) 1 (Icc lo hi) z := (hasDerivWithinAt_id z _).sub_const x
      have := (((h1.const_mul (-f' x)).mul_const (-1)).sub ((hd z hz).sub_const (f x))).sub ((h1.pow 2).const_mul (M / 2))
      refine this.congr_deriv ?_
      simp
      ring) hx hy (by simp)
    (fun z hz hxz => by
      have := hM z hz x hx
      rw [abs_of_pos (sub_pos.2 hxz)] at this
      linarith [neg_abs_le (f' z - f' x)])
    (fun z hz hxz => by
      have := hM z hz x hx
      rw [abs_of_neg (sub_neg.2 hxz)] at this
      linarith [le_abs_self (f' z - f' x)])
  rw [abs_le]
  constructor <;> linarith

/-- The slope of a chord is near the derivative at its end. -/
theorem slope (hd : ∀ x ∈ Icc lo hi, HasDerivWithinAt f (f' x) (Icc lo hi) x) (hM : ∀ x ∈ Icc lo hi, ∀ y ∈ Icc lo hi, |f' x - f' y| ≤ M * |x - y|) {s t : ℝ}
    (hs : s ∈ Icc lo hi) (ht : t ∈ Icc lo hi) (h : s < t) : |(f t - f s) / (t - s) - f' t| ≤ M / 2 * (t - s) := by
  have hp := sub_pos.2 h
  have := tangent hd hM ht hs
  have e : (f t - f s) / (t - s) - f' t = -((f s - f t - f' t * (s - t)) / (t - s)) := by field_simp; ring
  rw [e, abs_neg, abs_div, abs_of_pos hp, div_le_iff₀ hp]
  calc _ ≤ M / 2 * (s - t) ^ 2 := this
    _ = _ := by ring

/-- A chord is near its function. -/
theorem chord (hd : ∀ x ∈ Icc lo hi, HasDerivWithinAt f (f' x) (Icc lo hi) x) (hM : ∀ x ∈ Icc lo hi, ∀ y ∈ Icc lo hi, |f' x - f' y| ≤ M * |x - y|) (h0 : 0 ≤ M) {a b q : ℝ}
    (ha : a ∈ Icc lo hi) (hb : b ∈ Icc lo hi) (h1 : a < q) (h2 : q ≤ b) : |f a + (f b - f a) / (b - a) * (q - a) - f q| ≤ M / 8 * (b - a) ^ 2 := by
  have hq : q ∈ Icc lo hi := ⟨ha.1.trans h1.le, h2.trans hb.2⟩
  have hp : 0 < b - a := by linarith
  have ta := tangent hd hM hq ha
  have tb := tangent hd hM hq hb
  have e : f a + (f b - f a) / (b - a) * (q - a) - f q =
      (b - q) / (b - a) * (f a - f q - f' q * (a - q)) + (q - a) / (b - a) * (f b - f q - f' q * (b - q)) := by field_simp; ring
  have wa : 0 ≤ (b - q) / (b - a) := div_nonneg (by linarith) hp.le
  have wb : 0 ≤ (q - a) / (b - a) := div_nonneg (by linarith) hp.le
  rw [e]
  calc _ ≤ |(b - q) / (b - a) * (f a - f q - f' q * (a - q))| + |(q - a) / (b - a) * (f b - f q - f' q * (b - q))| := abs_add_le _ _
    _ ≤ (b - q) / (b - a) * (M / 2 * (a - q) ^ 2) + (q - a) / (b - a) * (M / 2 * (b - q) ^ 2) := by
      rw [abs_mul, abs_mul, abs_of_nonneg wa, abs_of_nonneg wb]
      exact add_le_add (mul_le_mul_of_nonneg_left ta wa) (mul_le_mul_of_nonneg_left tb wb)
    _ = M / 2 * ((b - q) * (q - a)) := by field_simp; ring
    _ ≤ M / 2 * ((b - a) ^ 2 / 4) := mul_le_mul_of_nonneg_left (by nlinarith [sq_nonneg ((b - q) - (q - a))]) (by linarith)
    _ = _ := by ring

end Pooya.Chord
