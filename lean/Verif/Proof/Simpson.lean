import Mathlib.Analysis.Calculus.MeanValue
import Mathlib.Analysis.Calculus.Deriv.Pow
import Mathlib.Analysis.Calculus.Deriv.Mul
import Mathlib.Analysis.Calculus.Deriv.Comp
import Mathlib.Analysis.Calculus.Deriv.Shift
import Mathlib.Tactic.Linarith
import Mathlib.Tactic.FieldSimp
import Mathlib.Tactic.Ring

/-! The error of Simpson's rule. -/

namespace Pooya.Simpson

open Set

/-- A function that starts at zero and whose derivative grows at most like a power. -/
theorem grow {e e' : ℝ → ℝ} {C H : ℝ} {n : ℕ} (he : ∀ x, HasDerivAt e (e' x) x) (h0 : e 0 = 0) (hb : ∀ x ∈ Icc 0 H, |e' x| ≤ C * x ^ n) :
    ∀ x ∈ Icc 0 H, |e x| ≤ C / (n + 1) * x ^ (n + 1) := by
  intro x hx
  have hn : (n : ℝ) + 1 ≠ 0 := by positivity
  refine image_norm_le_of_norm_deriv_right_le_deriv_boundary (f := e) (f' := e') (a := 0) (b := H) (B := fun x => C / (n + 1) * x ^ (n + 1)) (B' := fun x => C * x ^ n)
    (fun y _ => (he y).continuousAt.continuousWithinAt) (fun y _ => (he y).hasDerivWithinAt) (by simp [h0]) (fun y => ?_) (fun y hy => hb y (Ico_subset_Icc_self hy)) hx
  have := (hasDerivAt_pow (n + 1) y).const_mul (C / (n + 1))
  refine this.congr_deriv ?_
  rw [Nat.add_sub_cancel]
  push_cast
  field_simp

variable {G f f1 f2 f3 : ℝ → ℝ} {K : ℝ}

theorem plus {g g' : ℝ → ℝ} (hg : ∀ x, HasDerivAt g (g' x) x) (c h : ℝ) : HasDerivAt (fun h => g (c + h)) (g' (c + h)) h := (hg (c + h)).comp_const_add c h

theorem minus {g g' : ℝ → ℝ} (hg : ∀ x, HasDerivAt g (g' x) x) (c h : ℝ) : HasDerivAt (fun h => g (c - h)) (-g' (c - h)) h := (hg (c - h)).comp_const_sub c h

/-- The error of Simpson's rule, for a function whose third derivative is Lipschitz with the constant `K`. -/
theorem simpson (hG : ∀ x, HasDerivAt G (f x) x) (hf : ∀ x, HasDerivAt f (f1 x) x) (hf1 : ∀ x, HasDerivAt f1 (f2 x) x) (hf2 : ∀ x, HasDerivAt f2 (f3 x) x) {s u : ℝ} (hsu : s ≤ u)
    (hK : ∀ x ∈ Icc s u, ∀ y ∈ Icc s u, |f3 x - f3 y| ≤ K * |x - y|) :
    |G u - G s - (u - s) / 6 * (f s + 4 * f ((s + u) / 2) + f u)| ≤ K / 2880 * (u - s) ^ 5 := by
  set c := (s + u) / 2 with hc
  set H := (u - s) / 2 with hH
  have d0 : ∀ h, HasDerivAt (fun h => G (c + h) - G (c - h) - h / 3 * (f (c - h) + 4 * f c + f (c + h))) (2 / 3 * (f (c + h) + f (c - h)) - 4 / 3 * f c - h / 3 * (f1 (c + h) - f1 (c - h))) h := by
    intro h
    have := ((plus hG c h).sub (minus hG c h)).sub (((hasDerivAt_id h).div_const 3).mul (((minus hf c h).add_const (4 * f c)).add (plus hf c h)))
    refine this.congr_deriv ?_
    simp only [id, Pi.add_apply]
    ring
  have d1 : ∀ h, HasDerivAt (fun h => 2 / 3 * (f (c + h) + f (c - h)) - 4 / 3 * f c - h / 3 * (f1 (c + h) - f1 (c - h))) (1 / 3 * (f1 (c + h) - f1 (c - h)) - h / 3 * (f2 (c + h) + f2 (c - h))) h := by
    intro h
    have := ((((plus hf c h).add (minus hf c h)).const_mul (2 / 3)).sub_const (4 / 3 * f c)).sub (((hasDerivAt_id h).div_const 3).mul ((plus hf1 c h).sub (minus hf1 c h)))
    refine this.congr_deriv ?_
    simp only [id, Pi.sub_apply]
    ring
  have d2 : ∀ h, HasDerivAt (fun h => 1 / 3 * (f1 (c + h) - f1 (c - h)) - h / 3 * (f2 (c + h) + f2 (c - h))) (-(h / 3) * (f3 (c + h) - f3 (c - h))) h := by
    intro h
    have := (((plus hf1 c h).sub (minus hf1 c h)).const_mul (1 / 3)).sub (((hasDerivAt_id h).div_const 3).mul ((plus hf2 c h).add (minus hf2 c h)))
    refine this.congr_deriv ?_
    simp only [id, Pi.add_apply]
    ring
  have b3 : ∀ h ∈ Icc 0 H, |-(h / 3) * (f3 (c + h) - f3 (c - h))| ≤ 2 / 3 * K * h ^ 2 := by
    intro h hh
    have k := hK (c + h) ⟨by linarith [hh.1, hh.2], by linarith [hh.1, hh.2]⟩ (c - h) ⟨by linarith [hh.1, hh.2], by linarith [hh.1, hh.2]⟩
    rw [abs_mul, abs_neg, abs_of_nonneg (by linarith [hh.1])]
    rw [show c + h - (c - h) = 2 * h by ring, abs_of_nonneg (by linarith [hh.1] : (0 : ℝ) ≤ 2 * h)] at k
    have := mul_le_mul_of_nonneg_left k (by linarith [hh.1] : (0 : ℝ) ≤ h / 3)
    linarith
  have b2 := grow d2 (by simp) b3
  have b1 := grow (C := 2 / 3 * K / 3) (n := 3) d1 (by simp only [add_zero, sub_zero]; ring) (fun x hx => (b2 x hx).trans_eq (by norm_num))
  have b0 := grow (C := 2 / 3 * K / 3 / 4) (n := 4) d0 (by simp) (fun x hx => (b1 x hx).trans_eq (by norm_num)) H ⟨by linarith, le_refl _⟩
  have e1 : c + H = u := by rw [hc, hH]; ring
  have e2 : c - H = s := by rw [hc, hH]; ring
  rw [e1, e2, hH] at b0
  have e3 : G u - G s - (u - s) / 2 / 3 * (f s + 4 * f c + f u) = G u - G s - (u - s) / 6 * (f s + 4 * f c + f u) := by ring
  rw [e3] at b0
  refine b0.trans_eq ?_
  push_cast
  ring

end Pooya.Simpson
