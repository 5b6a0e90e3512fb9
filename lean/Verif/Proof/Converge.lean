import Mathlib.Analysis.Calculus.MeanValue
import Mathlib.Analysis.Complex.Exponential
import Mathlib.Topology.UniformSpace.HeineCantor
import Mathlib.Algebra.BigOperators.Field
import Mathlib.Algebra.Order.BigOperators.Group.Finset
import Mathlib.Tactic.Linarith
import Mathlib.Tactic.Module
import Verif.Spec.RungeKutta

/-! Convergence of one-step methods: the analysis, without block diagrams. -/

namespace Pooya.Conv

open Set

variable {E : Type} [NormedAddCommGroup E] [NormedSpace ℝ E]

/-- The mean value inequality, for functions that have a derivative except at finitely many points. -/
theorem mean_value (J : Finset ℝ) : ∀ {g g1 : ℝ → E} {a b C : ℝ}, a ≤ b → ContinuousOn g (Icc a b) →
    (∀ t ∈ Icc a b, t ∉ J → HasDerivWithinAt g (g1 t) (Icc a b) t) → (∀ t ∈ Icc a b, ‖g1 t‖ ≤ C) → ‖g b - g a‖ ≤ C * (b - a) := by
  induction J using Finset.induction_on with
  | empty =>
    intro g g1 a b C hab _ hd hC
    exact norm_image_sub_le_of_norm_deriv_le_segment' (fun t ht => hd t ht (by simp)) (fun t ht => hC t ⟨ht.1, ht.2.le⟩) b ⟨hab, le_refl _⟩
  | insert j J _ ih =>
    intro g g1 a b C hab hg hd hC
    -- on intervals without `j` inside
    have side : ∀ {c e : ℝ}, a ≤ c → c ≤ e → e ≤ b → j ∉ Icc c e → ‖g e - g c‖ ≤ C * (e - c) := by
      intro c e h1 h2 h3 hj
      have hsub : Icc c e ⊆ Icc a b := Icc_subset_Icc h1 h3
      refine ih h2 (hg.mono hsub) (fun t ht hJ => (hd t (hsub ht) ?_).mono hsub) (fun t ht => hC t (hsub ht))
      rw [Finset.mem_insert]
      rintro (rfl | h)
      · exact hj ht
      · exact hJ h
    by_cases hj : j ∈ Icc a b
    swap
    · exact side (le_refl _) hab (le_refl _) hj
    have left : ‖g j - g a‖ ≤ C * (j - a) := by
      rcases hj.1.eq_or_lt with e | e
      · rw [← e]; simp
      have hc : ContinuousWithinAt (fun t => ‖g t - g a‖) (Ico a j) j := ((hg j hj).mono (fun t ht => ⟨ht.1, ht.2.le.trans hj.2⟩)).sub continuousWithinAt_const |>.norm
      have hc' : ContinuousWithinAt (fun t => C * (t - a)) (Ico a j) j := (continuous_const.mul (continuous_id.sub continuous_const)).continuousWithinAt
      refine ContinuousWithinAt.closure_le ?_ hc hc' (fun t ht => side (le_refl _) ht.1 (ht.2.le.trans hj.2) (fun h => absurd h.2 (not_le.2 ht.2)))
      rw [closure_Ico e.ne]
      exact ⟨e.le, le_refl _⟩
    have right : ‖g b - g j‖ ≤ C * (b - j) := by
      rcases hj.2.eq_or_lt with e | e
      · rw [e]; simp
      have hc : ContinuousWithinAt (fun t => ‖g b - g t‖) (Ioc j b) j := (continuousWithinAt_const.sub ((hg j hj).mono (fun t ht => ⟨hj.1.trans ht.1.le, ht.2⟩))).norm
      have hc' : ContinuousWithinAt (fun t => C * (b - t)) (Ioc j b) j := (continuous_const.mul (continuous_const.sub continuous_id)).continuousWithinAt
      refine ContinuousWithinAt.closure_le ?_ hc hc' (fun t ht => side (hj.1.trans ht.1.le) ht.2 (le_refl _) (fun h => absurd h.1 (not_le.2 ht.1)))
      rw [closure_Ioc e.ne]
      exact ⟨le_refl _, e.le⟩
    have e : g b - g a = (g b - g j) + (g j - g a) := by abel
    rw [e]
    refine (norm_add_le _ _).trans ?_
    linarith

/-- The error of one Euler step from a point of the solution. -/
theorem taylor {y y1 : ℝ → E} {J : Finset ℝ} {a b s u w : ℝ} (hc : ContinuousOn y (Icc a b)) (hd : ∀ t ∈ Icc a b, t ∉ J → HasDerivWithinAt y (y1 t) (Icc a b) t)
    (hs : a ≤ s) (hu : s ≤ u) (hb : u ≤ b) (hw : ∀ t ∈ Icc s u, ‖y1 t - y1 s‖ ≤ w) : ‖y u - y s - (u - s) • y1 s‖ ≤ w * (u - s) := by
  have hsub : Icc s u ⊆ Icc a b := Icc_subset_Icc hs hb
  have h1 : ∀ t ∈ Icc s u, t ∉ J → HasDerivWithinAt (fun t => y t - (t - s) • y1 s) (y1 t - y1 s) (Icc s u) t := by
    intro t ht hJ
    have h2 := (hd t (hsub ht) hJ).mono hsub
    have h3 : HasDerivWithinAt (fun t : ℝ => (t - s) • y1 s) ((1 : ℝ) • y1 s) (Icc s u) t :=
      (((hasDerivAt_id t).sub_const s).smul_const (y1 s)).hasDerivWithinAt
    rw [one_smul] at h3
    exact h2.sub h3
  have h4 := mean_value J hu ((hc.mono hsub).sub ((continuous_id.sub continuous_const).smul continuous_const).continuousOn) h1 hw
  simpa [sub_right_comm] using h4

/-- The setting: `y` continuous on `[a, b]` with derivative `y1` except at the points of `J`; in the tube of radius `r` around it, `f` is `y1` up to `L` times the
distance, or `L` times `A` for smaller distances. -/
structure Tube (f : ℝ → E → E) (y y1 : ℝ → E) (J : Finset ℝ) (a b r L : ℝ) (A : ℝ := 0) : Prop where
  cont : ContinuousOn y (Icc a b)
  deriv : ∀ t ∈ Icc a b, t ∉ J → HasDerivWithinAt y (y1 t) (Icc a b) t
  slope : ∀ t ∈ Icc a b, ∀ x, ‖x - y t‖ ≤ r → ‖f t x - y1 t‖ ≤ L * max ‖x - y t‖ A
  pos : 0 ≤ L

theorem Tube.mono {f : ℝ → E → E} {y y1 : ℝ → E} {J : Finset ℝ} {a b r L A A' : ℝ} (h : Tube f y y1 J a b r L A) (hA : A ≤ A') : Tube f y y1 J a b r L A' :=
  ⟨h.cont, h.deriv, fun t ht x hx => (h.slope t ht x hx).trans (mul_le_mul_of_nonneg_left (max_le_max (le_refl _) hA) h.pos), h.pos⟩

/-- The increment of a step of the method over `[t, u]` is the slope of the solution at the beginning, up to `C` times the error so far and `D w`, where `w ≤ W` bounds
the variation of the slope over the step. -/
def Increment (Φ : ℝ → E → ℝ → E) (y y1 : ℝ → E) (a b ρ W h C D : ℝ) : Prop :=
  ∀ t u x w, a ≤ t → t < u → u ≤ b → u - t ≤ h → 0 ≤ w → w ≤ W → (∀ s ∈ Icc t u, ‖y1 s - y1 t‖ ≤ w) → ‖x - y t‖ ≤ ρ →
    ‖Φ t x u - x - (u - t) • y1 t‖ ≤ (u - t) * (C * ‖x - y t‖ + D * w)

/-- Over steps up to `h`, the slope varies by at most `W`, and by no more than the mean increase of `G` over the step. -/
def Varies (y1 : ℝ → E) (a b W h : ℝ) (G : ℝ → ℝ) : Prop :=
  ∀ t u, a ≤ t → t < u → u ≤ b → u - t ≤ h → ∃ w, 0 ≤ w ∧ w ≤ W ∧ (∀ s ∈ Icc t u, ‖y1 s - y1 t‖ ≤ w) ∧ (u - t) * w ≤ G u - G t

/-- The points of the method. -/
def iter (Φ : ℝ → E → ℝ → E) : ℝ → E → List ℝ → E
  | _, x, [] => x
  | t, x, u :: us => iter Φ u (Φ t x u) us

/-- The error after a step. -/
theorem step_error {y y1 : ℝ → E} {J : Finset ℝ} {a b t u w C D ω : ℝ} {G : ℝ → ℝ} {x x' : E} (hc : ContinuousOn y (Icc a b))
    (hd : ∀ t ∈ Icc a b, t ∉ J → HasDerivWithinAt y (y1 t) (Icc a b) t) (hC : 0 ≤ C) (hD : 0 ≤ D) (hω : 0 ≤ ω) (ha : a ≤ t) (htu : t < u) (hub : u ≤ b)
    (hG1 : G a ≤ G t) (hG3 : G t ≤ G u) (hw : ∀ s ∈ Icc t u, ‖y1 s - y1 t‖ ≤ w) (hwG : (u - t) * w ≤ G u - G t)
    (he : ‖x - y t‖ ≤ Real.exp (C * (t - a)) * ((D + 1) * (G t - G a) + ω))
    (h1 : ‖x' - x - (u - t) • y1 t‖ ≤ (u - t) * (C * (Real.exp (C * (t - a)) * ((D + 1) * (G t - G a) + ω)) + D * w)) :
    ‖x' - y u‖ ≤ Real.exp (C * (u - a)) * ((D + 1) * (G u - G a) + ω) := by
  have hD1 : 0 ≤ D + 1 := by linarith
  have h2 := taylor (w := w) hc hd ha htu.le hub hw
  have hA : 0 ≤ Real.exp (C * (t - a)) * ((D + 1) * (G t - G a) + ω) := (norm_nonneg _).trans he
  have h3 : ‖x' - y u‖ ≤ ‖x - y t‖ + (u - t) * (C * (Real.exp (C * (t - a)) * ((D + 1) * (G t - G a) + ω)) + D * w) + w * (u - t) := by
    have e : x' - y u = (x - y t) + (x' - x - (u - t) • y1 t) - (y u - y t - (u - t) • y1 t) := by abel
    rw [e]
    exact (norm_sub_le _ _).trans (add_le_add ((norm_add_le _ _).trans (add_le_add (le_refl _) h1)) h2)
  obtain ⟨A, hAe⟩ : ∃ A, A = Real.exp (C * (t - a)) * ((D + 1) * (G t - G a) + ω) := ⟨_, rfl⟩
  rw [← hAe] at he h3 hA
  have hh : 0 < u - t := by linarith
  have h4 : ‖x' - y u‖ ≤ (1 + C * (u - t)) * A + (D + 1) * (G u - G t) := by
    have e : (D + 1) * ((u - t) * w) ≤ (D + 1) * (G u - G t) := mul_le_mul_of_nonneg_left hwG hD1
    linarith
  have h5 : 1 + C * (u - t) ≤ Real.exp (C * (u - t)) := by linarith [Real.add_one_le_exp (C * (u - t))]
  have h6 : Real.exp (C * (u - a)) = Real.exp (C * (u - t)) * Real.exp (C * (t - a)) := by rw [← Real.exp_add]; congr 1; ring
  have h7 : (1 + C * (u - t)) * A ≤ Real.exp (C * (u - a)) * ((D + 1) * (G t - G a) + ω) := by
    rw [h6, mul_assoc, ← hAe]
    exact mul_le_mul_of_nonneg_right h5 hA
  have h8 : (D + 1) * (G u - G t) ≤ Real.exp (C * (u - a)) * ((D + 1) * (G u - G t)) := by
    refine le_mul_of_one_le_left (mul_nonneg hD1 (by linarith)) (Real.one_le_exp (mul_nonneg hC (by linarith)))
  calc ‖x' - y u‖ ≤ _ := h4
    _ ≤ Real.exp (C * (u - a)) * ((D + 1) * (G t - G a) + ω) + Real.exp (C * (u - a)) * ((D + 1) * (G u - G t)) := add_le_add h7 h8
    _ = _ := by ring

/-- The global error. -/
theorem iter_error {f : ℝ → E → E} {Φ : ℝ → E → ℝ → E} {y y1 : ℝ → E} {J : Finset ℝ} {a b r L W h ρ C D : ℝ} {G : ℝ → ℝ} (ht : Tube f y y1 J a b r L)
    (hG : Varies y1 a b W h G) (hGm : MonotoneOn G (Icc a b)) (hi : Increment Φ y y1 a b ρ W h C D)
    (hC : 0 ≤ C) (hD : 0 ≤ D) (hρ : Real.exp (C * (b - a)) * ((D + 1) * (G b - G a)) ≤ ρ) (ts : List ℝ) : ∀ {t : ℝ} {x : E}, a ≤ t →
    (t :: ts).Pairwise (· < ·) → (t :: ts).IsChain (fun s u => u - s ≤ h) → (t :: ts).getLast (by simp) ≤ b →
    ‖x - y t‖ ≤ Real.exp (C * (t - a)) * ((D + 1) * (G t - G a)) →
    ‖iter Φ t x ts - y ((t :: ts).getLast (by simp))‖ ≤ Real.exp (C * ((t :: ts).getLast (by simp) - a)) * ((D + 1) * (G ((t :: ts).getLast (by simp)) - G a)) := by
  induction ts with
  | nil => intro t x _ _ _ _ he; exact he
  | cons u us ih =>
    intro t x ha hp hg hb he
    have htu : t < u := (List.pairwise_cons.1 hp).1 u (by simp)
    have hp' := (List.pairwise_cons.1 hp).2
    have hlast : u ≤ (u :: us).getLast (by simp) := by
      rcases List.mem_cons.1 (List.getLast_mem (l := u :: us) (by simp)) with e | e
      · exact e.ge
      · exact ((List.pairwise_cons.1 hp').1 _ e).le
    rw [List.getLast_cons (by simp)] at hb ⊢
    have hub : u ≤ b := hlast.trans hb
    have hg1 : u - t ≤ h := (List.isChain_cons_cons.1 hg).1
    refine ih (ha.trans htu.le) hp' (List.isChain_cons_cons.1 hg).2 hb ?_
    have hab : a ≤ b := by linarith
    have hG1 : G a ≤ G t := hGm ⟨le_refl _, hab⟩ ⟨ha, by linarith⟩ ha
    have hG2 : G t ≤ G b := hGm ⟨ha, by linarith⟩ ⟨hab, le_refl _⟩ (by linarith)
    have hG3 : G t ≤ G u := hGm ⟨ha, by linarith⟩ ⟨by linarith, hub⟩ htu.le
    have hD1 : 0 ≤ D + 1 := by linarith
    have hmono : Real.exp (C * (t - a)) * ((D + 1) * (G t - G a)) ≤ ρ := by
      refine le_trans ?_ hρ
      have h1 : Real.exp (C * (t - a)) ≤ Real.exp (C * (b - a)) := Real.exp_le_exp.2 (mul_le_mul_of_nonneg_left (by linarith) hC)
      exact mul_le_mul h1 (mul_le_mul_of_nonneg_left (by linarith) hD1) (mul_nonneg hD1 (by linarith)) (Real.exp_pos _).le
    obtain ⟨w, hw0, hwW, hw, hwG⟩ := hG t u ha htu hub hg1
    have h1 := hi t u x w ha htu hub hg1 hw0 hwW hw (he.trans hmono)
    have := step_error (x := x) (x' := Φ t x u) (ω := 0) ht.cont ht.deriv hC hD (le_refl _) ha htu hub hG1 hG3 hw hwG (by rw [add_zero]; exact he)
      (h1.trans (mul_le_mul_of_nonneg_left (by rw [add_zero]; linarith [mul_le_mul_of_nonneg_left he hC]) (by linarith)))
    rwa [add_zero] at this

/-! ### The variation of slopes with finitely many breaks -/

/-- `v` away from the breaks, `W` near them. -/
noncomputable def growth (J : Finset ℝ) (v W δ : ℝ) (t : ℝ) : ℝ := v * t + ∑ j ∈ J, W * max (j - δ) (min t (j + δ))

theorem growth_mono {J : Finset ℝ} {v W δ : ℝ} (hv : 0 ≤ v) (hW : 0 ≤ W) : Monotone (growth J v W δ) := by
  intro s t h
  unfold growth
  refine add_le_add (mul_le_mul_of_nonneg_left h hv) (Finset.sum_le_sum fun j _ => mul_le_mul_of_nonneg_left ?_ hW)
  exact max_le_max (le_refl _) (min_le_min h (le_refl _))

theorem growth_le {J : Finset ℝ} {v W δ a b : ℝ} (hW : 0 ≤ W) (hδ : 0 ≤ δ) : growth J v W δ b - growth J v W δ a ≤ v * (b - a) + J.card * (W * (2 * δ)) := by
  unfold growth
  have : ∑ j ∈ J, W * max (j - δ) (min b (j + δ)) - ∑ j ∈ J, W * max (j - δ) (min a (j + δ)) ≤ J.card * (W * (2 * δ)) := by
    rw [← Finset.sum_sub_distrib, ← nsmul_eq_mul]
    refine Finset.sum_le_card_nsmul _ _ _ (fun j _ => ?_)
    rw [← mul_sub]
    refine mul_le_mul_of_nonneg_left ?_ hW
    have h1 : max (j - δ) (min b (j + δ)) ≤ j + δ := max_le (by linarith) (min_le_right _ _)
    have h2 : j - δ ≤ max (j - δ) (min a (j + δ)) := le_max_left _ _
    linarith
  linarith

/-- A slope that varies by at most `v` over steps away from the breaks. -/
theorem varies {y1 : ℝ → E} {J : Finset ℝ} {a b v W h κ : ℝ} (hv : 0 ≤ v) (hW : 0 ≤ W) (hvW : v ≤ W)
    (h1 : ∀ t u, a ≤ t → t < u → u ≤ b → u - t ≤ h → (∀ j ∈ J, ¬(t ≤ j + κ ∧ j - κ ≤ u)) → ∀ s ∈ Icc t u, ‖y1 s - y1 t‖ ≤ v)
    (h2 : ∀ s ∈ Icc a b, ∀ t ∈ Icc a b, ‖y1 s - y1 t‖ ≤ W) : Varies y1 a b W h (growth J v W (κ + h)) := by
  intro t u ha htu hb hh
  by_cases hJ : ∀ j ∈ J, ¬(t ≤ j + κ ∧ j - κ ≤ u)
  · refine ⟨v, hv, hvW, h1 t u ha htu hb hh hJ, ?_⟩
    have : ∑ j ∈ J, W * max (j - (κ + h)) (min t (j + (κ + h))) ≤ ∑ j ∈ J, W * max (j - (κ + h)) (min u (j + (κ + h))) :=
      Finset.sum_le_sum fun j _ => mul_le_mul_of_nonneg_left (max_le_max (le_refl _) (min_le_min htu.le (le_refl _))) hW
    unfold growth
    linarith
  · push Not at hJ
    obtain ⟨j, hj, h3, h4⟩ := hJ
    refine ⟨W, hW, le_refl _, fun s hs => h2 s ⟨by linarith [hs.1], by linarith [hs.2]⟩ t ⟨ha, by linarith⟩, ?_⟩
    have key : W * max (j - (κ + h)) (min t (j + (κ + h))) + W * (u - t) = W * max (j - (κ + h)) (min u (j + (κ + h))) := by
      rw [min_eq_left (by linarith), min_eq_left (by linarith), max_eq_right (by linarith), max_eq_right (by linarith)]
      ring
    have hsum : ∑ j ∈ J, W * max (j - (κ + h)) (min t (j + (κ + h))) + W * (u - t) ≤ ∑ j ∈ J, W * max (j - (κ + h)) (min u (j + (κ + h))) := by
      rw [← Finset.add_sum_erase _ _ hj, ← Finset.add_sum_erase _ _ hj, add_right_comm, key]
      exact add_le_add (le_refl _) (Finset.sum_le_sum fun i _ => mul_le_mul_of_nonneg_left (max_le_max (le_refl _) (min_le_min htu.le (le_refl _))) hW)
    unfold growth
    have := mul_le_mul_of_nonneg_left htu.le hv
    linarith

/-- A bounded slope that is continuous except at the breaks. -/
theorem varies_of_continuous {y1 : ℝ → E} {J : Finset ℝ} {a b W : ℝ} (hc : ContinuousOn y1 (Icc a b \ J)) (hW : ∀ s ∈ Icc a b, ∀ t ∈ Icc a b, ‖y1 s - y1 t‖ ≤ W)
    {v κ : ℝ} (hv : 0 < v) (hvW : v ≤ W) (hκ : 0 < κ) : ∃ h0 > 0, ∀ h, h ≤ h0 → Varies y1 a b W h (growth J v W (κ + h)) := by
  obtain ⟨K, hK⟩ : ∃ K : Set ℝ, K = Icc a b \ ⋃ j ∈ J, Ioo (j - κ) (j + κ) := ⟨_, rfl⟩
  have hKc : IsCompact K := by
    rw [hK]
    exact isCompact_Icc.diff (isOpen_biUnion fun _ _ => isOpen_Ioo)
  have hKs : K ⊆ Icc a b \ J := by
    rw [hK]
    rintro t ⟨h1, h2⟩
    refine ⟨h1, fun h3 => h2 ?_⟩
    simp only [mem_iUnion, mem_Ioo]
    exact ⟨t, h3, by linarith, by linarith⟩
  obtain ⟨δ, hδ, hu⟩ := Metric.uniformContinuousOn_iff.1 (hKc.uniformContinuousOn_of_continuous (hc.mono hKs)) v hv
  refine ⟨δ / 2, by linarith, fun h hh => varies hv.le (hv.le.trans hvW) hvW (fun t u ha htu hb hd hJ s hs => ?_) hW⟩
  have mem : ∀ s ∈ Icc t u, s ∈ K := by
    intro s hs
    rw [hK]
    refine ⟨⟨by linarith [hs.1], by linarith [hs.2]⟩, fun h3 => ?_⟩
    simp only [mem_iUnion, mem_Ioo] at h3
    obtain ⟨j, hj, h4, h5⟩ := h3
    exact hJ j hj ⟨by linarith [hs.1], by linarith [hs.2]⟩
  have := hu s (mem s hs) t (mem t ⟨le_refl _, htu.le⟩) (by rw [Real.dist_eq, abs_of_nonneg (by linarith [hs.1])]; linarith [hs.2])
  rw [dist_eq_norm] at this
  exact this.le

/-! ### Runge-Kutta methods -/

/-- A combination of slopes that are `z` up to `B`. -/
theorem comb_bound {z : E} {B : ℝ} : ∀ (a : List ℚ) (ks : List E), a.length ≤ ks.length → (∀ k ∈ ks, ‖k - z‖ ≤ B) →
    ‖Tableau.comb ℝ a ks - ((a.sum : ℚ) : ℝ) • z‖ ≤ (((a.map (fun q => |q|)).sum : ℚ) : ℝ) * B := by
  intro a
  induction a with
  | nil => intro ks _ _; simp [Tableau.comb]
  | cons q a ih =>
    intro ks hl hk
    match ks, hl with
    | k :: ks, hl =>
      have h1 := ih ks (by simpa using hl) (fun k' hk' => hk k' (.tail _ hk'))
      have h2 := hk k (.head _)
      have e : Tableau.comb ℝ (q :: a) (k :: ks) - (((q :: a).sum : ℚ) : ℝ) • z =
          (q : ℝ) • (k - z) + (Tableau.comb ℝ a ks - ((a.sum : ℚ) : ℝ) • z) := by
        unfold Tableau.comb
        rw [List.zipWith_cons_cons, List.sum_cons, List.sum_cons, Rat.cast_add]
        module
      rw [e]
      refine (norm_add_le _ _).trans ?_
      rw [norm_smul, Real.norm_eq_abs, List.map_cons, List.sum_cons, Rat.cast_add, Rat.cast_abs, add_mul]
      exact add_le_add (mul_le_mul_of_nonneg_left h2 (abs_nonneg _)) h1

/-- Each row has no more entries than there are stages before it. -/
def Rows : Nat → List (ℚ × List ℚ) → Prop
  | _, [] => True
  | k, (_, a) :: st => a.length ≤ k ∧ Rows (k + 1) st

/-- An explicit consistent method: the nodes are the sums of the rows and within the step, the weights add up to 1; `N` bounds its coefficients. -/
structure Mild (T : Tableau) (N : ℝ) : Prop where
  rows : Rows 0 T.stages
  nodes : ∀ st ∈ T.stages, st.2.sum = st.1 ∧ 0 ≤ st.1 ∧ st.1 ≤ 1
  sizes : ∀ st ∈ T.stages, (((st.2.map (fun q => |q|)).sum : ℚ) : ℝ) * T.stages.length ≤ N
  weights : T.b.sum = 1 ∧ T.b.length ≤ T.stages.length ∧ (((T.b.map (fun q => |q|)).sum : ℚ) : ℝ) * T.stages.length ≤ N
  one : 1 ≤ N

theorem mild_euler : Mild Tableau.euler 1 where
  rows := ⟨Nat.le_refl _, trivial⟩
  nodes := by decide +kernel
  sizes := by
    have : ∀ st ∈ Tableau.euler.stages, (st.2.map (fun q => |q|)).sum * Tableau.euler.stages.length ≤ 1 := by decide +kernel
    intro st hs; exact_mod_cast this st hs
  weights := ⟨by decide +kernel, by decide +kernel, by
    have : (Tableau.euler.b.map (fun q => |q|)).sum * Tableau.euler.stages.length ≤ 1 := by decide +kernel
    exact_mod_cast this⟩
  one := le_refl _

theorem mild_rk4 : Mild Tableau.rk4 4 where
  rows := ⟨by decide, by decide, by decide, by decide, trivial⟩
  nodes := by decide +kernel
  sizes := by
    have : ∀ st ∈ Tableau.rk4.stages, (st.2.map (fun q => |q|)).sum * Tableau.rk4.stages.length ≤ 4 := by decide +kernel
    intro st hs; exact_mod_cast this st hs
  weights := ⟨by decide +kernel, by decide +kernel, by
    have : (Tableau.rk4.b.map (fun q => |q|)).sum * Tableau.rk4.stages.length ≤ 4 := by decide +kernel
    exact_mod_cast this⟩
  one := by norm_num

theorem mild_fehlberg4 : Mild Tableau.fehlberg4 120 where
  rows := ⟨by decide, by decide, by decide, by decide, by decide, by decide, trivial⟩
  nodes := by decide +kernel
  sizes := by
    have : ∀ st ∈ Tableau.fehlberg4.stages, (st.2.map (fun q => |q|)).sum * Tableau.fehlberg4.stages.length ≤ 120 := by decide +kernel
    intro st hs; exact_mod_cast this st hs
  weights := ⟨by decide +kernel, by decide +kernel, by
    have : (Tableau.fehlberg4.b.map (fun q => |q|)).sum * Tableau.fehlberg4.stages.length ≤ 120 := by decide +kernel
    exact_mod_cast this⟩
  one := by norm_num

/-- One stage: slopes that are the one at the beginning of the step up to `B` give the next one. -/
theorem stage {f : ℝ → E → E} {y y1 : ℝ → E} {J : Finset ℝ} {a b r L w A : ℝ} (ht : Tube f y y1 J a b r L A) {t u B S : ℝ} {x : E} {c : ℚ} {row : List ℚ} {ks : List E}
    (ha : a ≤ t) (htu : t < u) (hub : u ≤ b) (hw : 0 ≤ w) (hmod : ∀ s ∈ Icc t u, ‖y1 s - y1 t‖ ≤ w) (hc : row.sum = c ∧ 0 ≤ c ∧ c ≤ 1) (hl : row.length ≤ ks.length)
    (hS : (((row.map (fun q => |q|)).sum : ℚ) : ℝ) ≤ S) (hB : 0 ≤ B) (hk : ∀ k ∈ ks, ‖k - y1 t‖ ≤ B) (hx : ‖x - y t‖ ≤ A) (hr : A + (u - t) * (S * B + w) ≤ r) :
    ‖f (t + (c : ℝ) * (u - t)) (x + (u - t) • Tableau.comb ℝ row ks) - y1 t‖ ≤ L * (A + (u - t) * (S * B + w)) + w := by
  have hd : 0 < u - t := by linarith
  have hc0 : (0 : ℝ) ≤ c := by exact_mod_cast hc.2.1
  have hc1 : (c : ℝ) ≤ 1 := by exact_mod_cast hc.2.2
  have hg0 : 0 ≤ (c : ℝ) * (u - t) := mul_nonneg hc0 hd.le
  have hg1 : (c : ℝ) * (u - t) ≤ u - t := mul_le_of_le_one_left hd.le hc1
  set g := (c : ℝ) * (u - t) with hg
  have htc : t + g ∈ Icc a b := ⟨by linarith, by linarith⟩
  have htt : t ∈ Icc a b := ⟨ha, by linarith⟩
  have h2 := taylor (w := w) ht.cont ht.deriv ha (show t ≤ t + g by linarith) htc.2 (fun s hs => hmod s ⟨hs.1, by linarith [hs.2]⟩)
  rw [add_sub_cancel_left] at h2
  have hcb := comb_bound row ks hl hk
  rw [hc.1] at hcb
  have h3 : ‖x + (u - t) • Tableau.comb ℝ row ks - y (t + g)‖ ≤ A + (u - t) * (S * B + w) := by
    have e : x + (u - t) • Tableau.comb ℝ row ks - y (t + g) =
        (x - y t) + (u - t) • (Tableau.comb ℝ row ks - (c : ℝ) • y1 t) - (y (t + g) - y t - g • y1 t) := by rw [hg]; module
    rw [e]
    refine (norm_sub_le _ _).trans ?_
    have h4 : ‖(u - t) • (Tableau.comb ℝ row ks - (c : ℝ) • y1 t)‖ ≤ (u - t) * (S * B) := by
      rw [norm_smul, Real.norm_of_nonneg hd.le]
      exact mul_le_mul_of_nonneg_left (hcb.trans (mul_le_mul_of_nonneg_right hS hB)) hd.le
    have h5 : w * g ≤ (u - t) * w := by rw [mul_comm]; exact mul_le_mul_of_nonneg_right hg1 hw
    have h6 := norm_add_le (x - y t) ((u - t) • (Tableau.comb ℝ row ks - (c : ℝ) • y1 t))
    linarith
  have h4 := ht.slope (t + g) htc _ (h3.trans hr)
  have h5 := hmod (t + g) ⟨by linarith, by linarith⟩
  have e : ∀ v, v - y1 t = (v - y1 (t + g)) + (y1 (t + g) - y1 t) := fun v => by abel
  rw [e]
  have hS0 : 0 ≤ S := le_trans (by exact_mod_cast List.sum_nonneg (by simp)) hS
  have h7 : A ≤ A + (u - t) * (S * B + w) := by have := mul_nonneg hd.le (add_nonneg (mul_nonneg hS0 hB) hw); linarith
  exact (norm_add_le _ _).trans (add_le_add (h4.trans (mul_le_mul_of_nonneg_left (max_le h3 h7) ht.pos)) h5)

/-- All stages. -/
theorem slopes_bound {f : ℝ → E → E} {y y1 : ℝ → E} {J : Finset ℝ} {a b r L w A : ℝ} (ht : Tube f y y1 J a b r L A) {t u S : ℝ} {x : E}
    (ha : a ≤ t) (htu : t < u) (hub : u ≤ b) (hw0 : 0 ≤ w) (hmod : ∀ s ∈ Icc t u, ‖y1 s - y1 t‖ ≤ w) (hx : ‖x - y t‖ ≤ A) (hS : 0 ≤ S) (hL1 : (u - t) * L ≤ 1) (hLS : (u - t) * L * S ≤ 1) :
    ∀ (st : List (ℚ × List ℚ)) (ks : List E) (B : ℝ), Rows ks.length st → (∀ s ∈ st, s.2.sum = s.1 ∧ 0 ≤ s.1 ∧ s.1 ≤ 1) →
    (∀ s ∈ st, (((s.2.map (fun q => |q|)).sum : ℚ) : ℝ) ≤ S) → 0 ≤ B → (∀ k ∈ ks, ‖k - y1 t‖ ≤ B) →
    A + (u - t) * (S * (B + st.length * (L * A + 2 * w)) + w) ≤ r →
    ∀ k ∈ Tableau.slopes f t x (u - t) st ks, ‖k - y1 t‖ ≤ B + st.length * (L * A + 2 * w) := by
  have hL0 := ht.pos
  have hd : 0 < u - t := by linarith
  have hA : 0 ≤ A := (norm_nonneg _).trans hx
  have hLA : 0 ≤ L * A := mul_nonneg hL0 hA
  intro st
  induction st with
  | nil => intro ks B _ _ _ _ hk _ k hm; simpa using hk k hm
  | cons s st ih =>
    intro ks B hrow hn hs hB hk hr
    obtain ⟨c, row⟩ := s
    have hlen : (((c, row) :: st).length : ℝ) = st.length + 1 := by simp
    rw [hlen] at hr ⊢
    have hst : (0 : ℝ) ≤ st.length * (L * A + 2 * w) := mul_nonneg (Nat.cast_nonneg _) (by linarith)
    have hge : B ≤ B + (st.length + 1) * (L * A + 2 * w) := by linarith [add_mul (st.length : ℝ) 1 (L * A + 2 * w)]
    have h0 := stage ht ha htu hub hw0 hmod (hn _ (.head _)) hrow.1 (hs _ (.head _)) hB hk hx (by
      refine le_trans ?_ hr
      have := mul_le_mul_of_nonneg_left (mul_le_mul_of_nonneg_left hge hS) hd.le
      linarith [mul_add (u - t) (S * B) w, mul_add (u - t) (S * (B + (st.length + 1) * (L * A + 2 * w))) w])
    have h1 : L * (A + (u - t) * (S * B + w)) + w ≤ B + (L * A + 2 * w) := by
      have q1 := mul_le_mul_of_nonneg_right hLS hB
      have q2 := mul_le_mul_of_nonneg_right hL1 hw0
      have e : L * (A + (u - t) * (S * B + w)) = L * A + (u - t) * L * S * B + (u - t) * L * w := by ring
      linarith
    have h2 := h0.trans h1
    have e3 : B + (st.length + 1) * (L * A + 2 * w) = (B + (L * A + 2 * w)) + st.length * (L * A + 2 * w) := by ring
    rw [e3] at hr ⊢
    refine ih _ _ (by rw [List.length_append]; exact hrow.2) (fun s' h' => hn s' (.tail _ h')) (fun s' h' => hs s' (.tail _ h')) (by linarith) ?_ hr
    intro k hm
    rcases List.mem_append.1 hm with hm | hm
    · linarith [hk k hm]
    · rw [List.mem_singleton] at hm; subst hm; exact h2

/-- One step of a Runge-Kutta method from a point within `A` of the solution. -/
theorem mild_step {T : Tableau} {N : ℝ} (hT : Mild T N) {f : ℝ → E → E} {y y1 : ℝ → E} {J : Finset ℝ} {a b r L W h A t u w : ℝ} {x : E} (ht : Tube f y y1 J a b r L A)
    (hL : h * (N * L) ≤ 1) (hr : h * (N * (L * (r / 2) + 3 * W)) ≤ r / 2) (ha : a ≤ t) (htu : t < u) (hub : u ≤ b) (hh : u - t ≤ h) (hw0 : 0 ≤ w) (hwW : w ≤ W)
    (hmod : ∀ s ∈ Icc t u, ‖y1 s - y1 t‖ ≤ w) (hxA : ‖x - y t‖ ≤ A) (hx : A ≤ r / 2) :
    ‖T.step f t x (u - t) - x - (u - t) • y1 t‖ ≤ (u - t) * (N * L * A + 2 * N * w) := by
  have hA : 0 ≤ A := (norm_nonneg _).trans hxA
  have hL0 := ht.pos
  have hd : 0 < u - t := by linarith
  have hN := hT.one
  have hNL : 0 ≤ N * L := mul_nonneg (by linarith) hL0
  have hb := hT.weights.1
  have hm : (1 : ℝ) ≤ T.stages.length := by
    have h1 : 1 ≤ T.b.length := by
      rcases e : T.b with _ | _
      · rw [e] at hb; cases hb
      · simp
    exact_mod_cast h1.trans hT.weights.2.1
  have hm0 : (0 : ℝ) < T.stages.length := by linarith
  have hLA : 0 ≤ L * A := mul_nonneg hL0 hA
  have q1 : (u - t) * (N * L) ≤ 1 := (mul_le_mul_of_nonneg_right hh hNL).trans hL
  set S := N / T.stages.length with hSdef
  have hSm : S * T.stages.length = N := div_mul_cancel₀ _ hm0.ne'
  have hS0 : 0 ≤ S := div_nonneg (by linarith) hm0.le
  have hSN : S ≤ N := div_le_self (by linarith) hm
  have hb1 := slopes_bound ht ha htu hub hw0 hmod hxA hS0 ((mul_le_mul_of_nonneg_left (le_mul_of_one_le_left hL0 hN) hd.le).trans q1)
    (by
      refine le_trans ?_ q1
      rw [mul_assoc, mul_comm L]
      exact mul_le_mul_of_nonneg_left (mul_le_mul_of_nonneg_right hSN hL0) hd.le)
    T.stages [] 0 hT.rows hT.nodes (fun s hs => by
      have hq : (0 : ℝ) ≤ 1 := by norm_num
      rw [hSdef, le_div_iff₀ hm0]; exact hT.sizes s hs) (le_refl _) (fun k hk => by cases hk) (by
      have e : S * (0 + T.stages.length * (L * A + 2 * w)) + w = N * (L * A + 2 * w) + w := by rw [zero_add, ← mul_assoc, hSm]
      rw [e]
      have q2 : N * (L * A + 2 * w) + w ≤ N * (L * (r / 2) + 3 * W) := by
        have q8 := mul_le_mul_of_nonneg_left hwW (show 0 ≤ N by linarith)
        have q3 : L * A ≤ L * (r / 2) := mul_le_mul_of_nonneg_left hx hL0
        have q4 := mul_le_mul_of_nonneg_left q3 (show 0 ≤ N by linarith)
        have q5 := mul_le_mul_of_nonneg_right hN hw0
        linarith
      have q6 : 0 ≤ N * (L * A + 2 * w) + w := by have := mul_nonneg (show 0 ≤ N by linarith) (show 0 ≤ L * A + 2 * w by linarith); linarith
      have q7 : (u - t) * (N * (L * A + 2 * w) + w) ≤ h * (N * (L * (r / 2) + 3 * W)) := mul_le_mul hh q2 q6 (by linarith)
      linarith)
  have hlen : T.b.length ≤ (Tableau.slopes f t x (u - t) T.stages []).length := by
    have : ∀ (st : List (ℚ × List ℚ)) (ks : List E), (Tableau.slopes f t x (u - t) st ks).length = ks.length + st.length := by
      intro st
      induction st with
      | nil => intro ks; rfl
      | cons s st ih => intro ks; obtain ⟨c, row⟩ := s; rw [show Tableau.slopes f t x (u - t) ((c, row) :: st) ks = Tableau.slopes f t x (u - t) st (ks ++ [_]) from rfl, ih]; simp; omega
    rw [this]; simpa using hT.weights.2.1
  have hcb := comb_bound T.b _ hlen hb1
  rw [hb, Rat.cast_one, one_smul] at hcb
  have e : T.step f t x (u - t) - x - (u - t) • y1 t = (u - t) • (Tableau.comb ℝ T.b (Tableau.slopes f t x (u - t) T.stages []) - y1 t) := by
    unfold Tableau.step; module
  rw [e, norm_smul, Real.norm_of_nonneg hd.le]
  refine mul_le_mul_of_nonneg_left (hcb.trans ?_) hd.le
  rw [zero_add, ← mul_assoc]
  refine (mul_le_mul_of_nonneg_right hT.weights.2.2 (by linarith)).trans (le_of_eq ?_)
  ring

theorem mild_increment {T : Tableau} {N : ℝ} (hT : Mild T N) {f : ℝ → E → E} {y y1 : ℝ → E} {J : Finset ℝ} {a b r L W h : ℝ} (ht : Tube f y y1 J a b r L)
    (hL : h * (N * L) ≤ 1) (hr : h * (N * (L * (r / 2) + 3 * W)) ≤ r / 2) :
    Increment (fun t x u => T.step f t x (u - t)) y y1 a b (r / 2) W h (N * L) (2 * N) :=
  fun _ _ _ _ ha htu hub hh hw0 hwW hmod hx => mild_step hT (ht.mono (norm_nonneg _)) hL hr ha htu hub hh hw0 hwW hmod (le_refl _) hx

end Pooya.Conv
