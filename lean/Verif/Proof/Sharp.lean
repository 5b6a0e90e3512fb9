import Verif.Spec.Smooth
import Verif.Proof.Course
import Mathlib.Analysis.Calculus.ContDiff.RCLike
import Mathlib.Analysis.Calculus.ContDiff.Deriv
import Mathlib.Analysis.Calculus.ContDiff.Operations

/-! Near a course of a smooth drawing, values of the signals that satisfy the equations are linear functions of the states, up to the square of the distance: the
analysis, without simulators. -/

namespace Pooya

open Set Filter Topology

set_option linter.unusedSectionVars false

attribute [local instance] Arith.exact

variable {d : Sketch} {a b : ℝ} {X : SigId → ℝ → ℝ}

/-! ### The signals are smooth -/

theorem smooth_sum {k : ℕ} {xs : List SigId} (h : ∀ x ∈ xs, ContDiffOn ℝ k (X x) (Icc a b)) : ContDiffOn ℝ k (fun t => (xs.map (fun s => X s t)).sum) (Icc a b) := by
  induction xs with
  | nil => simpa using contDiffOn_const
  | cons x xs ih => simpa using (h x (.head _)).add (ih fun y hy => h y (.tail _ hy))

theorem smooth_prod {k : ℕ} {xs : List SigId} (h : ∀ x ∈ xs, ContDiffOn ℝ k (X x) (Icc a b)) : ContDiffOn ℝ k (fun t => (xs.map (fun s => X s t)).prod) (Icc a b) := by
  induction xs with
  | nil => simpa using contDiffOn_const
  | cons x xs ih => simpa using (h x (.head _)).mul (ih fun y hy => h y (.tail _ hy))

theorem smooth_piece {k : ℕ} (hk : k ≤ 4) (hX : d.Course ∅ a b X) (hs : d.Smooth a b X) {p : Piece} (hp : p ∈ d.pieces) (hi : p.part.isIntegrator = false)
    (hins : ∀ x ∈ p.ins, ContDiffOn ℝ k (X x) (Icc a b)) : ContDiffOn ℝ k (X p.out) (Icc a b) := by
  have hk4 : (k : WithTop ℕ∞) ≤ 4 := by exact_mod_cast hk
  by_cases hne : (Icc a b).Nonempty
  swap
  · rw [not_nonempty_iff_eq_empty] at hne
    rw [hne]
    exact contDiffOn_empty
  have hm : ∀ t ∈ Icc a b, p.Holds t (fun s => X s t) := fun t ht => (hX.meets t ht).blocks p hp
  have hd := hX.defined p hp
  have hreg := hs.1 p hp
  obtain ⟨t1, ht1⟩ := hne
  have h1 := hm t1 ht1
  obtain ⟨id, part, ins, out⟩ := p
  simp only [Piece.Holds, Piece.Smooth] at hm h1 hd ⊢ hreg hins hi
  cases part with
  | const v =>
    match ins, h1 with
    | [], _ => exact contDiffOn_const.congr hm
  | source f => exact (hreg.of_le hk4).congr hm
  | gain g =>
    match ins, h1 with
    | [x], _ => exact (contDiffOn_const.mul (hins x (.head _))).congr hm
  | add v => exact (contDiffOn_const.add (smooth_sum hins)).congr hm
  | multiply v => exact (contDiffOn_const.mul (smooth_prod hins)).congr hm
  | subtract =>
    match ins, h1 with
    | [x, y], _ => exact ((hins x (.head _)).sub (hins y (.tail _ (.head _)))).congr hm
  | divide =>
    match ins, h1 with
    | [x, y], _ =>
      obtain ⟨c, hc, hcl⟩ := hd x y rfl rfl
      exact ((hins x (.head _)).div (hins y (.tail _ (.head _))) (fun t ht => abs_pos.1 (hc.trans_le (hcl t ht)))).congr hm
  | pipe =>
    match ins, h1 with
    | [x], _ => exact (hins x (.head _)).congr hm
  | siso f =>
    match ins, h1 with
    | [x], _ =>
      refine ContDiffOn.congr (fun t ht => ?_) hm
      exact ((hreg t ht).of_le hk4).comp_contDiffWithinAt t ((contDiffWithinAt_id).prodMk (hins x (.head _) t ht))
  | func f =>
    match ins, h1 with
    | x :: _, _ =>
      refine ContDiffOn.congr (fun t ht => ?_) hm
      exact ((hreg t ht).of_le hk4).comp_contDiffWithinAt t ((contDiffWithinAt_id).prodMk (hins x (.head _) t ht))
  | integrator x0 => cases hi
  | delay life => cases hreg

/-- All signals, if the integrators are smooth. -/
theorem smooth_signals {k : ℕ} (hk : k ≤ 4) {rank : BlkId → Nat} (hc : d.Closed rank) (hs : d.Smooth a b X) (hX : d.Course ∅ a b X)
    (hst : ∀ p ∈ d.pieces, p.part.isIntegrator = true → ContDiffOn ℝ k (X p.out) (Icc a b)) : ∀ s ∈ d.signals, ContDiffOn ℝ k (X s) (Icc a b) := by
  have hk4 : (k : WithTop ℕ∞) ≤ 4 := by exact_mod_cast hk
  have hin : ∀ u ∈ d.inputs, ContDiffOn ℝ k (X u.1) (Icc a b) := fun u hu => ((hs.2 u hu).of_le hk4).congr (fun t ht => (hX.meets t ht).inputs u hu)
  have hp : ∀ n, ∀ p ∈ d.pieces, rank p.id < n → ContDiffOn ℝ k (X p.out) (Icc a b) := by
    intro n
    induction n with
    | zero => intro p _ h; exact (Nat.not_lt_zero _ h).elim
    | succ n ih =>
      intro p hp hn
      by_cases hi : p.part.isIntegrator = true
      · exact hst p hp hi
      have hi : p.part.isIntegrator = false := by simpa using hi
      refine smooth_piece hk hX hs hp hi (fun x hx => ?_)
      rcases List.mem_append.1 (hc.provided p hp x hx) with h | h
      · obtain ⟨q, hq, rfl⟩ := List.mem_map.1 h
        rcases hc.loops p hp hi q hq hx with k | k
        · exact hst q hq k
        · exact ih q hq (by omega)
      · obtain ⟨u, hu, rfl⟩ := List.mem_map.1 h
        exact hin u hu
  intro s hs
  rcases List.mem_append.1 hs with h | h
  · obtain ⟨q, hq, rfl⟩ := List.mem_map.1 h
    exact hp _ q hq (Nat.lt_succ_self _)
  · obtain ⟨u, hu, rfl⟩ := List.mem_map.1 h
    exact hin u hu

/-- Integrators gain a derivative, so they have five. -/
theorem smooth_course (hab : a < b) {rank : BlkId → Nat} (hc : d.Closed rank) (hs : d.Smooth a b X) (hX : d.Course ∅ a b X) :
    ∀ k ≤ 5, ∀ p ∈ d.pieces, p.part.isIntegrator = true → ContDiffOn ℝ (k : ℕ) (X p.out) (Icc a b) := by
  intro k
  induction k with
  | zero =>
    intro _ p hp hi
    exact contDiffOn_zero.2 (hX.cont p hp hi)
  | succ k ih =>
    intro hk p hp hi
    have h1 := smooth_signals (k := k) (by omega) hc hs hX (ih (by omega))
    have hu : UniqueDiffOn ℝ (Icc a b) := uniqueDiffOn_Icc hab
    cases hpart : p.part with
    | integrator x0 =>
      have hf : p.Holds a (fun s => X s a) := (hX.meets a ⟨le_refl _, hab.le⟩).blocks p hp
      simp only [Piece.Holds, hpart] at hf
      match hins : p.ins, hf with
      | [x], _ =>
        have hd := hX.integrates p hp x0 x hpart hins
        rw [Nat.cast_succ, contDiffOn_succ_iff_derivWithin hu]
        refine ⟨fun t ht => (hd t ht (by simp)).differentiableWithinAt, fun h => ?_, ?_⟩
        · exact absurd h (by simp)
        · refine (h1 x (hc.provided p hp x (by rw [hins]; exact .head _))).congr fun t ht => ?_
          exact (hd t ht (by simp)).derivWithin (hu t ht)
    | _ => rw [hpart] at hi; cases hi

/-! ### Linear parts -/

variable {n : Nat} {o : Fin n → SigId}

/-- A linear function of the distances of the states `o`. -/
def linear (o : Fin n → SigId) (X : SigId → ℝ → ℝ) (lam : Fin n → ℝ) (t : ℝ) (Z : SigId → ℝ) : ℝ := ∑ i, lam i * (Z (o i) - X (o i) t)

/-- A quantity computed from the signals: smooth along the course, and a linear function of the states near it, up to the square of the distance. -/
structure Sharp (d : Sketch) (o : Fin n → SigId) (a b : ℝ) (X : SigId → ℝ → ℝ) (φ : ℝ → (SigId → ℝ) → ℝ) : Prop where
  smooth : ContDiffOn ℝ 2 (fun t => φ t (fun s => X s t)) (Icc a b)
  near : ∃ lam : Fin n → ℝ → ℝ, (∀ i, ContDiffOn ℝ 2 (lam i) (Icc a b)) ∧ ∃ r > 0, ∃ Q ≥ 0, ∀ t ∈ Icc a b, ∀ δ, 0 ≤ δ → δ ≤ r → ∀ Z, d.Off X t δ Z →
    |φ t Z - φ t (fun s => X s t) - linear o X (fun i => lam i t) t Z| ≤ Q * δ ^ 2

/-- The states are states. -/
def States (d : Sketch) (o : Fin n → SigId) : Prop :=
  (∀ i, ∃ p ∈ d.pieces, p.part.isIntegrator = true ∧ p.out = o i) ∧ ∀ p ∈ d.pieces, p.part.isIntegrator = true → ∃ i, o i = p.out

theorem linear_bound (ho : States d o) {lam : Fin n → ℝ → ℝ} (h : ∀ i, ContDiffOn ℝ 2 (lam i) (Icc a b)) :
    ∃ L ≥ 0, ∀ t ∈ Icc a b, ∀ δ Z, d.Off X t δ Z → |linear o X (fun i => lam i t) t Z| ≤ L * δ := by
  have hb : ∀ i, ∃ B, ∀ t ∈ Icc a b, ‖lam i t‖ ≤ B := fun i => isCompact_Icc.exists_bound_of_continuousOn (h i).continuousOn
  choose B hB using hb
  refine ⟨∑ i, |B i|, Finset.sum_nonneg fun i _ => abs_nonneg _, fun t ht δ Z hZ => ?_⟩
  unfold linear
  refine (Finset.abs_sum_le_sum_abs _ _).trans ?_
  rw [Finset.sum_mul]
  refine Finset.sum_le_sum fun i _ => ?_
  rw [abs_mul]
  obtain ⟨p, hp, hi, e⟩ := ho.1 i
  have h1 := hZ.states p hp hi
  rw [e] at h1
  exact mul_le_mul ((hB i t ht).trans (le_abs_self _)) h1 (abs_nonneg _) (abs_nonneg _)

/-- Hence Lipschitz continuous. -/
theorem Sharp.close (ho : States d o) {φ : ℝ → (SigId → ℝ) → ℝ} (h : Sharp d o a b X φ) :
    ∃ r > 0, ∃ L ≥ 0, ∀ t ∈ Icc a b, ∀ δ, 0 ≤ δ → δ ≤ r → ∀ Z, d.Off X t δ Z → |φ t Z - φ t (fun s => X s t)| ≤ L * δ := by
  obtain ⟨lam, h1, r, hr, Q, hQ, h2⟩ := h.near
  obtain ⟨L, hL, h3⟩ := linear_bound (X := X) ho h1
  refine ⟨min r 1, lt_min hr one_pos, L + Q, by linarith, fun t ht δ h0 hδ Z hZ => ?_⟩
  have q1 := h2 t ht δ h0 (hδ.trans (min_le_left _ _)) Z hZ
  have q2 := h3 t ht δ Z hZ
  have q3 : δ ^ 2 ≤ δ := by nlinarith [hδ.trans (min_le_right _ _)]
  have q4 := mul_le_mul_of_nonneg_left q3 hQ
  have q5 := abs_add_le (φ t Z - φ t (fun s => X s t) - linear o X (fun i => lam i t) t Z) (linear o X (fun i => lam i t) t Z)
  rw [sub_add_cancel] at q5
  linarith

theorem Sharp.nice (ho : States d o) {φ : ℝ → (SigId → ℝ) → ℝ} (h : Sharp d o a b X φ) : Nice d ∅ a b X φ := by
  obtain ⟨r, hr, L, hL, h2⟩ := h.close ho
  exact ⟨h.smooth.continuousOn.mono sdiff_subset, isCompact_Icc.exists_bound_of_continuousOn h.smooth.continuousOn, r, hr, L, hL,
    fun t ht δ h0 hδ Z hZ => h2 t ht δ h0 hδ Z hZ.off⟩

theorem Sharp.congr {φ ψ : ℝ → (SigId → ℝ) → ℝ} (h : Sharp d o a b X φ) (hX : ∀ t ∈ Icc a b, ψ t (fun s => X s t) = φ t (fun s => X s t))
    (hZ : ∀ t ∈ Icc a b, ∀ Z, d.Meets t Z → ψ t Z = φ t Z) : Sharp d o a b X ψ := by
  obtain ⟨lam, h1, r, hr, Q, hQ, h2⟩ := h.near
  refine ⟨h.smooth.congr hX, lam, h1, r, hr, Q, hQ, fun t ht δ h0 hδ Z hz => ?_⟩
  rw [hX t ht, hZ t ht Z hz.meets]
  exact h2 t ht δ h0 hδ Z hz

theorem Sharp.fixed {f : ℝ → ℝ} (h : ContDiffOn ℝ 2 f (Icc a b)) : Sharp d o a b X (fun t _ => f t) :=
  ⟨h, fun _ _ => 0, fun _ => contDiffOn_const, 1, one_pos, 0, le_refl _, fun t _ δ _ _ Z _ => by simp [linear]⟩

theorem Sharp.const (v : ℝ) : Sharp d o a b X (fun _ _ => v) := Sharp.fixed contDiffOn_const

theorem Sharp.add {φ ψ : ℝ → (SigId → ℝ) → ℝ} (h : Sharp d o a b X φ) (k : Sharp d o a b X ψ) : Sharp d o a b X (fun t Z => φ t Z + ψ t Z) := by
  obtain ⟨lam, h1, r, hr, Q, hQ, h2⟩ := h.near
  obtain ⟨mu, k1, r', hr', Q', hQ', k2⟩ := k.near
  refine ⟨h.smooth.add k.smooth, fun i t => lam i t + mu i t, fun i => (h1 i).add (k1 i), min r r', lt_min hr hr', Q + Q', by linarith, fun t ht δ h0 hδ Z hZ => ?_⟩
  have e1 := h2 t ht δ h0 (hδ.trans (min_le_left _ _)) Z hZ
  have e2 := k2 t ht δ h0 (hδ.trans (min_le_right _ _)) Z hZ
  have e3 : linear o X (fun i => lam i t + mu i t) t Z = linear o X (fun i => lam i t) t Z + linear o X (fun i => mu i t) t Z := by
    unfold linear
    rw [← Finset.sum_add_distrib]
    exact Finset.sum_congr rfl fun i _ => by ring
  rw [e3]
  have e : ∀ p q p' q' u v : ℝ, p + q - (p' + q') - (u + v) = (p - p' - u) + (q - q' - v) := fun _ _ _ _ _ _ => by ring
  rw [e, add_mul]
  exact (abs_add_le _ _).trans (add_le_add e1 e2)

theorem Sharp.mul (ho : States d o) {φ ψ : ℝ → (SigId → ℝ) → ℝ} (h : Sharp d o a b X φ) (k : Sharp d o a b X ψ) : Sharp d o a b X (fun t Z => φ t Z * ψ t Z) := by
  obtain ⟨A, hA, hA'⟩ := (h.nice ho).bound
  obtain ⟨B, hB, hB'⟩ := (k.nice ho).bound
  obtain ⟨r1, hr1, L, hL, h3⟩ := h.close ho
  obtain ⟨r2, hr2, L', hL', k3⟩ := k.close ho
  obtain ⟨lam, h1, r, hr, Q, hQ, h2⟩ := h.near
  obtain ⟨mu, k1, r', hr', Q', hQ', k2⟩ := k.near
  refine ⟨h.smooth.mul k.smooth, fun i t => φ t (fun s => X s t) * mu i t + ψ t (fun s => X s t) * lam i t, fun i => (h.smooth.mul (k1 i)).add (k.smooth.mul (h1 i)),
    min (min r r') (min r1 r2), lt_min (lt_min hr hr') (lt_min hr1 hr2), A * Q' + B * Q + L * L', by positivity, fun t ht δ h0 hδ Z hZ => ?_⟩
  have d1 := hδ.trans (min_le_left _ _)
  have d2 := hδ.trans (min_le_right _ _)
  have e1 := h2 t ht δ h0 (d1.trans (min_le_left _ _)) Z hZ
  have e2 := k2 t ht δ h0 (d1.trans (min_le_right _ _)) Z hZ
  have e3 := h3 t ht δ h0 (d2.trans (min_le_left _ _)) Z hZ
  have e4 := k3 t ht δ h0 (d2.trans (min_le_right _ _)) Z hZ
  have e5 := hA' t ht
  have e6 := hB' t ht
  have e7 : linear o X (fun i => φ t (fun s => X s t) * mu i t + ψ t (fun s => X s t) * lam i t) t Z =
      φ t (fun s => X s t) * linear o X (fun i => mu i t) t Z + ψ t (fun s => X s t) * linear o X (fun i => lam i t) t Z := by
    unfold linear
    rw [Finset.mul_sum, Finset.mul_sum, ← Finset.sum_add_distrib]
    exact Finset.sum_congr rfl fun i _ => by ring
  rw [e7]
  generalize φ t Z = x at *
  generalize φ t (fun s => X s t) = x' at *
  generalize ψ t Z = y at *
  generalize ψ t (fun s => X s t) = y' at *
  generalize linear o X (fun i => mu i t) t Z = v at *
  generalize linear o X (fun i => lam i t) t Z = u at *
  have e : x * y - x' * y' - (x' * v + y' * u) = x' * (y - y' - v) + y' * (x - x' - u) + (x - x') * (y - y') := by ring
  rw [e]
  refine (abs_add_le _ _).trans ((add_le_add (abs_add_le _ _) (le_refl _)).trans ?_)
  rw [abs_mul, abs_mul, abs_mul]
  have q1 := mul_le_mul e5 e2 (abs_nonneg _) hA
  have q2 := mul_le_mul e6 e1 (abs_nonneg _) hB
  have q3 := mul_le_mul e3 e4 (abs_nonneg _) (by positivity)
  have q4 : (A * Q' + B * Q + L * L') * δ ^ 2 = A * (Q' * δ ^ 2) + B * (Q * δ ^ 2) + L * δ * (L' * δ) := by ring
  rw [q4]
  linarith

theorem Sharp.sub (ho : States d o) {φ ψ : ℝ → (SigId → ℝ) → ℝ} (h : Sharp d o a b X φ) (k : Sharp d o a b X ψ) : Sharp d o a b X (fun t Z => φ t Z - ψ t Z) :=
  (h.add ((Sharp.const (-1)).mul ho k)).congr (fun t _ => by ring) (fun t _ Z _ => by ring)

/-- A smooth function near a point. -/
theorem taylor_near {F : ℝ × ℝ → ℝ} {q : ℝ × ℝ} (hF : ContDiffAt ℝ 4 F q) :
    ∃ ε > 0, ∃ K ≥ 0, ∀ t x x', (t, x) ∈ Metric.ball q ε → (t, x') ∈ Metric.ball q ε → |F (t, x) - F (t, x') - fderiv ℝ F (t, x') (0, 1) * (x - x')| ≤ K * (x - x') ^ 2 := by
  have h1 : ContDiffAt ℝ 1 (fderiv ℝ F) q := hF.fderiv_right (by norm_num)
  obtain ⟨K, s, hs, hK⟩ := h1.exists_lipschitzOnWith
  have h2 : ∀ᶠ p in 𝓝 q, ContDiffAt ℝ 4 F p := hF.eventually (by norm_num)
  obtain ⟨ε, hε, hb⟩ := Metric.eventually_nhds_iff_ball.1 (h2.and hs)
  refine ⟨ε, hε, K, K.2, fun t x x' hx hx' => ?_⟩
  -- along the segment
  have hseg : ∀ z ∈ segment ℝ x' x, (t, z) ∈ Metric.ball q ε := by
    intro z hz
    have := (convex_ball q ε).segment_subset hx' hx
    refine this ?_
    rw [← Prod.image_mk_segment_right]
    exact ⟨z, hz, rfl⟩
  have hd : ∀ z ∈ segment ℝ x' x, HasDerivWithinAt (fun z => F (t, z) - fderiv ℝ F (t, x') (0, 1) * z) (fderiv ℝ F (t, z) (0, 1) - fderiv ℝ F (t, x') (0, 1)) (segment ℝ x' x) z := by
    intro z hz
    have hf := ((hb _ (hseg z hz)).1.differentiableAt (by norm_num)).hasFDerivAt
    have hl : HasDerivAt (fun z : ℝ => (t, z)) ((0 : ℝ), (1 : ℝ)) z := (hasDerivAt_const z t).prodMk (hasDerivAt_id z)
    have hcomp := hf.comp_hasDerivAt z hl
    have hm : HasDerivAt (fun z : ℝ => fderiv ℝ F (t, x') (0, 1) * z) (fderiv ℝ F (t, x') (0, 1)) z := by
      simpa using (hasDerivAt_id z).const_mul (fderiv ℝ F (t, x') (0, 1))
    exact (hcomp.sub hm).hasDerivWithinAt
  have hB : ∀ z ∈ segment ℝ x' x, ‖fderiv ℝ F (t, z) (0, 1) - fderiv ℝ F (t, x') (0, 1)‖ ≤ K * |x - x'| := by
    intro z hz
    have h3 := hK.norm_sub_le (hb _ (hseg z hz)).2 (hb _ hx').2
    have h4 : ‖(fderiv ℝ F (t, z) - fderiv ℝ F (t, x')) (0, 1)‖ ≤ ‖fderiv ℝ F (t, z) - fderiv ℝ F (t, x')‖ * ‖((0 : ℝ), (1 : ℝ))‖ := ContinuousLinearMap.le_opNorm _ _
    have h5 : ‖((0 : ℝ), (1 : ℝ))‖ = 1 := by simp [Prod.norm_def]
    have h6 : ‖(t, z) - (t, x')‖ = |z - x'| := by simp [Prod.norm_def]
    rw [h5, mul_one, _root_.sub_apply] at h4
    rw [h6] at h3
    refine h4.trans (h3.trans (mul_le_mul_of_nonneg_left ?_ K.2))
    have := norm_sub_le_of_mem_segment hz
    simpa [Real.norm_eq_abs] using this
  have key := (convex_segment x' x).norm_image_sub_le_of_norm_hasDerivWithin_le hd hB (left_mem_segment ℝ x' x) (right_mem_segment ℝ x' x)
  rw [Real.norm_eq_abs, Real.norm_eq_abs] at key
  have e : F (t, x) - fderiv ℝ F (t, x') (0, 1) * x - (F (t, x') - fderiv ℝ F (t, x') (0, 1) * x') = F (t, x) - F (t, x') - fderiv ℝ F (t, x') (0, 1) * (x - x') := by ring
  rw [e, mul_assoc, abs_mul_abs_self, ← sq] at key
  exact key

/-- A smooth function along a curve. -/
theorem taylor_along {F : ℝ × ℝ → ℝ} {g : ℝ → ℝ} (hg : ContinuousOn g (Icc a b)) (hF : ∀ t ∈ Icc a b, ContDiffAt ℝ 4 F (t, g t)) :
    ∃ r > 0, ∃ K ≥ 0, ∀ t ∈ Icc a b, ∀ x, |x - g t| ≤ r → |F (t, x) - F (t, g t) - fderiv ℝ F (t, g t) (0, 1) * (x - g t)| ≤ K * (x - g t) ^ 2 := by
  refine isCompact_Icc.induction_on (p := fun s => ∃ r > 0, ∃ K ≥ 0, ∀ t ∈ s, ∀ x, |x - g t| ≤ r → |F (t, x) - F (t, g t) - fderiv ℝ F (t, g t) (0, 1) * (x - g t)| ≤ K * (x - g t) ^ 2)
    ⟨1, one_pos, 0, le_refl _, fun t ht => ht.elim⟩ ?_ ?_ ?_
  · rintro s s' hss ⟨r, hr, K, hK, h⟩
    exact ⟨r, hr, K, hK, fun t ht => h t (hss ht)⟩
  · rintro s s' ⟨r, hr, K, hK, h⟩ ⟨r', hr', K', hK', h'⟩
    refine ⟨min r r', lt_min hr hr', max K K', hK.trans (le_max_left _ _), fun t ht x hx => ?_⟩
    rcases ht with ht | ht
    · exact (h t ht x (hx.trans (min_le_left _ _))).trans (mul_le_mul_of_nonneg_right (le_max_left _ _) (sq_nonneg _))
    · exact (h' t ht x (hx.trans (min_le_right _ _))).trans (mul_le_mul_of_nonneg_right (le_max_right _ _) (sq_nonneg _))
  · intro t0 ht0
    obtain ⟨ε, hε, K, hK, h⟩ := taylor_near (hF t0 ht0)
    have hc : ContinuousWithinAt (fun t => (t, g t)) (Icc a b) t0 := continuousWithinAt_id.prodMk (hg t0 ht0)
    refine ⟨{t | (t, g t) ∈ Metric.ball (t0, g t0) (ε / 2)}, hc (Metric.ball_mem_nhds _ (by linarith)), ε / 4, by linarith, K, hK, fun t ht x hx => ?_⟩
    have ht' : (t, g t) ∈ Metric.ball (t0, g t0) (ε / 2) := ht
    refine h t x (g t) ?_ (Metric.ball_subset_ball (by linarith) ht')
    rw [Metric.mem_ball, Prod.dist_eq, max_lt_iff] at ht' ⊢
    refine ⟨by linarith [ht'.1], ?_⟩
    have := dist_triangle x (g t) (g t0)
    rw [Real.dist_eq x (g t)] at this
    simp only at ht' ⊢
    linarith [ht'.2]

/-- A function of time and a value. -/
theorem Sharp.comp (ho : States d o) {f : ℝ → ℝ → ℝ} {φ : ℝ → (SigId → ℝ) → ℝ} (h : Sharp d o a b X φ)
    (hf : ∀ t ∈ Icc a b, ContDiffAt ℝ 4 (fun q : ℝ × ℝ => f q.1 q.2) (t, φ t (fun s => X s t))) : Sharp d o a b X (fun t Z => f t (φ t Z)) := by
  obtain ⟨r1, hr1, L, hL, h3⟩ := h.close ho
  obtain ⟨lam, h1, r, hr, Q, hQ, h2⟩ := h.near
  obtain ⟨r2, hr2, K, hK, k⟩ := taylor_along h.smooth.continuousOn hf
  have hcurve : ContDiffOn ℝ 2 (fun t => (t, φ t (fun s => X s t))) (Icc a b) := contDiffOn_id.prodMk h.smooth
  have hder : ContDiffOn ℝ 2 (fun t => fderiv ℝ (fun q : ℝ × ℝ => f q.1 q.2) (t, φ t (fun s => X s t)) (0, 1)) (Icc a b) := by
    intro t ht
    have q1 : ContDiffAt ℝ 2 (fderiv ℝ (fun q : ℝ × ℝ => f q.1 q.2)) (t, φ t (fun s => X s t)) := (hf t ht).fderiv_right (by norm_num)
    exact (q1.comp_contDiffWithinAt t (hcurve t ht)).clm_apply contDiffWithinAt_const
  obtain ⟨D, hD⟩ := isCompact_Icc.exists_bound_of_continuousOn hder.continuousOn
  have hsm : ContDiffOn ℝ 2 (fun t => f t (φ t (fun s => X s t))) (Icc a b) := by
    intro t ht
    have q1 : ContDiffAt ℝ 2 (fun q : ℝ × ℝ => f q.1 q.2) (t, φ t (fun s => X s t)) := (hf t ht).of_le (by norm_num)
    exact q1.comp_contDiffWithinAt t (hcurve t ht)
  refine ⟨hsm,
    fun i t => fderiv ℝ (fun q : ℝ × ℝ => f q.1 q.2) (t, φ t (fun s => X s t)) (0, 1) * lam i t, fun i => hder.mul (h1 i),
    min (min r r1) (r2 / (L + 1)), lt_min (lt_min hr hr1) (by positivity), K * L ^ 2 + |D| * Q, by positivity, fun t ht δ h0 hδ Z hZ => ?_⟩
  have d1 := hδ.trans (min_le_left _ _)
  have e1 := h2 t ht δ h0 (d1.trans (min_le_left _ _)) Z hZ
  have e2 := h3 t ht δ h0 (d1.trans (min_le_right _ _)) Z hZ
  have e3 : L * δ ≤ r2 := by
    have := hδ.trans (min_le_right _ _)
    rw [le_div_iff₀ (by linarith)] at this
    linarith
  have e4 := k t ht (φ t Z) (e2.trans e3)
  have e5 := (hD t ht).trans (le_abs_self D)
  rw [Real.norm_eq_abs] at e5
  have e7 : linear o X (fun i => fderiv ℝ (fun q : ℝ × ℝ => f q.1 q.2) (t, φ t (fun s => X s t)) (0, 1) * lam i t) t Z =
      fderiv ℝ (fun q : ℝ × ℝ => f q.1 q.2) (t, φ t (fun s => X s t)) (0, 1) * linear o X (fun i => lam i t) t Z := by
    unfold linear
    rw [Finset.mul_sum]
    exact Finset.sum_congr rfl fun i _ => by ring
  rw [e7]
  generalize fderiv ℝ (fun q : ℝ × ℝ => f q.1 q.2) (t, φ t (fun s => X s t)) (0, 1) = g at *
  simp only at e4
  generalize φ t Z = x at *
  generalize φ t (fun s => X s t) = x' at *
  generalize linear o X (fun i => lam i t) t Z = u at *
  have e : f t x - f t x' - g * u = (f t x - f t x' - g * (x - x')) + g * (x - x' - u) := by ring
  rw [e]
  refine (abs_add_le _ _).trans ?_
  rw [abs_mul]
  have q1 := mul_le_mul e5 e1 (abs_nonneg _) (abs_nonneg D)
  have q2 : (x - x') ^ 2 ≤ (L * δ) ^ 2 := by rw [← sq_abs]; exact pow_le_pow_left₀ (abs_nonneg _) e2 2
  have q3 := mul_le_mul_of_nonneg_left q2 hK
  have q4 : (K * L ^ 2 + |D| * Q) * δ ^ 2 = K * (L * δ) ^ 2 + |D| * (Q * δ ^ 2) := by ring
  rw [q4]
  linarith

theorem Sharp.inv (ho : States d o) {φ : ℝ → (SigId → ℝ) → ℝ} (h : Sharp d o a b X φ) (h0 : ∀ t ∈ Icc a b, φ t (fun s => X s t) ≠ 0) : Sharp d o a b X (fun t Z => (φ t Z)⁻¹) :=
  h.comp ho (f := fun _ x => x⁻¹) fun t ht => (contDiffAt_inv ℝ (h0 t ht)).comp (t, φ t (fun s => X s t)) contDiffAt_snd

theorem Sharp.sum {xs : List SigId} (h : ∀ x ∈ xs, Sharp d o a b X (fun _ Z => Z x)) : Sharp d o a b X (fun _ Z => (xs.map Z).sum) := by
  induction xs with
  | nil => exact Sharp.const 0
  | cons x xs ih =>
    refine ((h x (.head _)).add (ih fun y hy => h y (.tail _ hy))).congr (fun t _ => ?_) (fun t _ Z _ => ?_) <;> simp

theorem Sharp.prod (ho : States d o) {xs : List SigId} (h : ∀ x ∈ xs, Sharp d o a b X (fun _ Z => Z x)) : Sharp d o a b X (fun _ Z => (xs.map Z).prod) := by
  induction xs with
  | nil => exact Sharp.const 1
  | cons x xs ih =>
    refine ((h x (.head _)).mul ho (ih fun y hy => h y (.tail _ hy))).congr (fun t _ => ?_) (fun t _ Z _ => ?_) <;> simp

/-- The states. -/
theorem Sharp.state (ho : States d o) {p : Piece} (hp : p ∈ d.pieces) (hi : p.part.isIntegrator = true) (hs : ContDiffOn ℝ 2 (X p.out) (Icc a b)) :
    Sharp d o a b X (fun _ Z => Z p.out) := by
  obtain ⟨i, e⟩ := ho.2 p hp hi
  refine ⟨hs, fun j _ => if j = i then 1 else 0, fun j => contDiffOn_const, 1, one_pos, 0, le_refl _, fun t _ δ _ _ Z _ => ?_⟩
  simp [linear, e]

/-- The output of a block, if its inputs are all right. -/
theorem Sharp.piece (ho : States d o) (hX : d.Course ∅ a b X) (hr : d.Smooth a b X) {p : Piece} (hp : p ∈ d.pieces) (hi : p.part.isIntegrator = false)
    (hins : ∀ x ∈ p.ins, Sharp d o a b X (fun _ Z => Z x)) : Sharp d o a b X (fun _ Z => Z p.out) := by
  by_cases hne : (Icc a b).Nonempty
  swap
  · rw [not_nonempty_iff_eq_empty] at hne
    exact ⟨by rw [hne]; exact contDiffOn_empty, fun _ _ => 0, fun _ => contDiffOn_const, 1, one_pos, 0, le_refl _, fun t ht => by rw [hne] at ht; cases ht⟩
  have hm : ∀ t ∈ Icc a b, ∀ Z, d.Meets t Z → p.Holds t Z := fun t _ Z h => h.blocks p hp
  have hm' : ∀ t ∈ Icc a b, p.Holds t (fun s => X s t) := fun t ht => hm t ht _ (hX.meets t ht)
  have hd := hX.defined p hp
  have hreg := hr.1 p hp
  obtain ⟨t1, ht1⟩ := hne
  have h1 := hm' t1 ht1
  obtain ⟨id, part, ins, out⟩ := p
  simp only [Piece.Holds, Piece.Smooth] at hm hm' h1 hd ⊢ hreg hins hi
  have key : ∀ φ : ℝ → (SigId → ℝ) → ℝ, Sharp d o a b X φ → (∀ t ∈ Icc a b, X out t = φ t (fun s => X s t)) → (∀ t ∈ Icc a b, ∀ Z, d.Meets t Z → Z out = φ t Z) →
      Sharp d o a b X (fun _ Z => Z out) := fun φ h h1 h2 => h.congr h1 h2
  cases part with
  | const v =>
    match ins, h1 with
    | [], _ => exact key _ (Sharp.const v) hm' hm
  | source f => exact key _ (Sharp.fixed (hreg.of_le (by norm_num))) hm' hm
  | gain k =>
    match ins, h1 with
    | [x], _ => exact key _ ((Sharp.const k).mul ho (hins x (.head _))) hm' hm
  | add v => exact key _ ((Sharp.const v).add (Sharp.sum hins)) hm' hm
  | multiply v => exact key _ ((Sharp.const v).mul ho (Sharp.prod ho hins)) hm' hm
  | subtract =>
    match ins, h1 with
    | [x, y], _ => exact key _ ((hins x (.head _)).sub ho (hins y (.tail _ (.head _)))) hm' hm
  | divide =>
    match ins, h1 with
    | [x, y], _ =>
      obtain ⟨c, hc, hcl⟩ := hd x y rfl rfl
      exact key _ ((hins x (.head _)).mul ho ((hins y (.tail _ (.head _))).inv ho fun t ht => abs_pos.1 (hc.trans_le (hcl t ht)))) hm' hm
  | pipe =>
    match ins, h1 with
    | [x], _ => exact key _ (hins x (.head _)) hm' hm
  | siso f =>
    match ins, h1 with
    | [x], _ => exact key _ (Sharp.comp ho (hins x (.head _)) hreg) hm' hm
  | func f =>
    match ins, h1 with
    | x :: _, _ => exact key _ (Sharp.comp ho (f := f) (hins x (.head _)) hreg) hm' hm
  | integrator x0 => cases hi
  | delay life => cases hreg

/-- All signals. -/
theorem Sharp.all (ho : States d o) (hab : a < b) {rank : BlkId → Nat} (hc : d.Closed rank) (hr : d.Smooth a b X) (hX : d.Course ∅ a b X) :
    ∀ s ∈ d.signals, Sharp d o a b X (fun _ Z => Z s) := by
  have hst : ∀ p ∈ d.pieces, p.part.isIntegrator = true → Sharp d o a b X (fun _ Z => Z p.out) := fun p hp hi =>
    Sharp.state ho hp hi (by exact_mod_cast smooth_course hab hc hr hX 2 (by norm_num) p hp hi)
  have hin : ∀ u ∈ d.inputs, Sharp d o a b X (fun _ Z => Z u.1) := fun u hu =>
    (Sharp.fixed ((hr.2 u hu).of_le (by norm_num))).congr (fun t ht => (hX.meets t ht).inputs u hu) (fun t _ Z hZ => hZ.inputs u hu)
  have hp : ∀ n, ∀ p ∈ d.pieces, rank p.id < n → Sharp d o a b X (fun _ Z => Z p.out) := by
    intro n
    induction n with
    | zero => intro p _ h; exact (Nat.not_lt_zero _ h).elim
    | succ n ih =>
      intro p hp hn
      by_cases hi : p.part.isIntegrator = true
      · exact hst p hp hi
      have hi : p.part.isIntegrator = false := by simpa using hi
      refine Sharp.piece ho hX hr hp hi (fun x hx => ?_)
      rcases List.mem_append.1 (hc.provided p hp x hx) with h | h
      · obtain ⟨q, hq, rfl⟩ := List.mem_map.1 h
        rcases hc.loops p hp hi q hq hx with k | k
        · exact hst q hq k
        · exact ih q hq (by omega)
      · obtain ⟨u, hu, rfl⟩ := List.mem_map.1 h
        exact hin u hu
  intro s hs
  rcases List.mem_append.1 hs with h | h
  · obtain ⟨q, hq, rfl⟩ := List.mem_map.1 h
    exact hp _ q hq (Nat.lt_succ_self _)
  · obtain ⟨u, hu, rfl⟩ := List.mem_map.1 h
    exact hin u hu

end Pooya
