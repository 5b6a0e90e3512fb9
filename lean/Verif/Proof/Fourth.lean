import Mathlib.Analysis.Asymptotics.Lemmas
import Mathlib.Analysis.Normed.Operator.Mul
import Mathlib.Analysis.Calculus.Deriv.Pow
import Mathlib.Analysis.Calculus.IteratedDeriv.Defs
import Mathlib.Data.Nat.Factorial.BigOperators
import Mathlib.Tactic.FieldSimp
import Mathlib.Tactic.NoncommRing
import Verif.Proof.Converge

/-! The error of Runge-Kutta methods of order 4 along smooth solutions: the analysis, without block diagrams. -/

namespace Pooya.Conv

open Set Filter Asymptotics Topology Finset

variable {E : Type} [NormedAddCommGroup E] [NormedSpace ℝ E]

/-! ### Taylor expansions -/

/-- A function and its derivatives up to the `m`-th, all bounded by `M`. -/
structure Ladder {F : Type} [NormedAddCommGroup F] [NormedSpace ℝ F] (y : ℕ → ℝ → F) (m : ℕ) (a b M : ℝ) : Prop where
  deriv : ∀ k < m, ∀ t ∈ Icc a b, HasDerivWithinAt (y k) (y (k + 1) t) (Icc a b) t
  bound : ∀ k ≤ m, ∀ t ∈ Icc a b, ‖y k t‖ ≤ M

/-- The first `n` terms of the expansion of the `k`-th derivative at `t`. -/
noncomputable def poly {F : Type} [NormedAddCommGroup F] [NormedSpace ℝ F] (y : ℕ → ℝ → F) (t : ℝ) (n k : ℕ) (h : ℝ) : F :=
  ∑ i ∈ range n, (h ^ i / (i.factorial : ℝ)) • y (k + i) t

theorem poly_deriv {y : ℕ → ℝ → E} {t : ℝ} (n k : ℕ) (h : ℝ) : HasDerivAt (poly y t (n + 1) k) (poly y t n (k + 1) h) h := by
  have e : poly y t (n + 1) k = fun h => ∑ i ∈ range n, (h ^ (i + 1) / ((i + 1).factorial : ℝ)) • y (k + (i + 1)) t + y k t := by
    funext h
    unfold poly
    rw [sum_range_succ']
    simp
  rw [e]
  refine HasDerivAt.add_const _ ?_
  unfold poly
  refine HasDerivAt.fun_sum fun i _ => ?_
  have h1 : HasDerivAt (fun h : ℝ => h ^ (i + 1) / ((i + 1).factorial : ℝ)) (h ^ i / (i.factorial : ℝ)) h := by
    have := (hasDerivAt_pow (i + 1) h).div_const ((i + 1).factorial : ℝ)
    refine this.congr_deriv ?_
    rw [Nat.factorial_succ, Nat.add_sub_cancel]
    have : (i.factorial : ℝ) ≠ 0 := Nat.cast_ne_zero.2 (Nat.factorial_ne_zero _)
    have : ((i : ℝ) + 1) ≠ 0 := by positivity
    push_cast
    field_simp
  have := h1.smul_const (y (k + (i + 1)) t)
  rwa [show k + (i + 1) = k + 1 + i by omega] at this ⊢

theorem poly_zero {y : ℕ → ℝ → E} {t : ℝ} (n k : ℕ) : poly y t (n + 1) k 0 = y k t := by
  unfold poly
  rw [sum_range_succ']
  simp

theorem Ladder.taylor {y : ℕ → ℝ → E} {m : ℕ} {a b M : ℝ} (hy : Ladder y m a b M) {t : ℝ} (ha : a ≤ t) (n : ℕ) : ∀ {k : ℕ} {u : ℝ}, k + n ≤ m → t ≤ u → u ≤ b →
    ‖y k u - poly y t n k (u - t)‖ ≤ M * (u - t) ^ n := by
  induction n with
  | zero =>
    intro k u hk htu hub
    simpa [poly] using hy.bound k hk u ⟨ha.trans htu, hub⟩
  | succ n ih =>
    intro k u hk htu hub
    have hM : 0 ≤ M := (norm_nonneg _).trans (hy.bound 0 (Nat.zero_le _) t ⟨ha, htu.trans hub⟩)
    have hsub : Icc t u ⊆ Icc a b := Icc_subset_Icc ha hub
    have hd : ∀ s ∈ Icc t u, s ∉ (∅ : Finset ℝ) → HasDerivWithinAt (fun s => y k s - poly y t (n + 1) k (s - t)) (y (k + 1) s - poly y t n (k + 1) (s - t)) (Icc t u) s := by
      intro s hs _
      refine ((hy.deriv k (by omega) s (hsub hs)).mono hsub).sub ?_
      have := (poly_deriv (y := y) (t := t) n k (s - t)).scomp s ((hasDerivAt_id s).sub_const t)
      simpa [Function.comp_def] using this.hasDerivWithinAt
    have hb : ∀ s ∈ Icc t u, ‖y (k + 1) s - poly y t n (k + 1) (s - t)‖ ≤ M * (u - t) ^ n := by
      intro s hs
      refine (ih (k := k + 1) (by omega) hs.1 (hs.2.trans hub)).trans ?_
      exact mul_le_mul_of_nonneg_left (pow_le_pow_left₀ (by linarith [hs.1]) (by linarith [hs.2]) n) hM
    have := mean_value ∅ htu (fun s hs => (hd s hs (by simp)).continuousWithinAt) hd hb
    rw [sub_self t, poly_zero, sub_self, sub_zero] at this
    rw [pow_succ, ← mul_assoc]
    exact this

/-- Smooth functions have derivatives. -/
theorem ladder_of {F : Type} [NormedAddCommGroup F] [NormedSpace ℝ F] {y : ℝ → F} {m : ℕ} {a b : ℝ} (hab : a < b) (h : ContDiffOn ℝ m y (Icc a b)) :
    ∃ M, Ladder (fun k => iteratedDerivWithin k y (Icc a b)) m a b M := by
  have hu : UniqueDiffOn ℝ (Icc a b) := uniqueDiffOn_Icc hab
  have hb : ∀ k : ℕ, ∃ B, k ≤ m → ∀ t ∈ Icc a b, ‖iteratedDerivWithin k y (Icc a b) t‖ ≤ B := by
    intro k
    by_cases hk : k ≤ m
    · obtain ⟨B, hB⟩ := isCompact_Icc.exists_bound_of_continuousOn (h.continuousOn_iteratedDerivWithin (m := k) (by exact_mod_cast hk) hu)
      exact ⟨B, fun _ => hB⟩
    · exact ⟨0, fun h => (hk h).elim⟩
  choose B hB using hb
  refine ⟨∑ k ∈ range (m + 1), |B k|, fun k hk t ht => ?_, fun k hk t ht => ?_⟩
  · have hd := h.differentiableOn_iteratedDerivWithin (m := k) (by exact_mod_cast hk) hu t ht
    have := hd.hasDerivWithinAt
    rwa [← iteratedDerivWithin_succ] at this
  · refine (hB k hk t ht).trans ((le_abs_self _).trans ?_)
    exact single_le_sum (f := fun k => |B k|) (fun i _ => abs_nonneg _) (mem_range.2 (by omega))

/-! ### The setting -/

/-- `y 0` is a solution, with derivatives up to the fifth; near it, `f` is `y 1` and the linear function `A 0` of the distance, up to its square; `A 0` has two
derivatives along the solution. -/
structure Sleek (f : ℝ → E → E) (y : ℕ → ℝ → E) (A : ℕ → ℝ → E →L[ℝ] E) (a b r Q M : ℝ) : Prop where
  sol : Ladder y 5 a b M
  lin : Ladder A 2 a b M
  slope : ∀ t ∈ Icc a b, ∀ x, ‖x - y 0 t‖ ≤ r → ‖f t x - y 1 t - A 0 t (x - y 0 t)‖ ≤ Q * ‖x - y 0 t‖ ^ 2

/-- A step: its beginning, the state there, its end. -/
abbrev Par (E : Type) : Type := ℝ × E × ℝ

/-- Short steps within `[a, b]`, from states close to the solution. -/
def short (y : ℝ → E) (a b : ℝ) : Filter (Par E) :=
  comap (fun π => (π.2.2 - π.1, π.2.1 - y π.1)) (𝓝 ((0 : ℝ), (0 : E))) ⊓ 𝓟 {π | a ≤ π.1 ∧ π.1 < π.2.2 ∧ π.2.2 ≤ b}

/-- The length of the step. -/
def len (π : Par E) : ℝ := π.2.2 - π.1

/-- The error at the beginning. -/
def err (y : ℝ → E) (π : Par E) : E := π.2.1 - y π.1

/-- What is neglected. -/
noncomputable def rest (y : ℝ → E) (π : Par E) : ℝ := len π ^ 4 + ‖err y π‖

section
variable {y : ℝ → E} {a b : ℝ}

theorem short_in : ∀ᶠ π in short y a b, a ≤ π.1 ∧ π.1 < π.2.2 ∧ π.2.2 ≤ b := mem_inf_of_right (mem_principal_self _)

theorem short_len : Tendsto len (short y a b) (𝓝 0) := by
  have : Tendsto (fun π : Par E => (π.2.2 - π.1, π.2.1 - y π.1)) (short y a b) (𝓝 ((0 : ℝ), (0 : E))) := tendsto_comap.mono_left inf_le_left
  exact (continuous_fst.tendsto _).comp this

theorem short_err : Tendsto (err y) (short y a b) (𝓝 0) := by
  have : Tendsto (fun π : Par E => (π.2.2 - π.1, π.2.1 - y π.1)) (short y a b) (𝓝 ((0 : ℝ), (0 : E))) := tendsto_comap.mono_left inf_le_left
  exact (continuous_snd.tendsto _).comp this

/-- What holds for short steps holds up to some length and distance. -/
theorem of_short {P : Par E → Prop} (h : ∀ᶠ π in short y a b, P π) :
    ∃ δ > 0, ∀ t u x, a ≤ t → t < u → u ≤ b → u - t ≤ δ → ‖x - y t‖ ≤ δ → P (t, x, u) := by
  unfold short at h
  rw [eventually_inf_principal, eventually_comap, Metric.eventually_nhds_iff] at h
  obtain ⟨ε, hε, h⟩ := h
  refine ⟨ε / 2, by linarith, fun t u x h1 h2 h3 h4 h5 => ?_⟩
  refine h (y := (u - t, x - y t)) ?_ (t, x, u) rfl ⟨h1, h2, h3⟩
  rw [Prod.dist_eq, dist_zero_right, dist_zero_right]
  exact max_lt (by rw [Real.norm_of_nonneg (by linarith)]; linarith) (by linarith)

theorem len_bdd : (len : Par E → ℝ) =O[short y a b] (fun _ => (1 : ℝ)) := short_len.isBigO_one ℝ

theorem len_pow_rest : (fun π : Par E => len π ^ 4) =O[short y a b] rest y := by
  refine IsBigO.of_bound 1 (Eventually.of_forall fun π => ?_)
  have h1 : 0 ≤ len π ^ 4 := by positivity
  have h2 := norm_nonneg (err y π)
  unfold rest
  rw [one_mul, Real.norm_of_nonneg h1, Real.norm_of_nonneg (by linarith)]
  linarith

theorem err_rest : err y =O[short y a b] rest y := by
  refine IsBigO.of_bound 1 (Eventually.of_forall fun π => ?_)
  have h1 : 0 ≤ len π ^ 4 := by positivity
  have h2 := norm_nonneg (err y π)
  unfold rest
  rw [one_mul, Real.norm_of_nonneg (r := _ + _) (by linarith)]
  linarith

/-- Terms of order 4. -/
theorem pow_rest {F : Type} [NormedAddCommGroup F] [NormedSpace ℝ F] {v : Par E → F} (hv : v =O[short y a b] (fun _ => (1 : ℝ))) : (fun π => len π ^ 4 • v π) =O[short y a b] rest y := by
  have := (len_pow_rest (y := y) (a := a) (b := b)).smul hv
  simpa using this

theorem apply_bdd {A : Par E → E →L[ℝ] E} {v : Par E → E} {g g' : Par E → ℝ} {l : Filter (Par E)} (hA : A =O[l] g) (hv : v =O[l] g') : (fun π => A π (v π)) =O[l] (fun π => g π * g' π) := by
  refine (IsBigO.of_bound 1 (Eventually.of_forall fun π => ?_)).trans (hA.norm_left.mul hv.norm_left)
  rw [one_mul, Real.norm_of_nonneg (by positivity)]
  exact (A π).le_opNorm _

end

variable {f : ℝ → E → E} {y : ℕ → ℝ → E} {A : ℕ → ℝ → E →L[ℝ] E} {a b r Q M : ℝ}

theorem Ladder.bdd {F : Type} [NormedAddCommGroup F] [NormedSpace ℝ F] {z : ℕ → ℝ → F} {m : ℕ} (hz : Ladder z m a b M) {x : ℝ → E} {k : ℕ} (hk : k ≤ m) {c : ℝ} (h0 : 0 ≤ c) (h1 : c ≤ 1) :
    (fun π : Par E => z k (π.1 + c * len π)) =O[short x a b] (fun _ => (1 : ℝ)) := by
  refine IsBigO.of_bound M (short_in.mono fun π hπ => ?_)
  rw [norm_one, mul_one]
  have hl : 0 < len π := sub_pos.2 hπ.2.1
  have hc : c * len π ≤ len π := mul_le_of_le_one_left hl.le h1
  have : 0 ≤ c * len π := mul_nonneg h0 hl.le
  refine hz.bound k hk _ ⟨by linarith [hπ.1], ?_⟩
  have : len π = π.2.2 - π.1 := rfl
  linarith [hπ.2.2]

theorem Ladder.bdd' {F : Type} [NormedAddCommGroup F] [NormedSpace ℝ F] {z : ℕ → ℝ → F} {m : ℕ} (hz : Ladder z m a b M) {x : ℝ → E} {k : ℕ} (hk : k ≤ m) :
    (fun π : Par E => z k π.1) =O[short x a b] (fun _ => (1 : ℝ)) := by
  simpa using hz.bdd (x := x) hk (le_refl (0 : ℝ)) zero_le_one

/-- Taylor expansion, for short steps. -/
theorem Ladder.expand {F : Type} [NormedAddCommGroup F] [NormedSpace ℝ F] {z : ℕ → ℝ → F} {m : ℕ} (hz : Ladder z m a b M) {x : ℝ → E} {k n : ℕ} (hk : k + n ≤ m) {c : ℝ} (h0 : 0 ≤ c) (h1 : c ≤ 1) :
    (fun π : Par E => z k (π.1 + c * len π) - poly z π.1 n k (c * len π)) =O[short x a b] (fun π => len π ^ n) := by
  refine IsBigO.of_bound M (short_in.mono fun π hπ => ?_)
  have hl : 0 < len π := sub_pos.2 hπ.2.1
  have hc : c * len π ≤ len π := mul_le_of_le_one_left hl.le h1
  have hc0 : 0 ≤ c * len π := mul_nonneg h0 hl.le
  have e : len π = π.2.2 - π.1 := rfl
  have := hz.taylor hπ.1 n hk (show π.1 ≤ π.1 + c * len π by linarith) (by linarith [hπ.2.2])
  rw [add_sub_cancel_left] at this
  have hM : 0 ≤ M := (norm_nonneg _).trans (hz.bound 0 (Nat.zero_le _) π.1 ⟨hπ.1, by linarith [hπ.2.2]⟩)
  refine this.trans ?_
  rw [Real.norm_of_nonneg (by positivity)]
  exact mul_le_mul_of_nonneg_left (pow_le_pow_left₀ hc0 hc n) hM

/-! ### The stages -/

/-- The terms of slopes, one for each rooted tree with at most four nodes. -/
noncomputable def term (y : ℕ → ℝ → E) (A : ℕ → ℝ → E →L[ℝ] E) (π : Par E) : Fin 8 → E :=
  ![y 1 π.1, len π • y 2 π.1, len π ^ 2 • y 3 π.1, len π ^ 3 • y 4 π.1, len π ^ 2 • A 0 π.1 (y 2 π.1), len π ^ 3 • A 1 π.1 (y 2 π.1), len π ^ 3 • A 0 π.1 (y 3 π.1),
    len π ^ 3 • A 0 π.1 (A 0 π.1 (y 2 π.1))]

/-- A slope is the combination of the terms with the coefficients `w`. -/
def Expands (y : ℕ → ℝ → E) (A : ℕ → ℝ → E →L[ℝ] E) (a b : ℝ) (κ : Par E → E) (w : Fin 8 → ℚ) : Prop :=
  (fun π => κ π - ∑ i, (w i : ℝ) • term y A π i) =O[short (y 0) a b] rest (y 0)

/-- The coefficients of the next slope: `d` are those of the combination of the slopes so far. -/
def next (c : ℚ) (d : Fin 8 → ℚ) : Fin 8 → ℚ :=
  ![1, c, c ^ 2 / 2, c ^ 3 / 6, d 1 - c ^ 2 / 2, c * (d 1 - c ^ 2 / 2), d 2 - c ^ 3 / 6, d 4]

theorem next_slope (hs : Sleek f y A a b r Q M) (hr : 0 < r) {c : ℚ} (h0 : 0 ≤ c) (h1 : c ≤ 1) {κ : Par E → E} {d : Fin 8 → ℚ} (hκ : Expands y A a b κ d) (hd : d 0 = c) :
    Expands y A a b (fun π => f (π.1 + (c : ℝ) * len π) (π.2.1 + len π • κ π)) (next c d) := by
  have hc0 : (0 : ℝ) ≤ c := by exact_mod_cast h0
  have hc1 : (c : ℝ) ≤ 1 := by exact_mod_cast h1
  have Y : ∀ k ≤ 5, (fun π : Par E => y k π.1) =O[short (y 0) a b] (fun _ => (1 : ℝ)) := fun k hk => hs.sol.bdd' hk
  have L : ∀ k ≤ 2, (fun π : Par E => A k π.1) =O[short (y 0) a b] (fun _ => (1 : ℝ)) := fun k hk => hs.lin.bdd' hk
  have ap : ∀ {B : Par E → E →L[ℝ] E} {v : Par E → E}, B =O[short (y 0) a b] (fun _ => (1 : ℝ)) → v =O[short (y 0) a b] (fun _ => (1 : ℝ)) →
      (fun π => B π (v π)) =O[short (y 0) a b] (fun _ => (1 : ℝ)) := fun hB hv => by simpa using apply_bdd hB hv
  -- the distance of the point from the solution
  obtain ⟨e, he⟩ : ∃ e : Par E → E, e = fun π => π.2.1 + len π • κ π - y 0 (π.1 + (c : ℝ) * len π) := ⟨_, rfl⟩
  obtain ⟨t, ht⟩ : ∃ t : Par E → E, t = fun π => (d 1 - c ^ 2 / 2 : ℝ) • y 2 π.1 + len π • ((d 2 - c ^ 3 / 6 : ℝ) • y 3 π.1 + (d 4 : ℝ) • A 0 π.1 (y 2 π.1)) := ⟨_, rfl⟩
  have htb : t =O[short (y 0) a b] (fun _ => (1 : ℝ)) := by
    rw [ht]
    refine ((Y 2 (by norm_num)).const_smul_left _).add ?_
    simpa using len_bdd.smul (((Y 3 (by norm_num)).const_smul_left _).add ((ap (L 0 (by norm_num)) (Y 2 (by norm_num))).const_smul_left _))
  have e1 : (fun π => e π - len π ^ 2 • t π) =O[short (y 0) a b] rest (y 0) := by
    have q1 : (fun π : Par E => len π • (κ π - ∑ i, (d i : ℝ) • term y A π i)) =O[short (y 0) a b] rest (y 0) := by simpa using len_bdd.smul hκ
    have q2 := (hs.sol.expand (x := y 0) (k := 0) (n := 4) (by norm_num) hc0 hc1).trans len_pow_rest
    have q3 : (fun π : Par E => len π ^ 4 • ((d 3 : ℝ) • y 4 π.1 + (d 5 : ℝ) • A 1 π.1 (y 2 π.1) + (d 6 : ℝ) • A 0 π.1 (y 3 π.1) + (d 7 : ℝ) • A 0 π.1 (A 0 π.1 (y 2 π.1))))
        =O[short (y 0) a b] rest (y 0) :=
      pow_rest (((((Y 4 (by norm_num)).const_smul_left _).add ((ap (L 1 (by norm_num)) (Y 2 (by norm_num))).const_smul_left _)).add
        ((ap (L 0 (by norm_num)) (Y 3 (by norm_num))).const_smul_left _)).add ((ap (L 0 (by norm_num)) (ap (L 0 (by norm_num)) (Y 2 (by norm_num)))).const_smul_left _))
    refine (((err_rest.add q1).add q3).sub q2).congr_left fun π => ?_
    have hd' : (d 0 : ℝ) = c := by rw [hd]
    simp only [he, ht, err, poly, term, Fin.sum_univ_eight, sum_range_succ, range_zero, sum_empty, Nat.factorial, hd']
    simp
    module
  -- its square is neglected
  have e2 : e =O[short (y 0) a b] (fun π => len π ^ 2 + ‖err (y 0) π‖) := by
    have q1 : (fun π : Par E => len π ^ 2) =O[short (y 0) a b] (fun π => len π ^ 2 + ‖err (y 0) π‖) := by
      refine IsBigO.of_bound 1 (Eventually.of_forall fun π => ?_)
      have h1 : 0 ≤ len π ^ 2 := by positivity
      have h2 := norm_nonneg (err (y 0) π)
      rw [one_mul, Real.norm_of_nonneg h1, Real.norm_of_nonneg (by linarith)]
      linarith
    have q2 : err (y 0) =O[short (y 0) a b] (fun π => len π ^ 2 + ‖err (y 0) π‖) := by
      refine IsBigO.of_bound 1 (Eventually.of_forall fun π => ?_)
      have h1 : 0 ≤ len π ^ 2 := by positivity
      have h2 := norm_nonneg (err (y 0) π)
      rw [one_mul, Real.norm_of_nonneg (r := _ + _) (by linarith)]
      linarith
    have q3 : (fun π : Par E => len π ^ 4) =O[short (y 0) a b] (fun π => len π ^ 2) := by
      have := (len_bdd (y := y 0) (a := a) (b := b)).pow 2 |>.mul (isBigO_refl (fun π : Par E => len π ^ 2) (short (y 0) a b))
      simpa [← pow_add] using this
    have q4 : rest (y 0) =O[short (y 0) a b] (fun π => len π ^ 2 + ‖err (y 0) π‖) := (q3.trans q1).add q2.norm_left
    have q5 : (fun π => len π ^ 2 • t π) =O[short (y 0) a b] (fun π => len π ^ 2 + ‖err (y 0) π‖) := by
      simpa using q1.smul htb
    refine ((e1.trans q4).add q5).congr_left fun π => ?_
    abel
  have e3 : (fun π => ‖e π‖ ^ 2) =O[short (y 0) a b] rest (y 0) := by
    refine (e2.norm_left.pow 2).trans (IsBigO.of_bound 2 ?_)
    have hn : Tendsto (fun π => ‖err (y 0) π‖) (short (y 0) a b) (𝓝 0) := by simpa using (short_err (y := y 0) (a := a) (b := b)).norm
    filter_upwards [hn.eventually (ge_mem_nhds zero_lt_one)] with π hπ
    have h1 := norm_nonneg (err (y 0) π)
    have h2 : 0 ≤ len π ^ 4 := by positivity
    unfold rest
    rw [Real.norm_of_nonneg (by positivity), Real.norm_of_nonneg (by linarith)]
    have h3 : ‖err (y 0) π‖ ^ 2 ≤ ‖err (y 0) π‖ := by nlinarith
    have h4 : (len π ^ 2) ^ 2 = len π ^ 4 := by ring
    nlinarith [sq_nonneg (len π ^ 2 - ‖err (y 0) π‖)]
  have e4 : Tendsto e (short (y 0) a b) (𝓝 0) := by
    refine e2.trans_tendsto ?_
    simpa using ((short_len (y := y 0) (a := a) (b := b)).pow 2).add (short_err (y := y 0) (a := a) (b := b)).norm
  have e5 : (fun π => f (π.1 + (c : ℝ) * len π) (π.2.1 + len π • κ π) - y 1 (π.1 + (c : ℝ) * len π) - A 0 (π.1 + (c : ℝ) * len π) (e π)) =O[short (y 0) a b] rest (y 0) := by
    refine (IsBigO.of_bound Q ?_).trans e3
    have hn : Tendsto (fun π => ‖e π‖) (short (y 0) a b) (𝓝 0) := by simpa using e4.norm
    filter_upwards [hn.eventually (ge_mem_nhds hr), short_in] with π hπ hin
    have hl : 0 < len π := sub_pos.2 hin.2.1
    have hcl : c * len π ≤ len π := mul_le_of_le_one_left hl.le hc1
    have hcl0 : 0 ≤ c * len π := mul_nonneg hc0 hl.le
    have el : len π = π.2.2 - π.1 := rfl
    rw [Real.norm_of_nonneg (by positivity)]
    rw [he] at hπ ⊢
    exact hs.slope _ ⟨by linarith [hin.1], by linarith [hin.2.2]⟩ _ hπ
  have e6 : (fun π => A 0 (π.1 + (c : ℝ) * len π) (e π - len π ^ 2 • t π)) =O[short (y 0) a b] rest (y 0) := by
    simpa using apply_bdd (hs.lin.bdd (by norm_num) hc0 hc1) e1
  have e7 : (fun π => (A 0 (π.1 + (c : ℝ) * len π) - poly A π.1 2 0 (c * len π)) (len π ^ 2 • t π)) =O[short (y 0) a b] rest (y 0) := by
    have q1 : (fun π => len π ^ 2 • t π) =O[short (y 0) a b] (fun π => len π ^ 2) := by simpa using (isBigO_refl (fun π : Par E => len π ^ 2) (short (y 0) a b)).smul htb
    have q2 := apply_bdd (hs.lin.expand (x := y 0) (k := 0) (n := 2) (by norm_num) hc0 hc1) q1
    refine (q2.congr_right fun π => ?_).trans len_pow_rest
    ring
  have e8 : (fun π => len π ^ 4 • (c : ℝ) • A 1 π.1 ((d 2 - c ^ 3 / 6 : ℝ) • y 3 π.1 + (d 4 : ℝ) • A 0 π.1 (y 2 π.1))) =O[short (y 0) a b] rest (y 0) :=
    pow_rest ((ap (L 1 (by norm_num)) (((Y 3 (by norm_num)).const_smul_left _).add ((ap (L 0 (by norm_num)) (Y 2 (by norm_num))).const_smul_left _))).const_smul_left _)
  have e9 := (hs.sol.expand (x := y 0) (k := 1) (n := 4) (by norm_num) hc0 hc1).trans len_pow_rest
  refine ((((e5.add e6).add e7).add e8).add e9).congr_left fun π => ?_
  simp only [ht, poly, term, next, Fin.sum_univ_eight, sum_range_succ, range_zero, sum_empty, Nat.factorial]
  simp
  module

/-- The coefficients of the combination of slopes. -/
def dot (a : List ℚ) (ws : List (Fin 8 → ℚ)) (i : Fin 8) : ℚ := (List.zipWith (fun q w => q * w i) a ws).sum

theorem dot_slopes (row : List ℚ) : ∀ {κs : List (Par E → E)} {ws : List (Fin 8 → ℚ)}, List.Forall₂ (Expands y A a b) κs ws →
    Expands y A a b (fun π => Tableau.comb ℝ row (κs.map (fun κ => κ π))) (dot row ws) := by
  induction row with
  | nil => intro κs ws _; simp [Expands, Tableau.comb, dot, isBigO_zero]
  | cons q row ih =>
    intro κs ws h
    cases h with
    | nil => simp [Expands, Tableau.comb, dot, isBigO_zero]
    | cons h1 h2 =>
      refine ((h1.const_smul_left (q : ℝ)).add (ih h2)).congr_left fun π => ?_
      simp only [Tableau.comb, dot, List.map_cons, List.zipWith_cons_cons, List.sum_cons, Rat.cast_add, Rat.cast_mul, add_smul, sum_add_distrib, smul_sum, mul_smul, Pi.smul_apply, smul_sub]
      abel

/-- The coefficients of all slopes. -/
def coeffs : List (ℚ × List ℚ) → List (Fin 8 → ℚ) → List (Fin 8 → ℚ)
  | [], ws => ws
  | (c, a) :: st, ws => coeffs st (ws ++ [next c (dot a ws)])

/-- The nodes are within the step, and the sums of the rows. -/
def Nodes : List (ℚ × List ℚ) → List (Fin 8 → ℚ) → Prop
  | [], _ => True
  | (c, a) :: st, ws => 0 ≤ c ∧ c ≤ 1 ∧ dot a ws 0 = c ∧ Nodes st (ws ++ [next c (dot a ws)])

instance decNodes : (st : List (ℚ × List ℚ)) → (ws : List (Fin 8 → ℚ)) → Decidable (Nodes st ws)
  | [], _ => .isTrue trivial
  | (c, a) :: st, ws =>
    have := decNodes st (ws ++ [next c (dot a ws)])
    inferInstanceAs (Decidable (0 ≤ c ∧ c ≤ 1 ∧ dot a ws 0 = c ∧ Nodes st (ws ++ [next c (dot a ws)])))

theorem all_slopes (hs : Sleek f y A a b r Q M) (hr : 0 < r) (st : List (ℚ × List ℚ)) : ∀ {κs : List (Par E → E)} {ws : List (Fin 8 → ℚ)},
    List.Forall₂ (Expands y A a b) κs ws → Nodes st ws →
    ∃ κs' : List (Par E → E), (∀ π : Par E, Tableau.slopes f π.1 π.2.1 (len π) st (κs.map (fun κ => κ π)) = κs'.map (fun κ => κ π)) ∧
      List.Forall₂ (Expands y A a b) κs' (coeffs st ws) := by
  induction st with
  | nil => intro κs ws h _; exact ⟨κs, fun _ => rfl, h⟩
  | cons s st ih =>
    intro κs ws h hn
    obtain ⟨c, row⟩ := s
    obtain ⟨n1, n2, n3, n4⟩ := hn
    have hk := next_slope hs hr n1 n2 (dot_slopes row h) n3
    obtain ⟨κs', g1, g2⟩ := ih (List.rel_append h (.cons hk .nil)) n4
    refine ⟨κs', fun π => ?_, g2⟩
    rw [← g1 π]
    show Tableau.slopes f π.1 π.2.1 (len π) st _ = _
    rw [List.map_append]
    rfl

/-- The conditions for order 4. -/
structure Fourth (T : Tableau) : Prop where
  nodes : Nodes T.stages []
  weights : dot T.b (coeffs T.stages []) = ![1, 1 / 2, 1 / 6, 1 / 24, 0, 0, 0, 0]

/-- The error of one step. -/
theorem Fourth.step {T : Tableau} (hT : Fourth T) (hs : Sleek f y A a b r Q M) (hr : 0 < r) :
    ∃ δ > 0, ∃ C ≥ 0, ∀ t u x, a ≤ t → t < u → u ≤ b → u - t ≤ δ → ‖x - y 0 t‖ ≤ δ →
      ‖T.step f t x (u - t) - x - (y 0 u - y 0 t)‖ ≤ (u - t) * (C * ((u - t) ^ 4 + ‖x - y 0 t‖)) := by
  obtain ⟨κs, g1, g2⟩ := all_slopes hs hr T.stages .nil hT.nodes
  have h1 := dot_slopes T.b g2
  rw [hT.weights] at h1
  have h2 : (fun π : Par E => len π • (Tableau.comb ℝ T.b (κs.map (fun κ => κ π)) - ∑ i, ((![1, 1 / 2, 1 / 6, 1 / 24, 0, 0, 0, 0] : Fin 8 → ℚ) i : ℝ) • term y A π i))
      =O[short (y 0) a b] (fun π => len π * rest (y 0) π) := (isBigO_refl (fun π : Par E => len π) _).smul h1
  have h3 : (fun π : Par E => y 0 (π.1 + 1 * len π) - poly y π.1 5 0 (1 * len π)) =O[short (y 0) a b] (fun π => len π * rest (y 0) π) := by
    refine (hs.sol.expand (x := y 0) (k := 0) (n := 5) (by norm_num) zero_le_one (le_refl _)).trans ?_
    refine ((isBigO_refl (fun π : Par E => len π) _).mul len_pow_rest).congr_left fun π => ?_
    ring
  have h4 : (fun π : Par E => T.step f π.1 π.2.1 (len π) - π.2.1 - (y 0 (π.1 + 1 * len π) - y 0 π.1)) =O[short (y 0) a b] (fun π => len π * rest (y 0) π) := by
    refine (h2.sub h3).congr_left fun π => ?_
    have := g1 π
    rw [List.map_nil] at this
    simp only [Tableau.step, this, term, poly, Fin.sum_univ_eight, sum_range_succ, range_zero, sum_empty, Nat.factorial]
    simp
    module
  obtain ⟨C, hC, h5⟩ := h4.exists_nonneg
  obtain ⟨δ, hδ, h6⟩ := of_short h5.bound
  refine ⟨δ, hδ, C, hC, fun t u x p1 p2 p3 p4 p5 => ?_⟩
  have h7 := h6 t u x p1 p2 p3 p4 p5
  have e : len (t, x, u) = u - t := rfl
  have p6 : 0 ≤ u - t := by linarith
  rw [Real.norm_of_nonneg (mul_nonneg (e ▸ p6) (by unfold rest; positivity))] at h7
  simp only [e, one_mul, add_sub_cancel, rest, err] at h7
  refine h7.trans (le_of_eq ?_)
  ring

theorem fourth_rk4 : Fourth Tableau.rk4 := ⟨by decide +kernel, by decide +kernel⟩

theorem fourth_fehlberg4 : Fourth Tableau.fehlberg4 := ⟨by decide +kernel, by decide +kernel⟩

/-- The global error. -/
theorem Fourth.iter {T : Tableau} (hT : Fourth T) (hs : Sleek f y A a b r Q M) (hr : 0 < r) :
    ∃ δ > 0, ∃ B ≥ 0, ∀ η, 0 ≤ η → η ≤ δ → ∀ ts : List ℝ, (a :: ts).Pairwise (· < ·) → (a :: ts).IsChain (fun s u => u - s ≤ η) → (a :: ts).getLast (by simp) ≤ b →
      ‖Conv.iter (fun t x u => T.step f t x (u - t)) a (y 0 a) ts - y 0 ((a :: ts).getLast (by simp))‖ ≤ B * η ^ 4 := by
  obtain ⟨δ, hδ, C, hC, key⟩ := hT.step hs hr
  obtain ⟨B, hB, hB0⟩ : ∃ B, B = Real.exp (C * |b - a|) * (C * |b - a|) ∧ 0 ≤ B := ⟨_, rfl, by positivity⟩
  refine ⟨min (min 1 δ) (δ / (B + 1)), lt_min (lt_min one_pos hδ) (by positivity), B, hB0, fun η e1 e2 => ?_⟩
  have d1 : η ≤ 1 := e2.trans ((min_le_left _ _).trans (min_le_left _ _))
  have d2 : η ≤ δ := e2.trans ((min_le_left _ _).trans (min_le_right _ _))
  have d3 : B * η ^ 4 ≤ δ := by
    have q1 := e2.trans (min_le_right _ _)
    rw [le_div_iff₀ (by linarith)] at q1
    have q2 : η ^ 4 ≤ η := by
      calc η ^ 4 ≤ η ^ 1 := pow_le_pow_of_le_one e1 d1 (by norm_num)
        _ = η := pow_one _
    have q3 := mul_le_mul_of_nonneg_left q2 hB0
    linarith
  have mono : ∀ t, a ≤ t → t ≤ b → Real.exp (C * (t - a)) * (C * (t - a) * η ^ 4) ≤ B * η ^ 4 := by
    intro t h1 h2
    have h3 : t - a ≤ |b - a| := (by linarith : t - a ≤ b - a).trans (le_abs_self _)
    have h4 : 0 ≤ t - a := by linarith
    rw [hB]
    calc Real.exp (C * (t - a)) * (C * (t - a) * η ^ 4) ≤ Real.exp (C * |b - a|) * (C * |b - a| * η ^ 4) := by gcongr
      _ = _ := by ring
  have go : ∀ (ts : List ℝ) {t : ℝ} {x : E}, a ≤ t → (t :: ts).Pairwise (· < ·) → (t :: ts).IsChain (fun s u => u - s ≤ η) → (t :: ts).getLast (by simp) ≤ b →
      ‖x - y 0 t‖ ≤ Real.exp (C * (t - a)) * (C * (t - a) * η ^ 4) →
      ‖Conv.iter (fun t x u => T.step f t x (u - t)) t x ts - y 0 ((t :: ts).getLast (by simp))‖ ≤ B * η ^ 4 := by
    intro ts
    induction ts with
    | nil => intro t x ha _ _ hb he; exact he.trans (mono t ha hb)
    | cons u us ih =>
      intro t x ha hp hg hb he
      have htu : t < u := (List.pairwise_cons.1 hp).1 u (by simp)
      have hp' := (List.pairwise_cons.1 hp).2
      have hlast : u ≤ (u :: us).getLast (by simp) := by
        rcases List.mem_cons.1 (List.getLast_mem (l := u :: us) (by simp)) with e | e
        · exact e.ge
        · exact ((List.pairwise_cons.1 hp').1 _ e).le
      rw [List.getLast_cons (by simp)] at hb
      have hub : u ≤ b := hlast.trans hb
      have hg1 : u - t ≤ η := (List.isChain_cons_cons.1 hg).1
      have hh : 0 < u - t := by linarith
      have k := key t u x ha htu hub (hg1.trans d2) ((he.trans (mono t ha (by linarith))).trans d3)
      have hi := ih (ha.trans htu.le) hp' (List.isChain_cons_cons.1 hg).2 hb (x := T.step f t x (u - t)) ?_
      · simp only [List.getLast_cons (l := u :: us) (a := t) (by simp)]
        exact hi
      have h3 : ‖T.step f t x (u - t) - y 0 u‖ ≤ ‖x - y 0 t‖ + (u - t) * (C * ((u - t) ^ 4 + ‖x - y 0 t‖)) := by
        have e : T.step f t x (u - t) - y 0 u = (x - y 0 t) + (T.step f t x (u - t) - x - (y 0 u - y 0 t)) := by abel
        rw [e]
        exact (norm_add_le _ _).trans (add_le_add (le_refl _) k)
      have h4 : (u - t) ^ 4 ≤ η ^ 4 := pow_le_pow_left₀ hh.le hg1 4
      have h5 : 1 + C * (u - t) ≤ Real.exp (C * (u - t)) := by linarith [Real.add_one_le_exp (C * (u - t))]
      have h6 : Real.exp (C * (u - a)) = Real.exp (C * (u - t)) * Real.exp (C * (t - a)) := by rw [← Real.exp_add]; congr 1; ring
      have h7 : 1 ≤ Real.exp (C * (u - a)) := Real.one_le_exp (mul_nonneg hC (by linarith))
      have hCh : 0 ≤ C * (u - t) := mul_nonneg hC hh.le
      have h8 : (1 + C * (u - t)) * ‖x - y 0 t‖ ≤ Real.exp (C * (u - a)) * (C * (t - a) * η ^ 4) := by
        rw [h6, mul_assoc]
        exact mul_le_mul h5 he (norm_nonneg _) (Real.exp_pos _).le
      have h9 : C * (u - t) * (u - t) ^ 4 ≤ Real.exp (C * (u - a)) * (C * (u - t) * η ^ 4) := by
        refine (mul_le_mul_of_nonneg_left h4 hCh).trans (le_mul_of_one_le_left (mul_nonneg hCh (by positivity)) h7)
      calc _ ≤ _ := h3
        _ = (1 + C * (u - t)) * ‖x - y 0 t‖ + C * (u - t) * (u - t) ^ 4 := by ring
        _ ≤ _ := add_le_add h8 h9
        _ = _ := by ring
  exact fun ts hp hg hb => go ts (le_refl _) hp hg hb (by simp)

end Pooya.Conv
