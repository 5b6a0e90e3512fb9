import Verif.Spec.Accuracy
import Verif.Proof.Sharp
import Mathlib.Analysis.Asymptotics.Lemmas
import Mathlib.Tactic.FieldSimp

/-! Calculation with inexact operations: errors proportional to those of the operations. -/

namespace Pooya.Acc

open Pooya Set Filter Asymptotics Topology

set_option linter.unusedSectionVars false

variable {ι : Type} {l : Filter ι} {ρ R : ι → ℝ} {A : ι → Arith ℝ}

/-- Arithmetics whose errors become small and whose range becomes large. -/
structure Fine (l : Filter ι) (A : ι → Arith ℝ) (R ρ : ι → ℝ) : Prop where
  within : ∀ᶠ i in l, (A i).Within (R i) (ρ i)
  big : Tendsto R l atTop
  small : Tendsto ρ l (𝓝 0)

/-- `f'` is computed instead of `f`: the error is proportional to those of the operations. -/
structure Close (l : Filter ι) (ρ : ι → ℝ) (f' f : ι → ℝ) : Prop where
  err : (fun i => f' i - f i) =O[l] ρ
  bdd : f =O[l] (fun _ => (1 : ℝ))

variable {f g f' g' : ι → ℝ}

theorem Fine.one (h : Fine l A R ρ) : ρ =O[l] (fun _ => (1 : ℝ)) := h.small.isBigO_one ℝ

theorem Fine.trivial {c : ι → ℝ} (hc : c =O[l] (fun _ => (1 : ℝ))) : Close l ρ c c := ⟨by simpa using isBigO_zero _ _, hc⟩

theorem Fine.const (_ : Fine l A R ρ) (c : ℝ) : Close l ρ (fun _ => c) (fun _ => c) := Fine.trivial (isBigO_const_const c one_ne_zero _)

theorem Close.bdd' (h : Fine l A R ρ) (hf : Close l ρ f' f) : f' =O[l] (fun _ => (1 : ℝ)) := by
  have := (hf.err.trans h.one).add hf.bdd
  simpa using this

/-- One operation. -/
theorem Fine.round (h : Fine l A R ρ) {p p' : ι → ℝ} (hp : p =O[l] (fun _ => (1 : ℝ))) (he : ∀ᶠ i in l, |p i| ≤ R i → |p' i - p i| ≤ ρ i) : (fun i => p' i - p i) =O[l] ρ := by
  obtain ⟨c, hc⟩ := hp.bound
  refine IsBigO.of_bound 1 ?_
  filter_upwards [hc, he, h.big.eventually_ge_atTop c] with i h1 h2 h3
  rw [norm_one, mul_one, Real.norm_eq_abs] at h1
  rw [one_mul, Real.norm_eq_abs, Real.norm_eq_abs]
  exact (h2 (h1.trans h3)).trans (le_abs_self _)

theorem Close.trans_err {p : ι → ℝ} (h1 : (fun i => f' i - p i) =O[l] ρ) (h2 : Close l ρ p f) : Close l ρ f' f :=
  ⟨by simpa using h1.add h2.err, h2.bdd⟩

theorem Close.plus (hf : Close l ρ f' f) (hg : Close l ρ g' g) : Close l ρ (fun i => f' i + g' i) (fun i => f i + g i) :=
  ⟨(hf.err.add hg.err).congr_left (fun i => by ring), hf.bdd.add hg.bdd |>.congr_left fun _ => rfl⟩

theorem Close.minus (hf : Close l ρ f' f) (hg : Close l ρ g' g) : Close l ρ (fun i => f' i - g' i) (fun i => f i - g i) :=
  ⟨(hf.err.sub hg.err).congr_left (fun i => by ring), hf.bdd.sub hg.bdd |>.congr_left fun _ => rfl⟩

theorem Close.times (h : Fine l A R ρ) (hf : Close l ρ f' f) (hg : Close l ρ g' g) : Close l ρ (fun i => f' i * g' i) (fun i => f i * g i) := by
  refine ⟨?_, by simpa using hf.bdd.mul hg.bdd⟩
  have h1 := hf.err.mul (hg.bdd' h)
  have h2 := hf.bdd.mul hg.err
  simp only [mul_one, one_mul] at h1 h2
  exact (h1.add h2).congr_left fun i => by ring

theorem Close.over (h : Fine l A R ρ) (hf : Close l ρ f' f) (hg : Close l ρ g' g) {c : ℝ} (hc : 0 < c) (hb : ∀ᶠ i in l, c ≤ |g i|) :
    (∀ᶠ i in l, g' i ≠ 0) ∧ Close l ρ (fun i => f' i / g' i) (fun i => f i / g i) := by
  have h0 : Tendsto (fun i => g' i - g i) l (𝓝 0) := hg.err.trans_tendsto h.small
  have hb' : ∀ᶠ i in l, c / 2 ≤ |g' i| := by
    filter_upwards [hb, (Metric.tendsto_nhds.1 h0) (c / 2) (by linarith)] with i h1 h2
    rw [Real.dist_eq, sub_zero] at h2
    have := abs_sub_abs_le_abs_sub (g i) (g' i)
    rw [abs_sub_comm] at this
    linarith
  have inv : ∀ {q : ι → ℝ} {c : ℝ}, 0 < c → (∀ᶠ i in l, c ≤ |q i|) → (fun i => (q i)⁻¹) =O[l] (fun _ => (1 : ℝ)) := by
    intro q c hc hq
    refine IsBigO.of_bound c⁻¹ (hq.mono fun i hi => ?_)
    rw [norm_one, mul_one, norm_inv, Real.norm_eq_abs]
    exact inv_anti₀ hc hi
  have i1 := inv hc hb
  have i2 := inv (by linarith : 0 < c / 2) hb'
  refine ⟨hb'.mono fun i hi e => by rw [e, abs_zero] at hi; linarith, ⟨?_, ?_⟩⟩
  · have h1 := hf.err.mul hg.bdd
    have h2 := hf.bdd.mul hg.err
    simp only [mul_one, one_mul] at h1 h2
    have h3 := (h1.sub h2).mul (i1.mul i2)
    simp only [mul_one] at h3
    refine h3.congr' ?_ (EventuallyEq.refl _ _)
    filter_upwards [hb, hb'] with i q1 q2
    have n1 : g i ≠ 0 := fun e => by rw [e, abs_zero] at q1; linarith
    have n2 : g' i ≠ 0 := fun e => by rw [e, abs_zero] at q2; linarith
    field_simp
    ring
  · have := hf.bdd.mul i1
    simpa [div_eq_mul_inv] using this

theorem Close.add (h : Fine l A R ρ) (hf : Close l ρ f' f) (hg : Close l ρ g' g) : Close l ρ (fun i => (A i).add (f' i) (g' i)) (fun i => f i + g i) :=
  .trans_err (h.round ((hf.bdd' h).add (hg.bdd' h)) (h.within.mono fun _ hi => hi.add _ _)) (hf.plus hg)

theorem Close.sub (h : Fine l A R ρ) (hf : Close l ρ f' f) (hg : Close l ρ g' g) : Close l ρ (fun i => (A i).sub (f' i) (g' i)) (fun i => f i - g i) :=
  .trans_err (h.round ((hf.bdd' h).sub (hg.bdd' h)) (h.within.mono fun _ hi => hi.sub _ _)) (hf.minus hg)

theorem Close.mul (h : Fine l A R ρ) (hf : Close l ρ f' f) (hg : Close l ρ g' g) : Close l ρ (fun i => (A i).mul (f' i) (g' i)) (fun i => f i * g i) :=
  .trans_err (h.round ((hf.times h hg).bdd' h) (h.within.mono fun _ hi => hi.mul _ _)) (hf.times h hg)

theorem Close.div (h : Fine l A R ρ) (hf : Close l ρ f' f) (hg : Close l ρ g' g) {c : ℝ} (hc : 0 < c) (hb : ∀ᶠ i in l, c ≤ |g i|) :
    Close l ρ (fun i => (A i).div (f' i) (g' i)) (fun i => f i / g i) := by
  obtain ⟨h1, h2⟩ := hf.over h hg hc hb
  exact .trans_err (h.round (h2.bdd' h) ((h.within.and h1).mono fun _ hi => hi.1.div _ _ hi.2)) h2

theorem Close.lit (h : Fine l A R ρ) (q : ℚ) : Close l ρ (fun i => (A i).lit q) (fun _ => (q : ℝ)) :=
  .trans_err (h.round (isBigO_const_const _ one_ne_zero _) (h.within.mono fun _ hi => hi.lit q)) (h.const _)

/-- Sums and products from left to right. -/
theorem Close.foldl_add (h : Fine l A R ρ) {α : Type} {F F' : α → ι → ℝ} (xs : List α) : ∀ {v v' : ι → ℝ}, Close l ρ v' v → (∀ x ∈ xs, Close l ρ (F' x) (F x)) →
    Close l ρ (fun i => (xs.map (fun x => F' x i)).foldl (A i).add (v' i)) (fun i => v i + (xs.map (fun x => F x i)).sum) := by
  induction xs with
  | nil => intro v v' hv _; simpa using hv
  | cons x xs ih =>
    intro v v' hv hx
    have := ih (hv.add h (hx x (.head _))) (fun y hy => hx y (.tail _ hy))
    simpa [add_assoc] using this

theorem Close.foldl_mul (h : Fine l A R ρ) {α : Type} {F F' : α → ι → ℝ} (xs : List α) : ∀ {v v' : ι → ℝ}, Close l ρ v' v → (∀ x ∈ xs, Close l ρ (F' x) (F x)) →
    Close l ρ (fun i => (xs.map (fun x => F' x i)).foldl (A i).mul (v' i)) (fun i => v i * (xs.map (fun x => F x i)).prod) := by
  induction xs with
  | nil => intro v v' hv _; simpa using hv
  | cons x xs ih =>
    intro v v' hv hx
    have := ih (hv.mul h (hx x (.head _))) (fun y hy => hx y (.tail _ hy))
    simpa [mul_assoc] using this

end Pooya.Acc
