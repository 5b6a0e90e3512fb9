import Verif.Proof.About
import Verif.Spec.RungeKutta

/-! One step of Euler and Rk4, computed with errors. -/

namespace Pooya.Acc

open Pooya Set Filter Asymptotics Topology

set_option linter.unusedSectionVars false

variable {ι : Type} {l : Filter ι} {ρ R : ι → ℝ} {A : ι → Arith ℝ} {d : Sketch} {a b : ℝ} {X : SigId → ℝ → ℝ} {n : Nat} {o g : Fin n → SigId}
  {sol : ℝ → (Fin n → ℝ) → SigId → ℝ} {rank : BlkId → Nat}

/-- The exact solutions of the equations of the drawing: `sol t x` are the signals at time `t` if the integrators, with the outputs `o`, hold the numbers `x`; their inputs
are `g`. -/
structure Ref (d : Sketch) (o g : Fin n → SigId) (sol : ℝ → (Fin n → ℝ) → SigId → ℝ) : Prop where
  meets : ∀ t x, d.Meets t (sol t x)
  state : ∀ t x i, sol t x (o i) = x i
  states : States d o
  slope : ∀ i, g i ∈ d.signals
  slot : ∀ i, ∃ p ∈ d.pieces, ∃ x0, p.part = .integrator x0 ∧ p.ins = [g i] ∧ p.out = o i

/-- A drawing with a smooth course. -/
structure Calm (d : Sketch) (rank : BlkId → Nat) (a b : ℝ) (X : SigId → ℝ → ℝ) : Prop where
  lt : a < b
  closed : d.Closed rank
  course : d.Course ∅ a b X
  smooth : d.Smooth a b X

theorem Calm.cont (h : Calm d rank a b X) : ∀ s ∈ d.signals, ContDiffOn ℝ 4 (X s) (Icc a b) := fun s hm =>
  by exact_mod_cast smooth_signals (k := 4) (by norm_num) h.closed h.smooth h.course (fun p hp hi => smooth_course h.lt h.closed h.smooth h.course 4 (by norm_num) p hp hi) s hm

theorem Ref.mem (ref : Ref d o g sol) (i : Fin n) : o i ∈ d.signals := by
  obtain ⟨p, hp, _, e⟩ := ref.states.1 i
  exact e ▸ List.mem_append.2 (.inl (List.mem_map_of_mem hp))

/-- The exact solutions are near the course if their states are. -/
theorem Ref.near (ref : Ref d o g sol) (hd : Calm d rank a b X) {s : SigId} (hs : s ∈ d.signals) :
    ∃ r > 0, ∃ L ≥ 0, ∀ t ∈ Icc a b, ∀ x : Fin n → ℝ, ‖x - fun i => X (o i) t‖ ≤ r → |sol t x s - X s t| ≤ L * ‖x - fun i => X (o i) t‖ := by
  obtain ⟨r, hr, L, hL, h⟩ := (Sharp.all ref.states hd.lt hd.closed hd.smooth hd.course s hs).close ref.states
  refine ⟨r, hr, L, hL, fun t ht x hx => h t ht _ (norm_nonneg _) hx _ ⟨ref.meets t x, fun p hp hi => ?_⟩⟩
  obtain ⟨i, e⟩ := ref.states.2 p hp hi
  have := norm_le_pi_norm (x - fun i => X (o i) t) i
  rw [Pi.sub_apply, Real.norm_eq_abs] at this
  rw [← e, ref.state]
  exact this

theorem Ref.tends (ref : Ref d o g sol) (hd : Calm d rank a b X) {τ : ι → ℝ} {v : ι → Fin n → ℝ} (hin : ∀ᶠ i in l, τ i ∈ Icc a b)
    (hv : ∀ k, Tendsto (fun i => v i k - X (o k) (τ i)) l (𝓝 0)) {s : SigId} (hs : s ∈ d.signals) : Tendsto (fun i => sol (τ i) (v i) s - X s (τ i)) l (𝓝 0) := by
  obtain ⟨r, hr, L, hL, h⟩ := ref.near hd hs
  have hn : Tendsto (fun i => ‖v i - fun k => X (o k) (τ i)‖) l (𝓝 0) := by
    have : Tendsto (fun i => v i - fun k => X (o k) (τ i)) l (𝓝 0) := tendsto_pi_nhds.2 fun k => by simpa using hv k
    simpa using this.norm
  refine squeeze_zero_norm' (a := fun i => L * ‖v i - fun k => X (o k) (τ i)‖) ?_ (by simpa using hn.const_mul L)
  filter_upwards [hin, Metric.tendsto_nhds.1 hn r hr] with i h1 h2
  rw [Real.dist_eq, sub_zero, abs_of_nonneg (norm_nonneg _)] at h2
  rw [Real.norm_eq_abs]
  exact h _ h1 _ h2.le

/-- A stage of a step: the exact states `v` at time `τ`, the computed signals `Z` at time `τ'`. -/
structure Stage (l : Filter ι) (A : ι → Arith ℝ) (R ρ : ι → ℝ) (d : Sketch) (a b : ℝ) (X : SigId → ℝ → ℝ) (o : Fin n → SigId) (τ τ' : ι → ℝ) (v : ι → Fin n → ℝ) (Z : ι → SigId → ℝ) : Prop where
  inside : ∀ᶠ i in l, τ i ∈ Icc a b
  inside' : ∀ᶠ i in l, τ' i ∈ Icc a b
  times : (fun i => τ' i - τ i) =O[l] ρ
  about : ∀ᶠ i in l, d.About (A i) (R i) (ρ i) (τ' i) (Z i)
  near : ∀ k, Tendsto (fun i => v i k - X (o k) (τ i)) l (𝓝 0)
  states : ∀ k, Close l ρ (fun i => Z i (o k)) (fun i => v i k)

theorem Stage.close (h : Fine l A R ρ) (ref : Ref d o g sol) (hd : Calm d rank a b X) {τ τ' : ι → ℝ} {v : ι → Fin n → ℝ} {Z : ι → SigId → ℝ} (q : Stage l A R ρ d a b X o τ τ' v Z) :
    ∀ s ∈ d.signals, Close l ρ (fun i => Z i s) (fun i => sol (τ i) (v i) s) := by
  have al : Along l A R ρ d a b X τ τ' (fun i => sol (τ i) (v i)) Z := ⟨h, q.inside, q.inside', q.times, .of_forall fun i => ref.meets _ _, q.about,
    fun s hs => ref.tends hd q.inside q.near hs⟩
  refine al.all hd.lt hd.closed hd.course hd.smooth fun p hp hi => ?_
  obtain ⟨k, e⟩ := ref.states.2 p hp hi
  rw [← e]
  exact (q.states k).err.congr_left fun i => by rw [ref.state]

/-- Short steps, long compared to the errors, that end before `b`. -/
structure Steps (l : Filter ι) (A : ι → Arith ℝ) (R ρ : ι → ℝ) (a b : ℝ) (X : SigId → ℝ → ℝ) (o : Fin n → SigId) (t u : ι → ℝ) (x : ι → Fin n → ℝ) : Prop where
  fine : Fine l A R ρ
  pos : ∀ᶠ i in l, 0 ≤ ρ i
  order : ∀ᶠ i in l, a ≤ t i ∧ t i < u i ∧ R i * ρ i ≤ u i - t i ∧ u i + R i * ρ i ≤ b
  short : Tendsto (fun i => u i - t i) l (𝓝 0)
  near : ∀ k, Tendsto (fun i => x i k - X (o k) (t i)) l (𝓝 0)

variable {t u : ι → ℝ} {x : ι → Fin n → ℝ}

theorem Steps.bound (h : Steps l A R ρ a b X o t u x) : (t =O[l] (fun _ => (1 : ℝ))) ∧ u =O[l] (fun _ => (1 : ℝ)) := by
  have key : ∀ᶠ i in l, |t i| ≤ max |a| |b| ∧ |u i| ≤ max |a| |b| := by
    filter_upwards [h.order, h.pos, h.fine.big.eventually_ge_atTop 0] with i h1 h2 h3
    have h4 : 0 ≤ R i * ρ i := mul_nonneg h3 h2
    exact ⟨abs_le_max_abs_abs h1.1 (by linarith), abs_le_max_abs_abs (by linarith) (by linarith)⟩
  exact ⟨IsBigO.of_bound _ (key.mono fun i q => by rw [norm_one, mul_one]; exact q.1), IsBigO.of_bound _ (key.mono fun i q => by rw [norm_one, mul_one]; exact q.2)⟩

/-- The computed times of the stages are in the interval. -/
theorem Steps.inside (h : Steps l A R ρ a b X o t u x) {θ : ℝ} (h1 : 1 / 2 ≤ θ) (h2 : θ ≤ 1) {τ' : ι → ℝ} (ht : (fun i => τ' i - (t i + θ * (u i - t i))) =O[l] ρ) :
    ∀ᶠ i in l, τ' i ∈ Icc a b := by
  obtain ⟨c, hc⟩ := ht.bound
  filter_upwards [hc, h.order, h.pos, h.fine.big.eventually_ge_atTop (2 * c), h.fine.big.eventually_ge_atTop 0] with i q1 q2 q3 q4 q5
  rw [Real.norm_eq_abs, Real.norm_eq_abs, abs_of_nonneg q3] at q1
  have e1 := abs_le.1 q1
  have e2 : 2 * (c * ρ i) ≤ R i * ρ i := by have := mul_le_mul_of_nonneg_right q4 q3; linarith
  have e3 : 0 ≤ R i * ρ i := mul_nonneg q5 q3
  have e4 : 1 / 2 * (u i - t i) ≤ θ * (u i - t i) := mul_le_mul_of_nonneg_right h1 (by linarith)
  have e5 : θ * (u i - t i) ≤ 1 * (u i - t i) := mul_le_mul_of_nonneg_right h2 (by linarith)
  exact ⟨by linarith, by linarith⟩

theorem Steps.inside_exact (h : Steps l A R ρ a b X o t u x) {θ : ℝ} (h1 : 0 ≤ θ) (h2 : θ ≤ 1) : ∀ᶠ i in l, t i + θ * (u i - t i) ∈ Icc a b := by
  filter_upwards [h.order, h.pos, h.fine.big.eventually_ge_atTop 0] with i q2 q3 q5
  have e3 : 0 ≤ R i * ρ i := mul_nonneg q5 q3
  have e4 : 0 * (u i - t i) ≤ θ * (u i - t i) := mul_le_mul_of_nonneg_right h1 (by linarith)
  have e5 : θ * (u i - t i) ≤ 1 * (u i - t i) := mul_le_mul_of_nonneg_right h2 (by linarith)
  exact ⟨by linarith, by linarith⟩

/-- The states of the next stage are near the course. -/
theorem Steps.drift (h : Steps l A R ρ a b X o t u x) (ref : Ref d o g sol) (hd : Calm d rank a b X) {θ : ℝ} (h1 : 0 ≤ θ) (h2 : θ ≤ 1) {κ : ι → ℝ}
    (hκ : κ =O[l] (fun _ => (1 : ℝ))) (k : Fin n) : Tendsto (fun i => x i k + θ * (u i - t i) * κ i - X (o k) (t i + θ * (u i - t i))) l (𝓝 0) := by
  obtain ⟨K, hK, key⟩ := lipschitz_time hd.lt (hd.cont _ (ref.mem k))
  have t1 : Tendsto (fun i => θ * (u i - t i)) l (𝓝 0) := by simpa using h.short.const_mul θ
  have t2 : Tendsto (fun i => θ * (u i - t i) * κ i) l (𝓝 0) := by
    have : (fun i => θ * (u i - t i) * κ i) =O[l] (fun i => θ * (u i - t i)) := by simpa using (isBigO_refl (fun i => θ * (u i - t i)) l).mul hκ
    exact this.trans_tendsto t1
  have t3 : Tendsto (fun i => X (o k) (t i + θ * (u i - t i)) - X (o k) (t i)) l (𝓝 0) := by
    have : (fun i => X (o k) (t i + θ * (u i - t i)) - X (o k) (t i)) =O[l] (fun i => θ * (u i - t i)) := by
      refine IsBigO.of_bound K ?_
      filter_upwards [h.inside_exact h1 h2, h.inside_exact (le_refl 0) zero_le_one] with i q1 q2
      rw [zero_mul, add_zero] at q2
      have := key _ q2 _ q1
      rwa [add_sub_cancel_left] at this
    exact this.trans_tendsto t1
  have := ((h.near k).add t2).sub t3
  simp only [add_zero, sub_zero] at this
  exact this.congr fun i => by ring

theorem Steps.bdd (h : Steps l A R ρ a b X o t u x) (ref : Ref d o g sol) (hd : Calm d rank a b X) (k : Fin n) : (fun i => x i k) =O[l] (fun _ => (1 : ℝ)) := by
  obtain ⟨K, hK⟩ := isCompact_Icc.exists_bound_of_continuousOn (hd.cont _ (ref.mem k)).continuousOn
  have h1 : (fun i => X (o k) (t i)) =O[l] (fun _ => (1 : ℝ)) := IsBigO.of_bound K ((h.inside_exact (le_refl 0) zero_le_one).mono fun i hi => by
    rw [zero_mul, add_zero] at hi; simpa using hK _ hi)
  simpa using ((h.near k).isBigO_one ℝ).add h1

/-- The first stage. -/
theorem Steps.first (h : Steps l A R ρ a b X o t u x) (ref : Ref d o g sol) (hd : Calm d rank a b X) {Z : ι → SigId → ℝ}
    (hZ : ∀ᶠ i in l, t i ∈ Icc a b → d.About (A i) (R i) (ρ i) (t i) (Z i)) (hx : ∀ k, ∀ᶠ i in l, Z i (o k) = x i k) : Stage l A R ρ d a b X o t t x Z := by
  have hin : ∀ᶠ i in l, t i ∈ Icc a b := (h.inside_exact (le_refl 0) zero_le_one).mono fun i hi => by rwa [zero_mul, add_zero] at hi
  refine ⟨hin, hin, by simpa using isBigO_zero _ _, (hZ.and hin).mono fun i q => q.1 q.2, h.near, fun k => ⟨?_, h.bdd ref hd k⟩⟩
  exact congr_err (p' := fun i => x i k) (by simpa using isBigO_zero _ _) (hx k)

/-- A further stage. -/
theorem Steps.next (h : Steps l A R ρ a b X o t u x) (ref : Ref d o g sol) (hd : Calm d rank a b X) {θ : ℝ} (h1 : 1 / 2 ≤ θ) (h2 : θ ≤ 1) {η : ι → ℝ}
    (hη : Close l ρ η (fun i => θ * (u i - t i))) {κ : Fin n → ι → ℝ} {κ' : Fin n → ι → ℝ} (hκ : ∀ k, Close l ρ (κ' k) (κ k)) {Z : ι → SigId → ℝ}
    (hZ : ∀ᶠ i in l, (A i).add (t i) (η i) ∈ Icc a b → d.About (A i) (R i) (ρ i) ((A i).add (t i) (η i)) (Z i)) (hx : ∀ k, ∀ᶠ i in l, Z i (o k) = (A i).add (x i k) ((A i).mul (η i) (κ' k i))) :
    Stage l A R ρ d a b X o (fun i => t i + θ * (u i - t i)) (fun i => (A i).add (t i) (η i)) (fun i k => x i k + θ * (u i - t i) * κ k i) Z := by
  have ht : Close l ρ (fun i => (A i).add (t i) (η i)) (fun i => t i + θ * (u i - t i)) := (Fine.trivial h.bound.1).add h.fine hη
  refine ⟨h.inside_exact (by linarith) h2, h.inside h1 h2 ht.err, ht.err, (hZ.and (h.inside h1 h2 ht.err)).mono fun i q => q.1 q.2, fun k => h.drift ref hd (by linarith) h2 (hκ k).bdd k, fun k => ?_⟩
  have c : Close l ρ (fun i => (A i).add (x i k) ((A i).mul (η i) (κ' k i))) (fun i => x i k + θ * (u i - t i) * κ k i) :=
    (Fine.trivial (h.bdd ref hd k)).add h.fine (hη.mul h.fine (hκ k))
  exact ⟨congr_err c.err (hx k), c.bdd⟩

/-- The derivatives of the states. -/
def field (g : Fin n → SigId) (sol : ℝ → (Fin n → ℝ) → SigId → ℝ) (t : ℝ) (x : Fin n → ℝ) : Fin n → ℝ := fun k => sol t x (g k)

/-- A step of Euler's method, with errors: `y` are the new states.  The errors are limited at times from `a` to `b`. -/
structure EulerStep (a b : ℝ) (d : Sketch) (o g : Fin n → SigId) (A : Arith ℝ) (R ρ t u : ℝ) (x : Fin n → ℝ) (y : Fin n → ℝ) : Prop where
  stages : ∃ Z, (t ∈ Icc a b → d.About A R ρ t Z) ∧ (∀ k, Z (o k) = x k) ∧ ∀ k, y k = A.add (x k) (A.mul (A.sub u t) (Z (g k)))

/-- A step of Rk4, with errors. -/
structure Rk4Step (a b : ℝ) (d : Sketch) (o g : Fin n → SigId) (A : Arith ℝ) (R ρ t u : ℝ) (x : Fin n → ℝ) (y : Fin n → ℝ) : Prop where
  stages : ∃ Z1 Z2 Z3 Z4 : SigId → ℝ, ((t ∈ Icc a b → d.About A R ρ t Z1) ∧ ∀ k, Z1 (o k) = x k) ∧
    ((A.add t (A.div (A.sub u t) (A.lit 2)) ∈ Icc a b → d.About A R ρ (A.add t (A.div (A.sub u t) (A.lit 2))) Z2) ∧ ∀ k, Z2 (o k) = A.add (x k) (A.mul (A.div (A.sub u t) (A.lit 2)) (Z1 (g k)))) ∧
    ((A.add t (A.div (A.sub u t) (A.lit 2)) ∈ Icc a b → d.About A R ρ (A.add t (A.div (A.sub u t) (A.lit 2))) Z3) ∧ ∀ k, Z3 (o k) = A.add (x k) (A.mul (A.div (A.sub u t) (A.lit 2)) (Z2 (g k)))) ∧
    ((A.add t (A.sub u t) ∈ Icc a b → d.About A R ρ (A.add t (A.sub u t)) Z4) ∧ ∀ k, Z4 (o k) = A.add (x k) (A.mul (A.sub u t) (Z3 (g k)))) ∧
    ∀ k, y k = A.add (A.add (A.add (A.add (x k) (A.mul (A.div (A.lit 1) (A.lit 3)) (A.mul (A.div (A.sub u t) (A.lit 2)) (Z1 (g k)))))
      (A.mul (A.div (A.lit 2) (A.lit 3)) (A.mul (A.div (A.sub u t) (A.lit 2)) (Z2 (g k))))) (A.mul (A.div (A.lit 1) (A.lit 3)) (A.mul (A.sub u t) (Z3 (g k)))))
      (A.mul (A.div (A.lit 1) (A.lit 6)) (A.mul (A.sub u t) (Z4 (g k))))

theorem choose_stage {α : Type} [Nonempty α] {P : ι → α → Prop} (h : ∀ᶠ i in l, ∃ q, P i q) : ∃ f : ι → α, ∀ᶠ i in l, P i (f i) := by
  classical
  refine ⟨fun i => if h : ∃ q, P i q then h.choose else Classical.arbitrary α, h.mono fun i hi => ?_⟩
  simp only [hi, dite_true]
  exact hi.choose_spec

theorem Steps.size (h : Steps l A R ρ a b X o t u x) : Close l ρ (fun i => (A i).sub (u i) (t i)) (fun i => 1 * (u i - t i)) := by
  simpa using (Fine.trivial h.bound.2).sub h.fine (Fine.trivial h.bound.1)

theorem Steps.half (h : Steps l A R ρ a b X o t u x) : Close l ρ (fun i => (A i).div ((A i).sub (u i) (t i)) ((A i).lit 2)) (fun i => 1 / 2 * (u i - t i)) := by
  have := h.size.div h.fine (Close.lit h.fine 2) (c := 1) one_pos (.of_forall fun _ => by norm_num)
  simp only [one_mul] at this
  refine ⟨this.err.congr_left fun i => ?_, this.bdd.congr_left fun i => ?_⟩ <;> push_cast <;> ring

theorem Steps.euler (h : Steps l A R ρ a b X o t u x) (ref : Ref d o g sol) (hd : Calm d rank a b X) {y : ι → Fin n → ℝ}
    (hy : ∀ᶠ i in l, EulerStep a b d o g (A i) (R i) (ρ i) (t i) (u i) (x i) (y i)) (k : Fin n) :
    (fun i => y i k - (x i k + (u i - t i) * field g sol (t i) (x i) k)) =O[l] ρ := by
  obtain ⟨Z, hZ⟩ := choose_stage (hy.mono fun i hi => hi.stages)
  have s1 := h.first ref hd (hZ.mono fun i q => q.1) (fun k => hZ.mono fun i q => q.2.1 k)
  have c1 := fun k => s1.close h.fine ref hd (g k) (ref.slope k)
  have c := (Fine.trivial (h.bdd ref hd k)).add h.fine (h.size.mul h.fine (c1 k))
  refine (congr_err c.err (hZ.mono fun i q => q.2.2 k)).congr_left fun i => ?_
  unfold field
  ring

theorem Steps.rk4 (h : Steps l A R ρ a b X o t u x) (ref : Ref d o g sol) (hd : Calm d rank a b X) {y : ι → Fin n → ℝ}
    (hy : ∀ᶠ i in l, Rk4Step a b d o g (A i) (R i) (ρ i) (t i) (u i) (x i) (y i)) (k : Fin n) :
    (fun i => y i k - Tableau.rk4.step (field g sol) (t i) (x i) (u i - t i) k) =O[l] ρ := by
  obtain ⟨Z1, hy⟩ := choose_stage (hy.mono fun i hi => hi.stages)
  obtain ⟨Z2, hy⟩ := choose_stage hy
  obtain ⟨Z3, hy⟩ := choose_stage hy
  obtain ⟨Z4, hy⟩ := choose_stage hy
  have s1 := h.first ref hd (hy.mono fun i q => q.1.1) (fun k => hy.mono fun i q => q.1.2 k)
  have c1 := fun k => s1.close h.fine ref hd (g k) (ref.slope k)
  have s2 := h.next ref hd (le_refl _) (by norm_num) h.half c1 (hy.mono fun i q => q.2.1.1) (fun k => hy.mono fun i q => q.2.1.2 k)
  have c2 := fun k => s2.close h.fine ref hd (g k) (ref.slope k)
  have s3 := h.next ref hd (le_refl _) (by norm_num) h.half c2 (hy.mono fun i q => q.2.2.1.1) (fun k => hy.mono fun i q => q.2.2.1.2 k)
  have c3 := fun k => s3.close h.fine ref hd (g k) (ref.slope k)
  have s4 := h.next ref hd (by norm_num) (le_refl _) h.size c3 (hy.mono fun i q => q.2.2.2.1.1) (fun k => hy.mono fun i q => q.2.2.2.1.2 k)
  have c4 := fun k => s4.close h.fine ref hd (g k) (ref.slope k)
  have three : ∀ᶠ i in l, (1 : ℝ) ≤ |((3 : ℚ) : ℝ)| := .of_forall fun _ => by norm_num
  have six : ∀ᶠ i in l, (1 : ℝ) ≤ |((6 : ℚ) : ℝ)| := .of_forall fun _ => by norm_num
  have w13 := (Close.lit h.fine 1).div h.fine (Close.lit h.fine 3) one_pos three
  have w23 := (Close.lit h.fine 2).div h.fine (Close.lit h.fine 3) one_pos three
  have w16 := (Close.lit h.fine 1).div h.fine (Close.lit h.fine 6) one_pos six
  have c := ((((Fine.trivial (h.bdd ref hd k)).add h.fine (w13.mul h.fine (h.half.mul h.fine (c1 k)))).add h.fine (w23.mul h.fine (h.half.mul h.fine (c2 k)))).add h.fine
    (w13.mul h.fine (h.size.mul h.fine (c3 k)))).add h.fine (w16.mul h.fine (h.size.mul h.fine (c4 k)))
  refine (congr_err c.err (hy.mono fun i q => q.2.2.2.2 k)).congr_left fun i => ?_
  have e1 : ∀ h : ℝ, (x i + h • Tableau.comb ℝ [] ([] : List (Fin n → ℝ))) = x i := fun h => by simp [Tableau.comb]
  have e : ∀ (h : ℝ) (t : ℝ) (v : Fin n → ℝ) (F : ℝ → (Fin n → ℝ) → Fin n → ℝ), Tableau.rk4.step F t v h k = v k + h * (1 / 6 * F t v k + 1 / 3 * F (t + 1 / 2 * h) (fun j => v j + 1 / 2 * h * F t v j) k +
      1 / 3 * F (t + 1 / 2 * h) (fun j => v j + 1 / 2 * h * F (t + 1 / 2 * h) (fun j => v j + 1 / 2 * h * F t v j) j) k +
      1 / 6 * F (t + 1 * h) (fun j => v j + 1 * h * F (t + 1 / 2 * h) (fun j => v j + 1 / 2 * h * F (t + 1 / 2 * h) (fun j => v j + 1 / 2 * h * F t v j) j) j) k) := by
    intro h t v F
    have f1 : ∀ w : Fin n → ℝ, (fun j => v j + 1 / 2 * h * w j) = v + h • ((2⁻¹ : ℝ) • w) := fun w => by funext j; simp; ring
    have f2 : ∀ w : Fin n → ℝ, (fun j => v j + 1 * h * w j) = v + h • w := fun w => by funext j; simp
    simp only [f1, f2]
    simp [Tableau.step, Tableau.rk4, Tableau.slopes, Tableau.comb]
    ring
  rw [e]
  unfold field
  push_cast
  ring

end Pooya.Acc
