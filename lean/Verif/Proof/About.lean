import Verif.Proof.Accuracy
import Verif.Proof.Fourth
import Mathlib.Analysis.Calculus.ContDiff.RCLike

/-! The signals of a drawing computed with errors. -/

namespace Pooya

open Set Filter Asymptotics Topology

set_option linter.unusedSectionVars false

/-- The values `Z` satisfy the equation of the block up to the errors of one evaluation. -/
def Piece.About (p : Piece) (A : Arith ℝ) (R ρ t : ℝ) (Z : SigId → ℝ) : Prop :=
  match p.part, p.ins with
  | .const v, [] => |Z p.out - v| ≤ ρ
  | .source f, _ => |Z p.out - f t| ≤ ρ
  | .gain k, [x] => ∃ k', |k' - k| ≤ ρ ∧ Z p.out = A.mul k' (Z x)
  | .add v, xs => ∃ v', |v' - v| ≤ ρ ∧ Z p.out = (xs.map Z).foldl A.add v'
  | .multiply v, xs => ∃ v', |v' - v| ≤ ρ ∧ Z p.out = (xs.map Z).foldl A.mul v'
  | .subtract, [x, y] => Z p.out = A.sub (Z x) (Z y)
  | .divide, [x, y] => Z p.out = A.div (Z x) (Z y)
  | .pipe, [x] => Z p.out = Z x
  | .siso f, [x] | .func f, x :: _ => |Z x| ≤ R → |Z p.out - f t (Z x)| ≤ ρ
  | .integrator _, [_] => True
  | _, _ => False

/-- All blocks and inputs. -/
structure Sketch.About (d : Sketch) (A : Arith ℝ) (R ρ t : ℝ) (Z : SigId → ℝ) : Prop where
  blocks : ∀ p ∈ d.pieces, p.About A R ρ t Z
  inputs : ∀ u ∈ d.inputs, |Z u.1 - u.2 t| ≤ ρ

namespace Acc

variable {ι : Type} {l : Filter ι} {ρ R : ι → ℝ} {A : ι → Arith ℝ} {d : Sketch} {a b : ℝ} {X : SigId → ℝ → ℝ}

/-- A smooth function of time and a value is Lipschitz continuous along a curve. -/
theorem lipschitz_along {F : ℝ × ℝ → ℝ} {g : ℝ → ℝ} (hg : ContinuousOn g (Icc a b)) (hF : ∀ t ∈ Icc a b, ContDiffAt ℝ 4 F (t, g t)) :
    ∃ r > 0, ∃ K ≥ 0, ∀ t ∈ Icc a b, ∀ t' x x', |t' - t| ≤ r → |x - g t| ≤ r → |x' - g t| ≤ r → |F (t', x') - F (t, x)| ≤ K * (|t' - t| + |x' - x|) := by
  refine isCompact_Icc.induction_on (p := fun s => ∃ r > 0, ∃ K ≥ 0, ∀ t ∈ s, ∀ t' x x', |t' - t| ≤ r → |x - g t| ≤ r → |x' - g t| ≤ r →
    |F (t', x') - F (t, x)| ≤ K * (|t' - t| + |x' - x|)) ⟨1, one_pos, 0, le_refl _, fun t ht => ht.elim⟩ ?_ ?_ ?_
  · rintro s s' hss ⟨r, hr, K, hK, h⟩
    exact ⟨r, hr, K, hK, fun t ht => h t (hss ht)⟩
  · rintro s s' ⟨r, hr, K, hK, h⟩ ⟨r', hr', K', hK', h'⟩
    refine ⟨min r r', lt_min hr hr', max K K', hK.trans (le_max_left _ _), fun t ht t' x x' h1 h2 h3 => ?_⟩
    have h0 : 0 ≤ |t' - t| + |x' - x| := by positivity
    rcases ht with ht | ht
    · exact (h t ht t' x x' (h1.trans (min_le_left _ _)) (h2.trans (min_le_left _ _)) (h3.trans (min_le_left _ _))).trans (mul_le_mul_of_nonneg_right (le_max_left _ _) h0)
    · exact (h' t ht t' x x' (h1.trans (min_le_right _ _)) (h2.trans (min_le_right _ _)) (h3.trans (min_le_right _ _))).trans (mul_le_mul_of_nonneg_right (le_max_right _ _) h0)
  · intro t0 ht0
    obtain ⟨K, s, hs, hK⟩ := ((hF t0 ht0).of_le (by norm_num : (1 : WithTop ℕ∞) ≤ 4)).exists_lipschitzOnWith
    obtain ⟨ε, hε, hb⟩ := Metric.mem_nhds_iff.1 hs
    have hc : ContinuousWithinAt (fun t => (t, g t)) (Icc a b) t0 := continuousWithinAt_id.prodMk (hg t0 ht0)
    refine ⟨{t | (t, g t) ∈ Metric.ball (t0, g t0) (ε / 2)}, hc (Metric.ball_mem_nhds _ (by linarith)), ε / 4, by linarith, K, K.2, fun t ht t' x x' h1 h2 h3 => ?_⟩
    have ht' : (t, g t) ∈ Metric.ball (t0, g t0) (ε / 2) := ht
    rw [Metric.mem_ball, Prod.dist_eq, max_lt_iff, Real.dist_eq, Real.dist_eq] at ht'
    simp only at ht'
    have mem : ∀ q z, |q - t| ≤ ε / 4 → |z - g t| ≤ ε / 4 → (q, z) ∈ s := by
      intro q z hq hz
      refine hb ?_
      rw [Metric.mem_ball, Prod.dist_eq, max_lt_iff, Real.dist_eq, Real.dist_eq]
      have e1 := abs_add_le (q - t) (t - t0)
      have e2 := abs_add_le (z - g t) (g t - g t0)
      rw [sub_add_sub_cancel] at e1 e2
      exact ⟨by simp only; linarith, by simp only; linarith⟩
    have := hK.dist_le_mul _ (mem t' x' h1 h3) _ (mem t x (by simp; linarith) h2)
    rw [Real.dist_eq, Prod.dist_eq, Real.dist_eq, Real.dist_eq] at this
    refine this.trans (mul_le_mul_of_nonneg_left ?_ K.2)
    exact max_le (le_add_of_nonneg_right (abs_nonneg _)) (le_add_of_nonneg_left (abs_nonneg _))

/-- A smooth function of time is Lipschitz continuous. -/
theorem lipschitz_time {f : ℝ → ℝ} (hab : a < b) (hf : ContDiffOn ℝ 4 f (Icc a b)) : ∃ K ≥ 0, ∀ t ∈ Icc a b, ∀ u ∈ Icc a b, |f u - f t| ≤ K * |u - t| := by
  obtain ⟨M, hM⟩ := Conv.ladder_of hab (m := 1) (hf.of_le (by norm_num))
  have key : ∀ t ∈ Icc a b, ∀ u ∈ Icc a b, t ≤ u → |f u - f t| ≤ M * |u - t| := by
    intro t ht u hu htu
    have := hM.taylor ht.1 1 (k := 0) (by norm_num) htu hu.2
    rw [abs_of_nonneg (sub_nonneg.2 htu)]
    simpa [Conv.poly] using this
  have hM0 : 0 ≤ M := (norm_nonneg _).trans (hM.bound 0 (by norm_num) a ⟨le_refl _, hab.le⟩)
  refine ⟨M, hM0, fun t ht u hu => ?_⟩
  rcases le_total t u with h | h
  · exact key t ht u hu h
  · rw [abs_sub_comm, abs_sub_comm u]
    exact key u hu t ht h

/-- The exact values, near the course, and those computed with errors. -/
structure Along (l : Filter ι) (A : ι → Arith ℝ) (R ρ : ι → ℝ) (d : Sketch) (a b : ℝ) (X : SigId → ℝ → ℝ) (τ τ' : ι → ℝ) (Z Z' : ι → SigId → ℝ) : Prop where
  fine : Fine l A R ρ
  inside : ∀ᶠ i in l, τ i ∈ Icc a b
  inside' : ∀ᶠ i in l, τ' i ∈ Icc a b
  times : (fun i => τ' i - τ i) =O[l] ρ
  meets : ∀ᶠ i in l, d.Meets (τ i) (Z i)
  about : ∀ᶠ i in l, d.About (A i) (R i) (ρ i) (τ' i) (Z' i)
  near : ∀ s ∈ d.signals, Tendsto (fun i => Z i s - X s (τ i)) l (𝓝 0)

variable {τ τ' : ι → ℝ} {Z Z' : ι → SigId → ℝ}

theorem Along.bdd (h : Along l A R ρ d a b X τ τ' Z Z') (hX : ∀ s ∈ d.signals, ContinuousOn (X s) (Icc a b)) {s : SigId} (hs : s ∈ d.signals) :
    (fun i => Z i s) =O[l] (fun _ => (1 : ℝ)) := by
  obtain ⟨K, hK⟩ := isCompact_Icc.exists_bound_of_continuousOn (hX s hs)
  have h1 : (fun i => X s (τ i)) =O[l] (fun _ => (1 : ℝ)) := IsBigO.of_bound K (h.inside.mono fun i hi => by simpa using hK _ hi)
  simpa using ((h.near s hs).isBigO_one ℝ).add h1

theorem within_rho {l : Filter ι} {ρ : ι → ℝ} {p p' : ι → ℝ} (h : ∀ᶠ i in l, |p' i - p i| ≤ ρ i) : (fun i => p' i - p i) =O[l] ρ :=
  IsBigO.of_bound 1 (h.mono fun i hi => by rw [one_mul, Real.norm_eq_abs, Real.norm_eq_abs]; exact hi.trans (le_abs_self _))

theorem congr_err {p p' q' : ι → ℝ} (h : (fun i => p' i - p i) =O[l] ρ) (e : ∀ᶠ i in l, q' i = p' i) : (fun i => q' i - p i) =O[l] ρ :=
  h.congr' (e.mono fun i hi => by simp only; rw [hi]) (EventuallyEq.refl _ _)

theorem congr_both {p p' q q' : ι → ℝ} (h : (fun i => p' i - p i) =O[l] ρ) (e : ∀ᶠ i in l, q' i = p' i ∧ q i = p i) : (fun i => q' i - q i) =O[l] ρ :=
  h.congr' (e.mono fun i hi => by simp only; rw [hi.1, hi.2]) (EventuallyEq.refl _ _)

/-- A function of time and a value. -/
theorem Along.func (h : Along l A R ρ d a b X τ τ' Z Z') {x : SigId} (hx : x ∈ d.signals) (hX : ContinuousOn (X x) (Icc a b)) {f : ℝ → ℝ → ℝ}
    (hf : ∀ t ∈ Icc a b, ContDiffAt ℝ 4 (fun q : ℝ × ℝ => f q.1 q.2) (t, X x t)) (hc : Close l ρ (fun i => Z' i x) (fun i => Z i x)) {o o' : ι → ℝ}
    (ho : ∀ᶠ i in l, o i = f (τ i) (Z i x)) (ho' : ∀ᶠ i in l, |Z' i x| ≤ R i → |o' i - f (τ' i) (Z' i x)| ≤ ρ i) : (fun i => o' i - o i) =O[l] ρ := by
  obtain ⟨r, hr, K, hK, key⟩ := lipschitz_along hX hf
  obtain ⟨c, hcb⟩ := (hc.bdd' h.fine).bound
  have h1 : (fun i => o' i - f (τ' i) (Z' i x)) =O[l] ρ := by
    refine within_rho ?_
    filter_upwards [ho', hcb, h.fine.big.eventually_ge_atTop c] with i q1 q2 q3
    rw [norm_one, mul_one, Real.norm_eq_abs] at q2
    exact q1 (q2.trans q3)
  have t1 : Tendsto (fun i => τ' i - τ i) l (𝓝 0) := h.times.trans_tendsto h.fine.small
  have t2 := h.near x hx
  have t3 : Tendsto (fun i => Z' i x - X x (τ i)) l (𝓝 0) := by simpa using (hc.err.trans_tendsto h.fine.small).add t2
  have h2 : (fun i => f (τ' i) (Z' i x) - f (τ i) (Z i x)) =O[l] (fun i => |τ' i - τ i| + |Z' i x - Z i x|) := by
    refine IsBigO.of_bound K ?_
    filter_upwards [h.inside, Metric.tendsto_nhds.1 t1 r hr, Metric.tendsto_nhds.1 t2 r hr, Metric.tendsto_nhds.1 t3 r hr] with i q0 q1 q2 q3
    rw [Real.dist_eq, sub_zero] at q1 q2 q3
    rw [Real.norm_eq_abs, Real.norm_of_nonneg (by positivity)]
    exact key _ q0 _ _ _ q1.le q2.le q3.le
  have h3 : (fun i => |τ' i - τ i| + |Z' i x - Z i x|) =O[l] ρ := by
    have := h.times.norm_left.add hc.err.norm_left
    simpa [Real.norm_eq_abs] using this
  refine ((h1.add (h2.trans h3)).congr' (ho.mono fun i hi => ?_) (EventuallyEq.refl _ _))
  simp only
  rw [hi]; ring

theorem choice {P : ι → ℝ → Prop} (h : ∀ᶠ i in l, ∃ q, P i q) : ∃ f : ι → ℝ, ∀ᶠ i in l, P i (f i) := by
  classical
  refine ⟨fun i => if h : ∃ q, P i q then h.choose else 0, h.mono fun i hi => ?_⟩
  simp only [hi, dite_true]
  exact hi.choose_spec

/-- One block. -/
theorem Along.piece (h : Along l A R ρ d a b X τ τ' Z Z') (hab : a < b) (hcont : ∀ s ∈ d.signals, ContinuousOn (X s) (Icc a b)) (hX : d.Course ∅ a b X)
    (hs : d.Smooth a b X) {p : Piece} (hp : p ∈ d.pieces) (hi : p.part.isIntegrator = false)
    (hins : ∀ x ∈ p.ins, x ∈ d.signals ∧ Close l ρ (fun i => Z' i x) (fun i => Z i x)) : (fun i => Z' i p.out - Z i p.out) =O[l] ρ := by
  have hM : ∀ᶠ i in l, p.Holds (τ i) (Z i) := h.meets.mono fun i hi => hi.blocks p hp
  have hA : ∀ᶠ i in l, p.About (A i) (R i) (ρ i) (τ' i) (Z' i) := h.about.mono fun i hi => hi.blocks p hp
  have hsm := hs.1 p hp
  have hdef := hX.defined p hp
  obtain ⟨id, part, ins, out⟩ := p
  have out_of : ∀ {q : Prop}, (∀ᶠ _ in l, False) → (∀ᶠ _ in l, q) := fun h => h.mono fun _ h => h.elim
  unfold Piece.Holds at hM
  unfold Piece.About at hA
  unfold Piece.Smooth at hsm
  simp only at hM hA hsm hi hins hdef ⊢
  have bot : (∀ᶠ _ in l, False) → ∀ g : ι → ℝ, g =O[l] ρ := fun hf g => IsBigO.of_bound 1 (hf.mono fun _ h => h.elim)
  match part, ins with
  | .const v, [] =>
    refine congr_both (within_rho (p := fun _ => v) (p' := fun i => Z' i out) hA) (hM.mono fun i e => ⟨rfl, e⟩)
  | .const v, _ :: _ => exact bot hA _
  | .source f, _ =>
    obtain ⟨K, hK, key⟩ := lipschitz_time hab hsm
    have h1 := within_rho (p := fun i => f (τ' i)) (p' := fun i => Z' i out) hA
    have h2 : (fun i => f (τ' i) - f (τ i)) =O[l] (fun i => τ' i - τ i) := IsBigO.of_bound K ((h.inside.and h.inside').mono fun i q => by
      rw [Real.norm_eq_abs, Real.norm_eq_abs]; exact key _ q.1 _ q.2)
    refine (h1.add (h2.trans h.times)).congr' (hM.mono fun i e => ?_) (EventuallyEq.refl _ _)
    simp only at e ⊢
    rw [e]; ring
  | .gain k, [x] =>
    obtain ⟨k', hk⟩ := choice hA
    have c1 : Close l ρ k' (fun _ => k) := ⟨within_rho (hk.mono fun i q => q.1), isBigO_const_const _ one_ne_zero _⟩
    exact congr_both (c1.mul h.fine (hins x (.head _)).2).err ((hk.and hM).mono fun i q => ⟨q.1.2, q.2⟩)
  | .gain _, [] | .gain _, _ :: _ :: _ => exact bot hA _
  | .add v, xs =>
    obtain ⟨k', hk⟩ := choice hA
    have c1 : Close l ρ k' (fun _ => v) := ⟨within_rho (hk.mono fun i q => q.1), isBigO_const_const _ one_ne_zero _⟩
    refine congr_both (c1.foldl_add h.fine xs (F := fun x i => Z i x) (F' := fun x i => Z' i x) (fun x hx => (hins x hx).2)).err ((hk.and hM).mono fun i q => ⟨q.1.2, q.2⟩)
  | .multiply v, xs =>
    obtain ⟨k', hk⟩ := choice hA
    have c1 : Close l ρ k' (fun _ => v) := ⟨within_rho (hk.mono fun i q => q.1), isBigO_const_const _ one_ne_zero _⟩
    refine congr_both (c1.foldl_mul h.fine xs (F := fun x i => Z i x) (F' := fun x i => Z' i x) (fun x hx => (hins x hx).2)).err ((hk.and hM).mono fun i q => ⟨q.1.2, q.2⟩)
  | .subtract, [x, y] =>
    exact congr_both ((hins x (.head _)).2.sub h.fine (hins y (.tail _ (.head _))).2).err ((hA.and hM).mono fun i q => ⟨q.1, q.2⟩)
  | .subtract, [] | .subtract, [_] | .subtract, _ :: _ :: _ :: _ => exact bot hA _
  | .divide, [x, y] =>
    obtain ⟨c, hc, hb⟩ := hdef x y rfl rfl
    obtain ⟨hy, cy⟩ := hins y (.tail _ (.head _))
    have low : ∀ᶠ i in l, c / 2 ≤ |Z i y| := by
      filter_upwards [h.inside, Metric.tendsto_nhds.1 (h.near y hy) (c / 2) (by linarith)] with i q1 q2
      rw [Real.dist_eq, sub_zero] at q2
      have q3 := hb _ q1
      have := abs_sub_abs_le_abs_sub (X y (τ i)) (Z i y)
      rw [abs_sub_comm] at this
      linarith
    exact congr_both ((hins x (.head _)).2.div h.fine cy (by linarith) low).err ((hA.and hM).mono fun i q => ⟨q.1, q.2⟩)
  | .divide, [] | .divide, [_] | .divide, _ :: _ :: _ :: _ => exact bot hA _
  | .pipe, [x] => exact congr_both (hins x (.head _)).2.err ((hA.and hM).mono fun i q => ⟨q.1, q.2⟩)
  | .pipe, [] | .pipe, _ :: _ :: _ => exact bot hA _
  | .siso f, [x] =>
    obtain ⟨hx, cx⟩ := hins x (.head _)
    exact h.func hx (hcont x hx) hsm cx hM hA
  | .siso _, [] | .siso _, _ :: _ :: _ => exact bot hA _
  | .func f, x :: _ =>
    obtain ⟨hx, cx⟩ := hins x (.head _)
    exact h.func hx (hcont x hx) hsm cx hM hA
  | .func _, [] => exact bot hA _
  | .integrator _, _ => cases hi
  | .delay _, _ => exact hsm.elim

/-- All signals. -/
theorem Along.all (h : Along l A R ρ d a b X τ τ' Z Z') (hab : a < b) {rank : BlkId → Nat} (hc : d.Closed rank) (hX : d.Course ∅ a b X) (hs : d.Smooth a b X)
    (hst : ∀ p ∈ d.pieces, p.part.isIntegrator = true → (fun i => Z' i p.out - Z i p.out) =O[l] ρ) : ∀ s ∈ d.signals, Close l ρ (fun i => Z' i s) (fun i => Z i s) := by
  have hcont : ∀ s ∈ d.signals, ContinuousOn (X s) (Icc a b) := fun s hm =>
    (smooth_signals (k := 0) (by norm_num) hc hs hX (fun p hp hi => smooth_course hab hc hs hX 0 (by norm_num) p hp hi) s hm).continuousOn
  have sig : ∀ p ∈ d.pieces, p.out ∈ d.signals := fun p hp => List.mem_append.2 (.inl (List.mem_map_of_mem hp))
  have hin : ∀ u ∈ d.inputs, Close l ρ (fun i => Z' i u.1) (fun i => Z i u.1) := fun u hu => by
    have hm : u.1 ∈ d.signals := List.mem_append.2 (.inr (List.mem_map_of_mem hu))
    obtain ⟨K, hK, key⟩ := lipschitz_time hab (hs.2 u hu)
    have h1 := within_rho (p := fun i => u.2 (τ' i)) (p' := fun i => Z' i u.1) (h.about.mono fun i hi => hi.inputs u hu)
    have h2 : (fun i => u.2 (τ' i) - u.2 (τ i)) =O[l] (fun i => τ' i - τ i) := IsBigO.of_bound K ((h.inside.and h.inside').mono fun i q => by
      rw [Real.norm_eq_abs, Real.norm_eq_abs]; exact key _ q.1 _ q.2)
    refine ⟨(h1.add (h2.trans h.times)).congr' (h.meets.mono fun i e => ?_) (EventuallyEq.refl _ _), h.bdd hcont hm⟩
    simp only
    rw [e.inputs u hu]; ring
  have hp : ∀ n, ∀ p ∈ d.pieces, rank p.id < n → Close l ρ (fun i => Z' i p.out) (fun i => Z i p.out) := by
    intro n
    induction n with
    | zero => intro p _ h; exact (Nat.not_lt_zero _ h).elim
    | succ n ih =>
      intro p hp hn
      refine ⟨?_, h.bdd hcont (sig p hp)⟩
      by_cases hi : p.part.isIntegrator = true
      · exact hst p hp hi
      have hi : p.part.isIntegrator = false := by simpa using hi
      refine h.piece hab hcont hX hs hp hi (fun x hx => ⟨hc.provided p hp x hx, ?_⟩)
      rcases List.mem_append.1 (hc.provided p hp x hx) with k | k
      · obtain ⟨q, hq, rfl⟩ := List.mem_map.1 k
        rcases hc.loops p hp hi q hq hx with k | k
        · exact ⟨hst q hq k, h.bdd hcont (sig q hq)⟩
        · exact ih q hq (by omega)
      · obtain ⟨u, hu, rfl⟩ := List.mem_map.1 k
        exact hin u hu
  intro s hs
  rcases List.mem_append.1 hs with h | h
  · obtain ⟨q, hq, rfl⟩ := List.mem_map.1 h
    exact hp _ q hq (Nat.lt_succ_self _)
  · obtain ⟨u, hu, rfl⟩ := List.mem_map.1 h
    exact hin u hu

end Acc

end Pooya
