import Verif.Proof.Gather
import Verif.Props.C66

/-! The orders of Euler and Rk4 with errors; the exact solutions of the equations of a drawing. -/

namespace Pooya.Acc

open Pooya Set Filter Asymptotics Topology

set_option linter.unusedSectionVars false

variable {d : Sketch} {a b : ℝ} {X : SigId → ℝ → ℝ} {n : Nat} {o g : Fin n → SigId} {sol : ℝ → (Fin n → ℝ) → SigId → ℝ} {rank : BlkId → Nat}

theorem Ref.off (ref : Ref d o g sol) (t : ℝ) (x : Fin n → ℝ) : d.Off X t ‖x - path X o t‖ (sol t x) := by
  refine ⟨ref.meets t x, fun p hp hi => ?_⟩
  obtain ⟨i, e⟩ := ref.states.2 p hp hi
  have := norm_le_pi_norm (x - path X o t) i
  rw [Pi.sub_apply, Real.norm_eq_abs] at this
  rw [← e, ref.state]
  exact this

theorem Ref.deriv (ref : Ref d o g sol) (hd : Calm d rank a b X) (k : Fin n) : ∀ t ∈ Icc a b, HasDerivWithinAt (X (o k)) (X (g k) t) (Icc a b) t := by
  intro t ht
  obtain ⟨p, hp, x0, e1, e2, e3⟩ := ref.slot k
  rw [← e3]
  exact hd.course.integrates p hp x0 (g k) e1 e2 t ht (by simp)

theorem Ref.smooth (ref : Ref d o g sol) (hd : Calm d rank a b X) (k : Fin n) : ContDiffOn ℝ 5 (X (o k)) (Icc a b) := by
  obtain ⟨p, hp, x0, e1, e2, e3⟩ := ref.slot k
  rw [← e3]
  exact_mod_cast smooth_course hd.lt hd.closed hd.smooth hd.course 5 (le_refl _) p hp (by rw [e1]; rfl)

/-- The right-hand side near the course. -/
theorem Ref.sleek (ref : Ref d o g sol) (hd : Calm d rank a b X) : ∃ (y : ℕ → ℝ → Fin n → ℝ) (A : ℕ → ℝ → (Fin n → ℝ) →L[ℝ] (Fin n → ℝ)) (r : ℝ) (_ : 0 < r) (Q M : ℝ),
    (∀ t, y 0 t = path X o t) ∧ (∀ t ∈ Icc a b, y 1 t = fun k => X (g k) t) ∧ Conv.Sleek (field g sol) y A a b r Q M := by
  have hrow : ∀ k : Fin n, ∃ lam : Fin n → ℝ → ℝ, (∀ j, ContDiffOn ℝ 2 (lam j) (Icc a b)) ∧ ∃ r > 0, ∃ Q ≥ 0, ∀ t ∈ Icc a b, ∀ δ, 0 ≤ δ → δ ≤ r → ∀ Z, d.Off X t δ Z →
      |Z (g k) - X (g k) t - linear o X (fun j => lam j t) t Z| ≤ Q * δ ^ 2 := fun k =>
    (Sharp.all ref.states hd.lt hd.closed hd.smooth hd.course (g k) (ref.slope k)).near
  choose lam hlam r hr Q hQ hnear using hrow
  obtain ⟨r0, hr0, hr0'⟩ : ∃ r0 > 0, ∀ i, r0 ≤ r i := by
    rcases isEmpty_or_nonempty (Fin n) with he | he
    · exact ⟨1, one_pos, fun i => (he.false i).elim⟩
    · obtain ⟨i, hi⟩ := Finite.exists_min r
      exact ⟨r i, hr i, hi⟩
  obtain ⟨L, hL⟩ : ∃ L : ℝ → (Fin n → ℝ) →L[ℝ] (Fin n → ℝ), L = fun t => ∑ i, ∑ j, lam i j t • (ContinuousLinearMap.single ℝ (fun _ : Fin n => ℝ) i).comp (ContinuousLinearMap.proj j) := ⟨_, rfl⟩
  have hLs : ContDiffOn ℝ 2 L (Icc a b) := by rw [hL]; exact ContDiffOn.sum fun i _ => ContDiffOn.sum fun j _ => (hlam i j).smul contDiffOn_const
  have h5 : ContDiffOn ℝ 5 (path X o) (Icc a b) := contDiffOn_pi.2 fun k => ref.smooth hd k
  obtain ⟨M1, hM1⟩ := Conv.ladder_of hd.lt (m := 5) (by exact_mod_cast h5)
  obtain ⟨M2, hM2⟩ := Conv.ladder_of hd.lt (m := 2) (by exact_mod_cast hLs)
  have hu : UniqueDiffOn ℝ (Icc a b) := uniqueDiffOn_Icc hd.lt
  have hy1 : ∀ t ∈ Icc a b, iteratedDerivWithin 1 (path X o) (Icc a b) t = fun k => X (g k) t := fun t ht => by
    rw [iteratedDerivWithin_one]
    exact (hasDerivWithinAt_pi.2 fun k => ref.deriv hd k t ht).derivWithin (hu t ht)
  refine ⟨fun k => iteratedDerivWithin k (path X o) (Icc a b), fun k => iteratedDerivWithin k L (Icc a b), r0, hr0, ∑ i, Q i, max M1 M2,
    fun t => by simp only [iteratedDerivWithin_zero], hy1, ⟨⟨hM1.deriv, fun k hk t ht => (hM1.bound k hk t ht).trans (le_max_left _ _)⟩,
      ⟨hM2.deriv, fun k hk t ht => (hM2.bound k hk t ht).trans (le_max_right _ _)⟩, fun t ht x hx => ?_⟩⟩
  rw [hy1 t ht]
  simp only [iteratedDerivWithin_zero] at hx ⊢
  have hsum : ∀ i, Q i ≤ ∑ j, Q j := fun i => Finset.single_le_sum (fun j _ => hQ j) (Finset.mem_univ i)
  rw [pi_norm_le_iff_of_nonneg (by have := Finset.sum_nonneg fun i (_ : i ∈ Finset.univ) => hQ i; positivity)]
  intro i
  have k := hnear i t ht _ (norm_nonneg _) (hx.trans (hr0' i)) _ (ref.off t x)
  have e3 : L t (x - path X o t) i = linear o X (fun j => lam i j t) t (sol t x) := by
    rw [hL]
    unfold linear
    simp only [ref.state, _root_.sum_apply, _root_.smul_apply, Finset.sum_apply, ContinuousLinearMap.comp_apply]
    rw [Finset.sum_eq_single i]
    · simp [path]
    · intro j _ hj
      simp [hj.symm]
    · simp
  rw [Pi.sub_apply, Pi.sub_apply, e3, Real.norm_eq_abs]
  exact k.trans (mul_le_mul_of_nonneg_right (hsum i) (by positivity))

/-- Rk4. -/
theorem Ref.rk4_order (ref : Ref d o g sol) (hd : Calm d rank a b X) : ∃ δ > 0, ∃ C ≥ 0, ∀ t u x, a ≤ t → t < u → u ≤ b → u - t ≤ δ → ‖x - path X o t‖ ≤ δ →
      ‖Tableau.rk4.step (field g sol) t x (u - t) - x - (path X o u - path X o t)‖ ≤ (u - t) * (C * ((u - t) ^ 4 + ‖x - path X o t‖)) := by
  obtain ⟨y, A, r, hr, Q, M, h0, h1, hs⟩ := ref.sleek hd
  have := Conv.fourth_rk4.step hs hr
  simpa only [h0] using this

/-- Euler. -/
theorem Ref.euler_order (ref : Ref d o g sol) (hd : Calm d rank a b X) : ∃ δ > 0, ∃ C ≥ 0, ∀ t u x, a ≤ t → t < u → u ≤ b → u - t ≤ δ → ‖x - path X o t‖ ≤ δ →
      ‖(fun k => x k + (u - t) * field g sol t x k) - x - (path X o u - path X o t)‖ ≤ (u - t) * (C * ((u - t) ^ 1 + ‖x - path X o t‖)) := by
  obtain ⟨y, A, r, hr, Q, M, h0, h1, hs⟩ := ref.sleek hd
  have hM : 0 ≤ M := (norm_nonneg _).trans (hs.sol.bound 0 (by norm_num) a ⟨le_refl _, hd.lt.le⟩)
  refine ⟨min r 1, lt_min hr one_pos, M + |Q|, by positivity, fun t u x h2 h3 h4 h5 h6 => ?_⟩
  have ht : t ∈ Icc a b := ⟨h2, by linarith⟩
  have q1 := hs.slope t ht x (by rw [h0]; exact h6.trans (min_le_left _ _))
  have q2 := hs.sol.taylor h2 2 (k := 0) (by norm_num) h3.le h4
  have q3 := (A 0 t).le_opNorm (x - y 0 t)
  have q4 := hs.lin.bound 0 (by norm_num) t ht
  simp only [h0] at q1 q2 q3
  have e2 : Conv.poly y t 2 0 (u - t) = path X o t + (u - t) • y 1 t := by simp [Conv.poly, Finset.sum_range_succ, h0]
  rw [e2] at q2
  have e : (fun k => x k + (u - t) * field g sol t x k) - x - (path X o u - path X o t) =
      (u - t) • (field g sol t x - y 1 t - A 0 t (x - path X o t)) + (u - t) • A 0 t (x - path X o t) - (path X o u - (path X o t + (u - t) • y 1 t)) := by
    funext k
    simp
    ring
  rw [e]
  refine (norm_sub_le _ _).trans ((add_le_add (norm_add_le _ _) (le_refl _)).trans ?_)
  have hh : 0 ≤ u - t := by linarith
  rw [norm_smul, norm_smul, Real.norm_of_nonneg hh, pow_one]
  have hn := norm_nonneg (x - path X o t)
  have w1 : Q * ‖x - path X o t‖ ^ 2 ≤ |Q| * ‖x - path X o t‖ := by
    have h7 : ‖x - path X o t‖ ^ 2 ≤ ‖x - path X o t‖ := by nlinarith [h6.trans (min_le_right _ _)]
    exact (mul_le_mul_of_nonneg_right (le_abs_self Q) (by positivity)).trans (mul_le_mul_of_nonneg_left h7 (abs_nonneg Q))
  have w2 : ‖A 0 t (x - path X o t)‖ ≤ M * ‖x - path X o t‖ := q3.trans (mul_le_mul_of_nonneg_right q4 hn)
  have w3 := mul_le_mul_of_nonneg_left (q1.trans w1) hh
  have w4 := mul_le_mul_of_nonneg_left w2 hh
  have w5 : 0 ≤ (u - t) * (|Q| * (u - t)) := by positivity
  linarith [w3, w4, q2]

/-- The errors of simulations with Rk4. -/
theorem Ref.rk4_error (ref : Ref d o g sol) (hd : Calm d rank a b X) :
    ∃ η0 > 0, ∃ B > 0, ∀ (A : Arith ℝ) (ρ : ℝ), 0 ≤ ρ → ρ ≤ η0 → A.Within B ρ → ∀ η, η ≤ η0 → ∀ ts : List ℝ,
      (a :: ts).IsChain (fun s u => s < u ∧ B * ρ ≤ u - s ∧ u - s ≤ η) → (a :: ts).getLast (by simp) + B * ρ ≤ b → ∀ (x0 z : Fin n → ℝ) (Z : SigId → ℝ),
      ‖x0 - path X o a‖ ≤ ρ → Path (fun t x u y => Rk4Step a b d o g A B ρ t u x y) a x0 ts z → d.About A B ρ ((a :: ts).getLast (by simp)) Z → (∀ k, Z (o k) = z k) →
      0 ≤ η → ∀ s ∈ d.signals, |Z s - X s ((a :: ts).getLast (by simp))| ≤ B * (η ^ 4 + (ts.length + 1) * ρ) :=
  total_error ref hd (S := fun A R ρ t x u y => Rk4Step a b d o g A R ρ t u x y) (Φ := fun t x u => Tableau.rk4.step (field g sol) t x (u - t)) (p := 4) (by norm_num)
    (fun k => (fading_steps (S := fun c => Rk4Step a b d o g c.A c.R c.ρ c.t c.u c.x c.y)).rk4 ref hd (y := Case.y) (fading_in.mono fun c q => q.2.2.2) k) (ref.rk4_order hd)

/-- The errors of simulations with Euler. -/
theorem Ref.euler_error (ref : Ref d o g sol) (hd : Calm d rank a b X) :
    ∃ η0 > 0, ∃ B > 0, ∀ (A : Arith ℝ) (ρ : ℝ), 0 ≤ ρ → ρ ≤ η0 → A.Within B ρ → ∀ η, η ≤ η0 → ∀ ts : List ℝ,
      (a :: ts).IsChain (fun s u => s < u ∧ B * ρ ≤ u - s ∧ u - s ≤ η) → (a :: ts).getLast (by simp) + B * ρ ≤ b → ∀ (x0 z : Fin n → ℝ) (Z : SigId → ℝ),
      ‖x0 - path X o a‖ ≤ ρ → Path (fun t x u y => EulerStep a b d o g A B ρ t u x y) a x0 ts z → d.About A B ρ ((a :: ts).getLast (by simp)) Z → (∀ k, Z (o k) = z k) →
      0 ≤ η → ∀ s ∈ d.signals, |Z s - X s ((a :: ts).getLast (by simp))| ≤ B * (η ^ 1 + (ts.length + 1) * ρ) :=
  total_error ref hd (S := fun A R ρ t x u y => EulerStep a b d o g A R ρ t u x y) (Φ := fun t x u k => x k + (u - t) * field g sol t x k) (p := 1) (by norm_num)
    (fun k => (fading_steps (S := fun c => EulerStep a b d o g c.A c.R c.ρ c.t c.u c.x c.y)).euler ref hd (y := Case.y) (fading_in.mono fun c q => q.2.2.2) k) (ref.euler_order hd)

section
attribute [local instance] Arith.exact

/-- There are exact solutions. -/
theorem ref_of (hc : d.Closed rank) (hf : ∀ p ∈ d.pieces, p.Fits) (hnd : ∀ p ∈ d.pieces, p.part.isDelay = false) (hin : ∃ p ∈ d.pieces, p.part.isIntegrator = true) :
    ∃ (n : Nat) (o g : Fin n → SigId) (sol : ℝ → (Fin n → ℝ) → SigId → ℝ), Ref d o g sol := by
  obtain ⟨⟨cfg, h, _, hst⟩, wd, hw⟩ := C66.C66_buildable d rank hc hf .plain (some rk4) (.inr ⟨_, .tail _ (.head _), rfl⟩) (fun e => by cases e)
  obtain ⟨ws, hd⟩ := h.drawn
  have hcl := hd.closed hc hw
  have hme : ∀ w ∈ ws, w.obj.Memoryless := fun w hm => by obtain ⟨p, hp, e⟩ := hd.piece w hm; exact Piece.memoryless e (hnd p hp)
  have hstate : ∃ w ∈ ws, w.obj.isState = true := by
    obtain ⟨p, hp, e⟩ := hin
    obtain ⟨w, hm, e'⟩ := hd.wire p hp
    exact ⟨w, hm, by rw [Piece.isState_eq e', e]⟩
  obtain ⟨m0, V, n, f, x0, hinit, rfl, rfl, g4, g5, g6, g7, g8, g9, g10, g11⟩ := C60.C60_trajectory cfg ws _ rank hcl hme hstate rk4 hst (.tail _ (.head _))
    wd (hd.new hw) hw.log 0 0 (1 : ℝ) 2 one_pos one_lt_two
  obtain ⟨hV, hn⟩ := C66.vars_of hd hc hw hinit
  have hsol : ∀ t (x : Fin m0.s.nState → ℝ), ∃ val, Solution cfg m0.vars wd.mem t (List.ofFn x) val := fun t x => by
    obtain ⟨val, hs, _⟩ := (g8 wd.mem t (List.ofFn x) (f t (List.ofFn x)) (by simp)).2 rfl
    exact ⟨val, hs⟩
  choose val hval using hsol
  have hslot := fun i => C66.slot hd hc hw hV hn i
  choose p hp hi e x e1 e2 hx using hslot
  refine ⟨_, fun i => m0.vars.scalars.getD i 0, x, fun t v s => scal (val t v s), ⟨fun t v => (hd.meets hc hV (hval t v) fun q hq e => by rw [hnd q hq] at e; cases e).2,
    fun t v i => by rw [C66.state_at hV hn (hval t v) i]; rfl, ⟨fun i => ⟨p i, hp i, hi i, (e i).symm⟩, fun q hq hi => ?_⟩, hx, fun i => ?_⟩⟩
  · obtain ⟨j, hj, e⟩ := List.getElem_of_mem ((hV.scalars _).2 ⟨q, hq, hi, rfl⟩)
    exact ⟨⟨j, hn ▸ hj⟩, by show m0.vars.scalars.getD j 0 = q.out; rw [List.getD_eq_getElem?_getD, List.getElem?_eq_getElem hj, e]; rfl⟩
  · have hi := hi i
    cases hpart : (p i).part with
    | integrator x0 => exact ⟨p i, hp i, x0, hpart, e1 i, (e i).symm⟩
    | _ => rw [hpart] at hi; cases hi

end

end Pooya.Acc
