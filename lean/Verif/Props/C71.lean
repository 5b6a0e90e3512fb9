import Verif.Proof.Inexact
import Verif.Props.C68
import Mathlib.Algebra.Order.Round

/-! # C71: how far rounding errors carry a simulation from the course the drawing describes -/

namespace Pooya.C71

open Pooya Set Acc

set_option linter.unusedSectionVars false

variable {d : Sketch} {rank : BlkId → Nat}

theorem first_run [Arith ℝ] {cfg : Config ℝ} {wd : World ℝ} {tPrev t0 minH maxH : ℝ} {m0 m : Machine ℝ} (h : Call.exec cfg (.init t0) { w := wd, s := { tPrev := tPrev } } = .ok () m0)
    (ts : List ℝ) : RunsTo cfg minH maxH { w := wd, s := { tPrev := tPrev } } (t0 :: ts) m ↔ RunsTo cfg minH maxH m0 ts m := by
  have first : ∀ fuel, Call.exec cfg (.run fuel t0 minH maxH) { w := wd, s := { tPrev := tPrev } } = .ok () m0 := fun fuel => h
  constructor
  · intro k
    cases k with
    | cons fuel q1 q2 =>
      rw [first] at q1
      cases q1
      exact q2
  · exact fun k => .cons 0 (first 0) k

theorem smooth_noDelay {a b : ℝ} {X : SigId → ℝ → ℝ} (hr : d.Smooth a b X) : ∀ p ∈ d.pieces, p.part.isDelay = false := fun p hp => by
  have := hr.1 p hp
  unfold Piece.Smooth at this
  cases h : p.part <;> first | rfl | (rw [h] at this; exact this.elim)

/-- C71, `Rk4`: however a program that draws a smooth diagram rounds - in the arithmetic of the method and of the blocks, and in the numbers and functions given to the
blocks -, all its signals stay within `B * (η ^ 4 + (n + 1) * ρ)` of the course the drawing describes: `η` the largest step, `n` the number of steps, `ρ` the largest error
of one operation.  `B` depends on the drawing and the interval of time alone.  Steps have to be longer than `B * ρ`, and the last one has to end that much before `T`. -/
theorem C71_rk4 (d : Sketch) (rank : BlkId → Nat) (hc : d.Closed rank) (hf : ∀ p ∈ d.pieces, p.Fits) (hin : ∃ p ∈ d.pieces, p.part.isIntegrator = true) (t0 T : ℝ) (hT : t0 < T)
    (X : SigId → ℝ → ℝ) (hX : d.Course ∅ t0 T X) (hr : d.Smooth t0 T X) :
    ∃ η0 > 0, ∃ B > 0, ∀ (A : Arith ℝ) (ρ : ℝ), 0 ≤ ρ → ρ ≤ η0 → A.Within B ρ → ∀ d' : Sketch, d.Within B ρ t0 T d' → ∀ cfg : Config ℝ, cfg.Draws d' →
      ∀ wd : World ℝ, wd.Begins d' → ∀ tPrev minH maxH : ℝ, (Arith.lit 0 <. minH) = true → (minH <. maxH) = true → ∀ η, 0 ≤ η → η ≤ η0 → ∀ ts : List ℝ,
      (t0 :: ts).IsChain (fun s u => s < u ∧ B * ρ ≤ u - s ∧ u - s ≤ η) → (t0 :: ts).getLast (by simp) + B * ρ ≤ T →
      (∃ m, RunsTo (cfg.with rk4) minH maxH { w := wd, s := { tPrev := tPrev } } (t0 :: ts) m) ∧
      ∀ m, RunsTo (cfg.with rk4) minH maxH { w := wd, s := { tPrev := tPrev } } (t0 :: ts) m → ∀ s ∈ d.pieces.map Piece.out ++ d.inputs.map Prod.fst,
        ∃ v, m.w.shown s = some (.scalar v) ∧ |v - X s ((t0 :: ts).getLast (by simp))| ≤ B * (η ^ 4 + (ts.length + 1) * ρ) := by
  have hnd := smooth_noDelay hr
  obtain ⟨n, o, g, sol, ref⟩ := ref_of hc hf hnd hin
  have hd : Calm d rank t0 T X := ⟨hT, hc, hX, hr⟩
  obtain ⟨η0, hη0, B, hB, key⟩ := ref.rk4_error hd
  refine ⟨η0, hη0, B, hB, fun A ρ hρ hρ' hA d' hW cfg h wd hw tPrev minH maxH h0 h1 η e0 e1 ts hch hl => ?_⟩
  obtain ⟨m0, hinit, hrun⟩ := erring ref hd hnd hin (.tail _ (.head _)) hρ hA hW h hw (Q := fun t x u y => Rk4Step t0 T d o g A B ρ t u x y) (fun V hs => hs.rk4) tPrev minH maxH h0 h1
  simp only [first_run hinit]
  obtain ⟨r1, r2⟩ := hrun ts (hch.imp fun s u k => k.1) (by nlinarith)
  refine ⟨r1, fun m hm s hs => ?_⟩
  obtain ⟨x0, z, Z, a1, a2, a3, a4, a5⟩ := r2 m hm
  exact ⟨_, a5 s hs, key A ρ hρ hρ' hA η e1 ts hch hl x0 z Z a1 a2 a3 a4 e0 s hs⟩

/-- C71, `Euler`: the same, with the first power of the largest step. -/
theorem C71_euler (d : Sketch) (rank : BlkId → Nat) (hc : d.Closed rank) (hf : ∀ p ∈ d.pieces, p.Fits) (hin : ∃ p ∈ d.pieces, p.part.isIntegrator = true) (t0 T : ℝ) (hT : t0 < T)
    (X : SigId → ℝ → ℝ) (hX : d.Course ∅ t0 T X) (hr : d.Smooth t0 T X) :
    ∃ η0 > 0, ∃ B > 0, ∀ (A : Arith ℝ) (ρ : ℝ), 0 ≤ ρ → ρ ≤ η0 → A.Within B ρ → ∀ d' : Sketch, d.Within B ρ t0 T d' → ∀ cfg : Config ℝ, cfg.Draws d' →
      ∀ wd : World ℝ, wd.Begins d' → ∀ tPrev minH maxH : ℝ, (Arith.lit 0 <. minH) = true → (minH <. maxH) = true → ∀ η, 0 ≤ η → η ≤ η0 → ∀ ts : List ℝ,
      (t0 :: ts).IsChain (fun s u => s < u ∧ B * ρ ≤ u - s ∧ u - s ≤ η) → (t0 :: ts).getLast (by simp) + B * ρ ≤ T →
      (∃ m, RunsTo (cfg.with euler) minH maxH { w := wd, s := { tPrev := tPrev } } (t0 :: ts) m) ∧
      ∀ m, RunsTo (cfg.with euler) minH maxH { w := wd, s := { tPrev := tPrev } } (t0 :: ts) m → ∀ s ∈ d.pieces.map Piece.out ++ d.inputs.map Prod.fst,
        ∃ v, m.w.shown s = some (.scalar v) ∧ |v - X s ((t0 :: ts).getLast (by simp))| ≤ B * (η + (ts.length + 1) * ρ) := by
  have hnd := smooth_noDelay hr
  obtain ⟨n, o, g, sol, ref⟩ := ref_of hc hf hnd hin
  have hd : Calm d rank t0 T X := ⟨hT, hc, hX, hr⟩
  obtain ⟨η0, hη0, B, hB, key⟩ := ref.euler_error hd
  refine ⟨η0, hη0, B, hB, fun A ρ hρ hρ' hA d' hW cfg h wd hw tPrev minH maxH h0 h1 η e0 e1 ts hch hl => ?_⟩
  obtain ⟨m0, hinit, hrun⟩ := erring ref hd hnd hin (.head _) hρ hA hW h hw (Q := fun t x u y => EulerStep t0 T d o g A B ρ t u x y) (fun V hs => hs.euler) tPrev minH maxH h0 h1
  simp only [first_run hinit]
  obtain ⟨r1, r2⟩ := hrun ts (hch.imp fun s u k => k.1) (by nlinarith)
  refine ⟨r1, fun m hm s hs => ?_⟩
  obtain ⟨x0, z, Z, a1, a2, a3, a4, a5⟩ := r2 m hm
  have := key A ρ hρ hρ' hA η e1 ts hch hl x0 z Z a1 a2 a3 a4 e0 s hs
  rw [pow_one] at this
  exact ⟨_, a5 s hs, this⟩

/-! ## Binary digits -/

theorem rounded_within {rnd : ℝ → ℝ} {R ρ : ℝ} (h : ∀ x, |x| ≤ R → |rnd x - x| ≤ ρ) : (Arith.rounded rnd).Within R ρ where
  add _ _ q := h _ q
  sub _ _ q := h _ q
  mul _ _ q := h _ q
  div _ _ _ q := h _ q
  lit _ q := h _ q
  lt _ _ := rfl
  le _ _ := rfl
  eq _ _ := rfl

theorem part_mono {R R' ρ ρ' a b : ℝ} (hR : R' ≤ R) (hρ : ρ ≤ ρ') {p q : Part} (h : p.Within R ρ a b q) : p.Within R' ρ' a b q := by
  cases p <;> cases q <;> first
    | exact h.elim
    | trivial
    | exact h
    | exact le_trans (show |_| ≤ ρ from h) hρ
    | exact fun t ht => (h t ht).trans hρ
    | exact fun t ht x hx => (h t ht x (hx.trans hR)).trans hρ

theorem within_mono {R R' ρ ρ' a b : ℝ} (hR : R' ≤ R) (hρ : ρ ≤ ρ') {d d' : Sketch} (h : d.Within R ρ a b d') : d.Within R' ρ' a b d' :=
  ⟨h.pieces.imp fun _ _ k => ⟨k.1, k.2.1, k.2.2.1, part_mono hR hρ k.2.2.2⟩, h.inputs.imp fun _ _ k => ⟨k.1, fun t ht => (k.2 t ht).trans hρ⟩⟩

/-- C71, `p` binary digits: every operation has a relative error of `2 ^ (-p)` at most (53 digits for `double`s), the numbers and functions given to the blocks have an error of
`2 ^ (-p)` at most.  With `p` large enough, the error of the simulation is at most `B * (η ^ 4 + (n + 1) / 2 ^ p)`. -/
theorem C71_digits (d : Sketch) (rank : BlkId → Nat) (hc : d.Closed rank) (hf : ∀ p ∈ d.pieces, p.Fits) (hin : ∃ p ∈ d.pieces, p.part.isIntegrator = true) (t0 T : ℝ) (hT : t0 < T)
    (X : SigId → ℝ → ℝ) (hX : d.Course ∅ t0 T X) (hr : d.Smooth t0 T X) :
    ∃ η0 > 0, ∃ (p0 : Nat) (B : ℝ), 0 < B ∧ ∀ (p : Nat), p0 ≤ p → ∀ (rnd : ℝ → ℝ), (∀ x, |rnd x - x| ≤ |x| / 2 ^ p) → ∀ A : Arith ℝ, A = Arith.rounded rnd →
      ∀ d' : Sketch, d.Within B (1 / 2 ^ p) t0 T d' → ∀ cfg : Config ℝ, cfg.Draws d' →
      ∀ wd : World ℝ, wd.Begins d' → ∀ tPrev minH maxH : ℝ, 0 < minH → minH < maxH → ∀ η, 0 ≤ η → η ≤ η0 → ∀ ts : List ℝ,
      (t0 :: ts).IsChain (fun s u => s < u ∧ B / 2 ^ p ≤ u - s ∧ u - s ≤ η) → (t0 :: ts).getLast (by simp) + B / 2 ^ p ≤ T →
      (∃ m, RunsTo (cfg.with rk4) minH maxH { w := wd, s := { tPrev := tPrev } } (t0 :: ts) m) ∧
      ∀ m, RunsTo (cfg.with rk4) minH maxH { w := wd, s := { tPrev := tPrev } } (t0 :: ts) m → ∀ s ∈ d.pieces.map Piece.out ++ d.inputs.map Prod.fst,
        ∃ v, m.w.shown s = some (.scalar v) ∧ |v - X s ((t0 :: ts).getLast (by simp))| ≤ B * (η ^ 4 + (ts.length + 1) / 2 ^ p) := by
  obtain ⟨η0, hη0, B, hB, key⟩ := C71_rk4 d rank hc hf hin t0 T hT X hX hr
  obtain ⟨C, hC⟩ : ∃ C, C = max B 1 := ⟨_, rfl⟩
  have hC1 : 1 ≤ C := hC ▸ le_max_right _ _
  have hCB : B ≤ C := hC ▸ le_max_left _ _
  obtain ⟨p0, hp0⟩ : ∃ p0 : Nat, C / 2 ^ p0 ≤ η0 := by
    obtain ⟨p0, h⟩ := pow_unbounded_of_one_lt (C / η0) (one_lt_two)
    refine ⟨p0, ?_⟩
    rw [div_lt_iff₀ hη0] at h
    rw [div_le_iff₀ (by positivity)]
    linarith
  have hBC : B ≤ B * C := by nlinarith
  refine ⟨η0, hη0, p0, B * C, by positivity, fun p hp rnd hrnd A hA d' hW cfg h wd hw tPrev minH maxH h0 h1 η e0 e1 ts hch hl => ?_⟩
  subst hA
  have h2 : (0 : ℝ) < 2 ^ p := by positivity
  have hρ : C / 2 ^ p ≤ η0 := le_trans (div_le_div_of_nonneg_left (by linarith) (by positivity) (pow_le_pow_right₀ one_le_two hp)) hp0
  have hz : rnd ((0 : ℚ) : ℝ) = 0 := by
    have := hrnd ((0 : ℚ) : ℝ)
    rw [Rat.cast_zero, abs_zero, zero_div, sub_zero] at this
    rw [Rat.cast_zero]
    exact abs_nonpos_iff.1 this
  have e : B * (C / 2 ^ p) = B * C / 2 ^ p := by rw [mul_div_assoc]
  obtain ⟨r1, r2⟩ := key _ (C / 2 ^ p) (by positivity) hρ
    (rounded_within fun x hx => (hrnd x).trans (div_le_div_of_nonneg_right (hx.trans hCB) h2.le)) d' (within_mono hBC (div_le_div_of_nonneg_right hC1 h2.le) hW) cfg h wd hw tPrev minH maxH
    (decide_eq_true (show rnd ((0 : ℚ) : ℝ) < minH by rw [hz]; exact h0)) (decide_eq_true h1) η e0 e1 ts (by rw [e]; exact hch) (by rw [e]; exact hl)
  refine ⟨r1, fun m hm s hs => ?_⟩
  obtain ⟨v, q1, q2⟩ := r2 m hm s hs
  refine ⟨v, q1, q2.trans ?_⟩
  have k1 : B * η ^ 4 ≤ B * C * η ^ 4 := mul_le_mul_of_nonneg_right hBC (by positivity)
  have k2 : B * ((ts.length + 1) * (C / 2 ^ p)) = B * C * ((ts.length + 1) / 2 ^ p) := by ring
  rw [mul_add, mul_add, k2]
  linarith

/-- Rounding of real numbers to `p` binary digits. -/
noncomputable def digits (p : Nat) (x : ℝ) : ℝ := round (x / 2 ^ (Int.log 2 |x| + 1 - p)) * 2 ^ (Int.log 2 |x| + 1 - p)

theorem digits_near (p : Nat) (x : ℝ) : |digits p x - x| ≤ |x| / 2 ^ p := by
  rcases eq_or_ne x 0 with rfl | hx
  · simp [digits]
  have hu : (0 : ℝ) < 2 ^ (Int.log 2 |x| + 1 - p) := by positivity
  have e : digits p x - x = (round (x / 2 ^ (Int.log 2 |x| + 1 - p)) - x / 2 ^ (Int.log 2 |x| + 1 - p)) * 2 ^ (Int.log 2 |x| + 1 - p) := by
    rw [sub_mul, div_mul_cancel₀ _ hu.ne']; rfl
  have h1 := abs_sub_round (x / (2 : ℝ) ^ (Int.log 2 |x| + 1 - p))
  have h2 : ((2 : ℕ) : ℝ) ^ Int.log 2 |x| ≤ |x| := Int.zpow_log_le_self (by norm_num) (abs_pos.2 hx)
  rw [e, abs_mul, abs_of_pos hu, abs_sub_comm]
  have e2 : (2 : ℝ) ^ (Int.log 2 |x| + 1 - p) = 2 * 2 ^ Int.log 2 |x| / 2 ^ p := by
    rw [zpow_sub₀ (by norm_num), zpow_add₀ (by norm_num), zpow_one, zpow_natCast, mul_comm ((2 : ℝ) ^ _) 2]
  rw [e2] at h1 ⊢
  refine (mul_le_mul_of_nonneg_right h1 (by positivity)).trans ?_
  rw [show (1 / 2 : ℝ) * (2 * 2 ^ Int.log 2 |x| / 2 ^ p) = 2 ^ Int.log 2 |x| / 2 ^ p by ring]
  exact div_le_div_of_nonneg_right (by exact_mod_cast h2) (by positivity)

/-! ## A sample -/

/-- samples/test04_mass_spring.cpp:31-49, with numbers rounded to `p` digits. -/
noncomputable def spring (p : Nat) : Sketch where
  pieces := [⟨1, .integrator (digits p 0.1), [2], 1⟩, ⟨2, .integrator (digits p 0), [1], 0⟩, ⟨3, .gain (digits p (-1)), [0], 2⟩]
  inputs := []

theorem spring_within (p : Nat) (R a b : ℝ) : C66.massSpring.Within R (1 / 2 ^ p) a b (spring p) := by
  have key : ∀ x : ℝ, |x| ≤ 1 → |digits p x - x| ≤ 1 / 2 ^ p := fun x hx => (digits_near p x).trans (div_le_div_of_nonneg_right hx (by positivity))
  refine ⟨.cons ⟨rfl, rfl, rfl, key _ ?_⟩ (.cons ⟨rfl, rfl, rfl, key _ ?_⟩ (.cons ⟨rfl, rfl, rfl, key _ ?_⟩ .nil)), .nil⟩
  · rw [abs_of_nonneg] <;> norm_num
  · simp
  · simp

/-- samples/test04_mass_spring.cpp, with `Rk4` in arithmetic with `p` binary digits: the position differs from `0.1 sin T` by the fourth power of the step size and by
a rounding error for each step. -/
theorem C71_mass_spring (T : ℝ) (hT : 0 < T) : ∃ η0 > 0, ∃ (p0 : Nat) (B : ℝ), 0 < B ∧ ∀ (p : Nat), p0 ≤ p → ∀ A : Arith ℝ, A = Arith.rounded (digits p) →
      ∀ cfg : Config ℝ, cfg.Draws (spring p) → ∀ wd : World ℝ, wd.Begins (spring p) → ∀ tPrev minH maxH : ℝ, 0 < minH → minH < maxH → ∀ η, 0 ≤ η → η ≤ η0 → ∀ ts : List ℝ,
      (0 :: ts).IsChain (fun s u => s < u ∧ B / 2 ^ p ≤ u - s ∧ u - s ≤ η) → (0 :: ts).getLast (by simp) + B / 2 ^ p ≤ T →
      (∃ m, RunsTo (cfg.with rk4) minH maxH { w := wd, s := { tPrev := tPrev } } (0 :: ts) m) ∧
      ∀ m, RunsTo (cfg.with rk4) minH maxH { w := wd, s := { tPrev := tPrev } } (0 :: ts) m →
        ∃ v, m.w.shown 0 = some (.scalar v) ∧ |v - 0.1 * Real.sin ((0 :: ts).getLast (by simp))| ≤ B * (η ^ 4 + (ts.length + 1) / 2 ^ p) := by
  obtain ⟨η0, hη, p0, B, hB, key⟩ := C71_digits C66.massSpring _ C66.massSpring_closed (by simp [C66.massSpring, Piece.Fits])
    ⟨⟨1, .integrator 0.1, [2], 1⟩, by simp [C66.massSpring], rfl⟩ 0 T hT C66.massSpringCourse (C66.massSpring_course T) ⟨by simp [C66.massSpring, Piece.Smooth], by simp [C66.massSpring]⟩
  refine ⟨η0, hη, p0, B, hB, fun p hp A hA cfg h wd hw tPrev minH maxH h0 h1 η e0 e1 ts hch hl => ?_⟩
  obtain ⟨r1, r2⟩ := key p hp _ (digits_near p) A hA _ (spring_within p B 0 T) cfg h wd hw tPrev minH maxH h0 h1 η e0 e1 ts hch hl
  exact ⟨r1, fun m hm => r2 m hm 0 (by simp [C66.massSpring])⟩

theorem spring_closed (p : Nat) : (spring p).Closed (fun _ => 0) := within_closed (spring_within p 0 0 0) C66.massSpring_closed

/-- The program can be built for every simulator and every number of digits; so the hypotheses of the theorems hold, and there are times that meet those about the steps. -/
example (k : Strategy) (p : Nat) : (∃ cfg : Config ℝ, cfg.Draws (spring p) ∧ cfg.strategy = k) ∧ ∃ wd : World ℝ, wd.Begins (spring p) := by
  let _ : Arith ℝ := Arith.exact ℝ
  obtain ⟨⟨cfg, h1, h2, _⟩, h3⟩ := C66.C66_buildable (spring p) _ (spring_closed p) (by simp [spring, Piece.Fits]) k (some rk4) (.inr ⟨_, .tail _ (.head _), rfl⟩)
    (fun _ => ⟨⟨1, .integrator (digits p 0.1), [2], 1⟩, by simp [spring], rfl⟩)
  exact ⟨⟨cfg, h1, h2⟩, h3⟩

example (T B η : ℝ) (hT : 0 < T) (hη : 0 < η) : ∃ (p1 : Nat), ∀ p, p1 ≤ p → ∃ u : ℝ, 0 < u ∧ ([0, u] : List ℝ).IsChain (fun s u => s < u ∧ B / 2 ^ p ≤ u - s ∧ u - s ≤ η) ∧ u + B / 2 ^ p ≤ T := by
  have hm : 0 < min η (T / 2) := lt_min hη (by linarith)
  obtain ⟨p1, h⟩ := pow_unbounded_of_one_lt (|B| / min η (T / 2)) (one_lt_two (α := ℝ))
  refine ⟨p1, fun p hp => ⟨min η (T / 2), hm, ?_, ?_⟩⟩
  all_goals
    have h2 : |B| / 2 ^ p ≤ min η (T / 2) := by
      rw [div_lt_iff₀ hm] at h
      rw [div_le_iff₀ (by positivity)]
      have : (2 : ℝ) ^ p1 * min η (T / 2) ≤ 2 ^ p * min η (T / 2) := mul_le_mul_of_nonneg_right (pow_le_pow_right₀ one_le_two hp) hm.le
      linarith
    have h3 : B / 2 ^ p ≤ |B| / 2 ^ p := div_le_div_of_nonneg_right (le_abs_self B) (by positivity)
  · exact List.isChain_pair.2 ⟨hm, by linarith, by linarith [min_le_left η (T / 2)]⟩
  · linarith [min_le_right η (T / 2)]

end Pooya.C71
