import Verif.Proof.Drift
import Mathlib.Analysis.ODE.ExistUnique
import Mathlib.Analysis.SpecialFunctions.Trigonometric.Deriv
import Mathlib.Analysis.SpecialFunctions.Trigonometric.Bounds
import Mathlib.Analysis.Calculus.Deriv.Shift

/-! # C66: simulations of drawings converge to the course the drawing describes -/

namespace Pooya.C66

open Pooya Set

set_option linter.unusedSectionVars false

attribute [local instance] Arith.exact

variable {cfg : Config ℝ} {d : Sketch} {ws : List (Wire ℝ)} {rank : BlkId → Nat} {wd : World ℝ}

theorem converges (cfg : Config ℝ) (d : Sketch) (rank : BlkId → Nat) (h : cfg.Draws d) (hc : d.Closed rank) (wd : World ℝ) (hw : wd.Begins d)
    (tPrev t0 T minH maxH : ℝ) (h0 : 0 < minH) (h1 : minH < maxH) (hT : t0 ≤ T) (J : Finset ℝ) (X : SigId → ℝ → ℝ)
    (hX : d.Course J t0 T X) (hr : d.Regular J t0 T) :
    ∃ m0, Call.exec cfg (.init t0) { w := wd, s := { tPrev := tPrev } } = .ok () m0 ∧ ∀ ε > 0, ∃ η > 0, ∀ ts : List ℝ, (t0 :: ts).Pairwise (· < ·) →
      (t0 :: ts).IsChain (fun s u => u - s ≤ η) → (t0 :: ts).getLast (by simp) ≤ T →
      (∃ m, RunsTo cfg minH maxH m0 ts m) ∧ ∀ m, RunsTo cfg minH maxH m0 ts m →
        ∀ s ∈ d.pieces.map Piece.out ++ d.inputs.map Prod.fst, ∃ v, m.w.shown s = some (.scalar v) ∧ |v - X s ((t0 :: ts).getLast (by simp))| ≤ ε := by
  obtain ⟨m0, hinit, n, y1, K, r, L, _, hy, hK, hr0, hL, c, hc0, key⟩ := approach cfg d rank h hc wd hw tPrev t0 T minH maxH h0 h1 hT J X hX hr
  refine ⟨m0, hinit, fun ε hε => ?_⟩
  obtain ⟨W, hW1, hW⟩ : ∃ W : ℝ, 1 ≤ W ∧ ∀ s ∈ Icc t0 T, ∀ t ∈ Icc t0 T, ‖y1 s - y1 t‖ ≤ W := by
    refine ⟨2 * |K| + 1, by linarith [abs_nonneg K], fun s hs t ht => ?_⟩
    have := norm_sub_le (y1 s) (y1 t)
    linarith [hK s hs, hK t ht, le_abs_self K]
  obtain ⟨E, hE, hE0⟩ : ∃ E, E = Real.exp (120 * L * (T - t0)) ∧ 0 < E := ⟨_, rfl, Real.exp_pos _⟩
  obtain ⟨B, hB, hB0⟩ : ∃ B, B = E * 241 ∧ 0 ≤ B := ⟨_, rfl, by positivity⟩
  have hm : 0 < min (ε / (L + 1)) (r / 2) := lt_min (div_pos hε (by linarith)) (by linarith)
  generalize hmdef : min (ε / (L + 1)) (r / 2) = m at hm
  have hBT : 0 ≤ B * (T - t0) := mul_nonneg hB0 (by linarith)
  obtain ⟨v, hv0, hvW, hv⟩ : ∃ v, 0 < v ∧ v ≤ W ∧ B * (v * (T - t0)) ≤ m / 4 := by
    refine ⟨min 1 (m / 4 / (B * (T - t0) + 1)), lt_min one_pos (by positivity), (min_le_left _ _).trans hW1, ?_⟩
    have q := min_le_right 1 (m / 4 / (B * (T - t0) + 1))
    rw [le_div_iff₀ (by linarith)] at q
    have q0 : 0 < min 1 (m / 4 / (B * (T - t0) + 1)) := lt_min one_pos (by positivity)
    linarith
  obtain ⟨κ, hκ0, hκ⟩ : ∃ κ, 0 < κ ∧ B * (J.card * (W * (2 * (κ + κ)))) ≤ m / 4 := by
    have hq : 0 ≤ B * (J.card * (W * 4)) := by positivity
    refine ⟨m / 4 / (B * (J.card * (W * 4)) + 1), by positivity, ?_⟩
    have q : m / 4 / (B * (J.card * (W * 4)) + 1) * (B * (J.card * (W * 4)) + 1) = m / 4 := div_mul_cancel₀ _ (by linarith)
    have q0 : 0 < m / 4 / (B * (J.card * (W * 4)) + 1) := by positivity
    linarith
  obtain ⟨ω, hω0, hω⟩ : ∃ ω, 0 < ω ∧ E * ω ≤ m / 2 := ⟨m / 2 / E, by positivity, by rw [mul_div_cancel₀ _ hE0.ne']⟩
  obtain ⟨η1, hη1, hvar⟩ := Conv.varies_of_continuous hy hW hv0 hvW hκ0
  obtain ⟨η2, hη2, hsm⟩ := C61.small hr0 hL (show 0 ≤ W by linarith)
  obtain ⟨η3, hη3, hslow⟩ := slow_of hX hω0
  refine ⟨min (min (min η1 η2) (min η3 c)) κ, lt_min (lt_min (lt_min hη1 hη2) (lt_min hη3 hc0)) hκ0, fun ts hp hg hl => ?_⟩
  have p0 : 0 < min (min (min η1 η2) (min η3 c)) κ := lt_min (lt_min (lt_min hη1 hη2) (lt_min hη3 hc0)) hκ0
  have p1 : min (min (min η1 η2) (min η3 c)) κ ≤ η1 := (min_le_left _ _).trans ((min_le_left _ _).trans (min_le_left _ _))
  have p2 : min (min (min η1 η2) (min η3 c)) κ ≤ η2 := (min_le_left _ _).trans ((min_le_left _ _).trans (min_le_right _ _))
  have p3 : min (min (min η1 η2) (min η3 c)) κ ≤ η3 := (min_le_left _ _).trans ((min_le_right _ _).trans (min_le_left _ _))
  have p4 : min (min (min η1 η2) (min η3 c)) κ ≤ c := (min_le_left _ _).trans ((min_le_right _ _).trans (min_le_right _ _))
  have p5 := min_le_right (min (min η1 η2) (min η3 c)) κ
  generalize min (min (min η1 η2) (min η3 c)) κ = η at *
  have hgr : B * (Conv.growth J v W (κ + η) T - Conv.growth J v W (κ + η) t0) ≤ m / 2 := by
    have q1 := Conv.growth_le (J := J) (v := v) (a := t0) (b := T) (show 0 ≤ W by linarith) (show 0 ≤ κ + η by linarith)
    have q2 := mul_le_mul_of_nonneg_left q1 hB0
    have q3 : B * (J.card * (W * (2 * (κ + η)))) ≤ B * (J.card * (W * (2 * (κ + κ)))) := by gcongr
    rw [mul_add] at q2
    linarith
  have hBG : errorAt L ω t0 (Conv.growth J v W (κ + η)) T ≤ m := by
    unfold errorAt
    rw [← hE, mul_add, ← mul_assoc, show (240 + 1 : ℝ) = 241 by norm_num, ← hB]
    linarith
  obtain ⟨s1, s2⟩ := hsm η p2
  have key := key W η ω _ p0.le p4 (by linarith) hω0.le (hslow η p3) (hvar η p1) (Conv.growth_mono hv0.le (by linarith)) s1 s2 (hBG.trans (hmdef ▸ min_le_right _ _)) ts hp hg hl
  refine ⟨key.1, fun m' hm' s hs => ?_⟩
  obtain ⟨z, e1, e2⟩ := key.2 m' hm' s hs
  refine ⟨z, e1, e2.trans ((mul_le_mul_of_nonneg_left (hBG.trans (hmdef ▸ min_le_left _ _)) hL).trans ?_)⟩
  rw [← mul_div_assoc, div_le_iff₀ (by linarith)]
  nlinarith

theorem rate (cfg : Config ℝ) (d : Sketch) (rank : BlkId → Nat) (h : cfg.Draws d) (hc : d.Closed rank) (wd : World ℝ) (hw : wd.Begins d)
    (tPrev t0 T minH maxH : ℝ) (h0 : 0 < minH) (h1 : minH < maxH) (hT : t0 ≤ T) (J : Finset ℝ) (X : SigId → ℝ → ℝ)
    (hX : d.Course J t0 T X) (hr : d.Regular J t0 T) (M : ℝ) (hM : 0 ≤ M)
    (hl : ∀ p ∈ d.pieces, p.part.isIntegrator = true → ∀ x ∈ p.ins, ∀ s ∈ Icc t0 T, ∀ t ∈ Icc t0 T, s ≤ t → (∀ j ∈ J, j ∉ Icc s t) →
      |X x t - X x s| ≤ M * (t - s))
    (hdl : ∀ p ∈ d.pieces, ∀ life x e i, p.part = .delay life → p.ins = [x, e, i] → ∀ s ∈ Icc t0 T, ∀ t ∈ Icc t0 T, |X x s - X x t| ≤ M * |s - t|) :
    ∃ m0, Call.exec cfg (.init t0) { w := wd, s := { tPrev := tPrev } } = .ok () m0 ∧ ∃ η0 > 0, ∃ B, ∀ η, 0 ≤ η → η ≤ η0 → ∀ ts : List ℝ,
      (t0 :: ts).Pairwise (· < ·) → (t0 :: ts).IsChain (fun s u => u - s ≤ η) → (t0 :: ts).getLast (by simp) ≤ T →
      (∃ m, RunsTo cfg minH maxH m0 ts m) ∧ ∀ m, RunsTo cfg minH maxH m0 ts m →
        ∀ s ∈ d.pieces.map Piece.out ++ d.inputs.map Prod.fst, ∃ v, m.w.shown s = some (.scalar v) ∧ |v - X s ((t0 :: ts).getLast (by simp))| ≤ B * η := by
  obtain ⟨m0, hinit, n, y1, K, r, L, hin, hy, hK, hr0, hL, c, hc0, key⟩ := approach cfg d rank h hc wd hw tPrev t0 T minH maxH h0 h1 hT J X hX hr
  refine ⟨m0, hinit, ?_⟩
  have hmod : ∀ s ∈ Icc t0 T, ∀ t ∈ Icc t0 T, s ≤ t → (∀ j ∈ J, j ∉ Icc s t) → ‖y1 t - y1 s‖ ≤ M * (t - s) := by
    intro s hs t ht hst hJ
    rw [pi_norm_le_iff_of_nonneg (mul_nonneg hM (by linarith))]
    intro i
    obtain ⟨p, hp, hi, x, hx, e⟩ := hin i
    rw [Pi.sub_apply, Real.norm_eq_abs, e, e]
    exact hl p hp hi x hx s hs t ht hst hJ
  obtain ⟨W, hWM, hW⟩ : ∃ W : ℝ, M ≤ W ∧ ∀ s ∈ Icc t0 T, ∀ t ∈ Icc t0 T, ‖y1 s - y1 t‖ ≤ W := by
    refine ⟨2 * |K| + M, by linarith [abs_nonneg K], fun s hs t ht => ?_⟩
    have := norm_sub_le (y1 s) (y1 t)
    linarith [hK s hs, hK t ht, le_abs_self K]
  have hW0 : 0 ≤ W := by linarith
  obtain ⟨B, hB, hB0⟩ : ∃ B, B = Real.exp (120 * L * (T - t0)) * ((240 + 1) * (M * (T - t0) + J.card * (W * 2)) + M) ∧ 0 ≤ B :=
    ⟨_, rfl, mul_nonneg (Real.exp_pos _).le (add_nonneg (mul_nonneg (by norm_num) (add_nonneg (mul_nonneg hM (by linarith)) (by positivity))) hM)⟩
  obtain ⟨η2, hη2, hsm⟩ := C61.small hr0 hL hW0
  refine ⟨min (min (min 1 η2) c) (r / 2 / (B + 1)), lt_min (lt_min (lt_min one_pos hη2) hc0) (by positivity), L * B, fun η e1 e2 ts hp hg hl' => ?_⟩
  have p1 : η ≤ 1 := e2.trans ((min_le_left _ _).trans ((min_le_left _ _).trans (min_le_left _ _)))
  have p3 : η ≤ η2 := e2.trans ((min_le_left _ _).trans ((min_le_left _ _).trans (min_le_right _ _)))
  have p4 : η ≤ c := e2.trans ((min_le_left _ _).trans (min_le_right _ _))
  have p2 : B * η ≤ r / 2 := by
    have := e2.trans (min_le_right _ _)
    rw [le_div_iff₀ (by linarith)] at this
    linarith
  have hvW : M * η ≤ W := (mul_le_of_le_one_right hM p1).trans hWM
  have hvar : Conv.Varies y1 t0 T W η (Conv.growth J (M * η) W (0 + η)) := by
    refine Conv.varies (mul_nonneg hM e1) hW0 hvW (fun t u ha htu hb hd hJ s hs => ?_) hW
    refine (hmod t ⟨ha, by linarith⟩ s ⟨by linarith [hs.1], by linarith [hs.2]⟩ hs.1 (fun j hj hm => hJ j hj ⟨by linarith [hm.1], by linarith [hm.2, hs.2]⟩)).trans ?_
    exact mul_le_mul_of_nonneg_left (by linarith [hs.2]) hM
  have hslow : Slow d X t0 T η (M * η) := fun p hp life x e i q1 q2 s hs t ht hst =>
    (hdl p hp life x e i q1 q2 s hs t ht).trans (mul_le_mul_of_nonneg_left hst hM)
  have hBG : errorAt L (M * η) t0 (Conv.growth J (M * η) W (0 + η)) T ≤ B * η := by
    have q1 := Conv.growth_le (J := J) (v := M * η) (a := t0) (b := T) hW0 (show 0 ≤ 0 + η by linarith)
    unfold errorAt
    rw [hB, mul_assoc (Real.exp _)]
    refine mul_le_mul_of_nonneg_left ?_ (Real.exp_pos _).le
    linarith
  obtain ⟨s1, s2⟩ := hsm η p3
  have key := key W η (M * η) _ e1 p4 hW0 (mul_nonneg hM e1) hslow hvar (Conv.growth_mono (mul_nonneg hM e1) hW0) s1 s2 (hBG.trans p2) ts hp hg hl'
  refine ⟨key.1, fun m' hm' s hs => ?_⟩
  obtain ⟨z, q1, q2⟩ := key.2 m' hm' s hs
  refine ⟨z, q1, q2.trans ?_⟩
  rw [mul_assoc]
  exact mul_le_mul_of_nonneg_left hBG hL

/-- The first call of `run` of a new simulator is `init`. -/
theorem run_first {tPrev t0 minH maxH : ℝ} {m0 : Machine ℝ} (h : Call.exec cfg (.init t0) { w := wd, s := { tPrev := tPrev } } = .ok () m0) (fuel : Nat) :
    Call.exec cfg (.run fuel t0 minH maxH) { w := wd, s := { tPrev := tPrev } } = .ok () m0 := h

theorem runs_first {tPrev t0 minH maxH : ℝ} {m0 m : Machine ℝ} (h : Call.exec cfg (.init t0) { w := wd, s := { tPrev := tPrev } } = .ok () m0) (ts : List ℝ) :
    RunsTo cfg minH maxH { w := wd, s := { tPrev := tPrev } } (t0 :: ts) m ↔ RunsTo cfg minH maxH m0 ts m := by
  constructor
  · intro hr
    cases hr with
    | cons fuel g1 g2 =>
      rw [run_first h] at g1
      cases g1
      exact g2
  · exact fun hr => .cons 0 (run_first h 0) hr

/-- C66: a program that builds the drawing `d` and simulates it, with any of the simulators and methods, the blocks in any order and grouped in any submodels.  Let `X`
be a course of the signals on `[t0, T]` that satisfies the equations of the drawing, with breaks at finitely many times `J` at most.  For every `ε` there is a step size such that, if `run` of the new simulator is
called for `t0` and then for any increasing times with smaller distances, the calls return and all signals then hold the values of `X` at the last of these times,
up to `ε`. -/
theorem C66_converges (cfg : Config ℝ) (d : Sketch) (rank : BlkId → Nat) (h : cfg.Draws d) (hc : d.Closed rank) (wd : World ℝ) (hw : wd.Begins d)
    (tPrev t0 T minH maxH : ℝ) (h0 : 0 < minH) (h1 : minH < maxH) (hT : t0 ≤ T) (J : Finset ℝ) (X : SigId → ℝ → ℝ)
    (hX : d.Course J t0 T X) (hr : d.Regular J t0 T) :
    ∀ ε > 0, ∃ η > 0, ∀ ts : List ℝ, (t0 :: ts).Pairwise (· < ·) → (t0 :: ts).IsChain (fun s u => u - s ≤ η) → (t0 :: ts).getLast (by simp) ≤ T →
      (∃ m, RunsTo cfg minH maxH { w := wd, s := { tPrev := tPrev } } (t0 :: ts) m) ∧
      ∀ m, RunsTo cfg minH maxH { w := wd, s := { tPrev := tPrev } } (t0 :: ts) m → ∀ s ∈ d.pieces.map Piece.out ++ d.inputs.map Prod.fst,
        ∃ v, m.w.shown s = some (.scalar v) ∧ |v - X s ((t0 :: ts).getLast (by simp))| ≤ ε := by
  obtain ⟨m0, hi, key⟩ := converges cfg d rank h hc wd hw tPrev t0 T minH maxH h0 h1 hT J X hX hr
  simp only [runs_first hi]
  exact key

/-- C66, rate: if the signals that are integrated are Lipschitz continuous between the breaks of the course, and those that are delayed everywhere, the error of all signals is at most proportional to the largest
distance of the times. -/
theorem C66_rate (cfg : Config ℝ) (d : Sketch) (rank : BlkId → Nat) (h : cfg.Draws d) (hc : d.Closed rank) (wd : World ℝ) (hw : wd.Begins d)
    (tPrev t0 T minH maxH : ℝ) (h0 : 0 < minH) (h1 : minH < maxH) (hT : t0 ≤ T) (J : Finset ℝ) (X : SigId → ℝ → ℝ)
    (hX : d.Course J t0 T X) (hr : d.Regular J t0 T) (M : ℝ) (hM : 0 ≤ M)
    (hl : ∀ p ∈ d.pieces, p.part.isIntegrator = true → ∀ x ∈ p.ins, ∀ s ∈ Icc t0 T, ∀ t ∈ Icc t0 T, s ≤ t → (∀ j ∈ J, j ∉ Icc s t) →
      |X x t - X x s| ≤ M * (t - s))
    (hdl : ∀ p ∈ d.pieces, ∀ life x e i, p.part = .delay life → p.ins = [x, e, i] → ∀ s ∈ Icc t0 T, ∀ t ∈ Icc t0 T, |X x s - X x t| ≤ M * |s - t|) :
    ∃ η0 > 0, ∃ B, ∀ η, 0 ≤ η → η ≤ η0 → ∀ ts : List ℝ, (t0 :: ts).Pairwise (· < ·) → (t0 :: ts).IsChain (fun s u => u - s ≤ η) →
      (t0 :: ts).getLast (by simp) ≤ T → (∃ m, RunsTo cfg minH maxH { w := wd, s := { tPrev := tPrev } } (t0 :: ts) m) ∧
      ∀ m, RunsTo cfg minH maxH { w := wd, s := { tPrev := tPrev } } (t0 :: ts) m → ∀ s ∈ d.pieces.map Piece.out ++ d.inputs.map Prod.fst,
        ∃ v, m.w.shown s = some (.scalar v) ∧ |v - X s ((t0 :: ts).getLast (by simp))| ≤ B * η := by
  obtain ⟨m0, hi, key⟩ := rate cfg d rank h hc wd hw tPrev t0 T minH maxH h0 h1 hT J X hX hr M hM hl hdl
  simp only [runs_first hi]
  exact key

/-! ## Drawings can be built -/

theorem leaves_leaf (ls : List (Leaf ℝ)) : leavesL (ls.map Block.leaf) = ls := by
  induction ls with
  | nil => rfl
  | cons l ls ih => simp [leavesL, Block.leaves, ih]

theorem all_leaf (ls : List (Leaf ℝ)) : allL (ls.map Block.leaf) = ls.map Block.leaf := by
  induction ls with
  | nil => rfl
  | cons l ls ih => simp [allL, Block.all, ih]

/-- The input bus of the block. -/
noncomputable def entries (p : Piece) : Entries :=
  match p.part, p.ins with
  | .delay _, [x, e, i] => [(str "in", Signal.val x .scalar), (str "delay", Signal.val e .scalar), (str "initial", Signal.val i .scalar)]
  | _, ins => ins.map (fun s => (str "", .val s .scalar))

/-- The block with its signals. -/
noncomputable def wire (p : Piece) : Wire ℝ := ⟨p.id, p.part.make, entries p, [(str "", .val p.out .scalar)]⟩

theorem wired (p : Piece) (hf : p.Fits) : p.Wired (wire p) := by
  refine ⟨rfl, rfl, ?_, by simp [wire]⟩
  show p.Bus (entries p)
  obtain ⟨id, part, ins, out⟩ := p
  cases part with
  | delay life =>
    match ins, hf with
    | [x, e, i], _ => exact .refl _
  | _ => simp [Piece.Bus, entries, Function.comp_def]

theorem connect_all (ps : List Piece) (hf : ∀ p ∈ ps, p.Fits) (δ : Derivs) : ∃ ls δ', connectAll true (ps.map wire) δ = .ok (ls, δ') ∧ ls.map Leaf.id = ps.map Piece.id := by
  induction ps generalizing δ with
  | nil => exact ⟨[], δ, rfl, rfl⟩
  | cons p ps ih =>
    obtain ⟨l, δ1, e, _⟩ := Piece.connects (wired p (hf p (.head _))) (hf p (.head _)) δ
    obtain ⟨ls, δ2, e2, e3⟩ := ih (fun q hq => hf q (.tail _ hq)) δ1
    have hid : l.id = p.id := by
      unfold Wire.connect at e
      split at e <;> cases e
      rfl
    refine ⟨l :: ls, δ2, ?_, by simp [hid, e3]⟩
    rw [List.map_cons]
    unfold connectAll
    rw [e]
    simp only
    rw [e2]

/-- Every closed drawing, with the right numbers of inputs, can be built and simulated with every kind of simulator and every method, or without one if there is no
integrator. -/
theorem C66_buildable (d : Sketch) (rank : BlkId → Nat) (hc : d.Closed rank) (hf : ∀ p ∈ d.pieces, p.Fits) (k : Strategy) (st : Option (Stepper ℝ))
    (hst : (st = none ∧ ∀ p ∈ d.pieces, p.part.isIntegrator = false) ∨ ∃ s ∈ [euler, rk4, rkf45], st = some s)
    (hk : k = .reuse → ∃ p ∈ d.pieces, p.part.isIntegrator = true) : (∃ cfg : Config ℝ, cfg.Draws d ∧ cfg.strategy = k ∧ cfg.stepper = st) ∧ ∃ wd : World ℝ, wd.Begins d := by
  constructor
  · obtain ⟨ls, δ, h1, h2⟩ := connect_all d.pieces hf (fun _ => none)
    obtain ⟨root, hroot⟩ : ∃ root : BlkId, root ∉ d.pieces.map Piece.id :=
      ⟨(d.pieces.map Piece.id).sum + 1, fun h => by have := C60.le_sum h; omega⟩
    refine ⟨{ dbg := true, model := .sub root [] (ls.map Block.leaf), deriv := δ,
              inputs := some (fun t => (d.inputs.map (fun u => (u.1, Val.scalar (u.2 t))), none)), modelInput := fun _ => ([], none), stepper := st, strategy := k, hash := id },
      ⟨rfl, ⟨d.pieces, d.pieces.map wire, .refl _, ?_, ls, h1, ?_⟩, ?_, fun l => .refl _, .inr rfl, fun _ => rfl, hst, hk⟩, rfl, rfl⟩
    · rw [List.forall₂_map_right_iff, List.forall₂_same]
      exact fun p hp => wired p (hf p hp)
    · show (leavesL (ls.map Block.leaf)).Perm ls
      rw [leaves_leaf]
    · show (Block.ids _).Nodup
      have : Block.ids (.sub root [] (ls.map Block.leaf) : Block ℝ) = root :: ls.map Leaf.id := by
        simp [Block.ids, Block.all, all_leaf, Block.id, Function.comp_def]
      rw [this, h2]
      exact List.nodup_cons.2 ⟨hroot, hc.ids⟩
  · refine ⟨{ sig := fun _ => { ty := .scalar }, done := fun _ => false, log := [],
              mem := fun b => match d.pieces.find? (fun p => p.id == b) with | some ⟨_, .integrator x0, _, _⟩ => { value := .scalar x0 } | _ => { value := .scalar 0 } }, ?_⟩
    refine ⟨fun _ _ => ⟨fun _ _ => rfl, rfl⟩, fun s => ?_, fun _ => rfl, rfl, fun p hp x0 e => ?_, fun p hp _ => ?_⟩
    · exact ⟨fun e => absurd e Bool.false_ne_true, fun v e => by cases e⟩
    · have hfind : d.pieces.find? (fun q => q.id == p.id) = some p := by
        cases hq : d.pieces.find? (fun q => q.id == p.id) with
        | none =>
          have := List.find?_eq_none.1 hq p hp
          simp at this
        | some q =>
          have e1 : q.id = p.id := by simpa using List.find?_some hq
          rw [List.inj_on_of_nodup_map hc.ids (List.mem_of_find?_eq_some hq) hp e1]
      simp only [hfind]
      obtain ⟨i, part, ins, out⟩ := p
      simp only at e
      subst e
      rfl
    · simp only
      split <;> exact ⟨rfl, rfl⟩

/-! ## Examples -/

/-- Courses without breaks. -/
theorem course_smooth {d : Sketch} {a b : ℝ} {X : SigId → ℝ → ℝ} (h1 : ∀ t ∈ Icc a b, d.Meets t (fun s => X s t))
    (h2 : ∀ p ∈ d.pieces, ∀ x y, p.part = .divide → p.ins = [x, y] → ContinuousOn (X y) (Icc a b) ∧ ∀ t ∈ Icc a b, X y t ≠ 0)
    (h3 : ∀ p ∈ d.pieces, ∀ x0, p.part = .integrator x0 → X p.out a = x0)
    (h4 : ∀ p ∈ d.pieces, ∀ x0 x, p.part = .integrator x0 → p.ins = [x] → ∀ t ∈ Icc a b, HasDerivWithinAt (X p.out) (X x t) (Icc a b) t)
    (h5 : ∀ p ∈ d.pieces, p.part.isDelay = false) : d.Course ∅ a b X where
  meets := h1
  defined p hp x y e1 e2 := by
    obtain ⟨k1, k2⟩ := h2 p hp x y e1 e2
    by_cases hne : (Icc a b).Nonempty
    · obtain ⟨t1, ht1, hmin⟩ := isCompact_Icc.exists_isMinOn hne k1.abs
      exact ⟨_, abs_pos.2 (k2 t1 ht1), fun t ht => hmin ht⟩
    · rw [not_nonempty_iff_eq_empty] at hne
      exact ⟨1, one_pos, fun t ht => by rw [hne] at ht; cases ht⟩
  initial := h3
  cont p hp hi := by
    intro t ht
    have hh := (h1 t ht).blocks p hp
    obtain ⟨x0, e⟩ : ∃ x0, p.part = .integrator x0 := by
      revert hi; cases p.part <;> simp [Part.isIntegrator]
    obtain ⟨x, e2⟩ : ∃ x, p.ins = [x] := by
      unfold Piece.Holds at hh
      rw [e] at hh
      match e3 : p.ins with
      | [x] => exact ⟨x, rfl⟩
      | [] => rw [e3] at hh; exact hh.elim
      | _ :: _ :: _ => rw [e3] at hh; exact hh.elim
    exact (h4 p hp x0 x e e2 t ht).continuousWithinAt
  integrates p hp x0 x e1 e2 t ht _ := h4 p hp x0 x e1 e2 t ht
  delays p hp life x e i e1 e2 := by have := h5 p hp; rw [e1] at this; cases this

theorem timely_none {d : Sketch} {J : Finset ℝ} {a b : ℝ} (h : ∀ p ∈ d.pieces, p.part.isDelay = false) : d.Timely J a b := by
  intro p hp life x e i e1 _
  have := h p hp
  rw [e1] at this
  cases this

/-- samples/test04_mass_spring.cpp:31-49: signals 0 `x`, 1 `xd`, 2 `xdd`. -/
noncomputable def massSpring : Sketch where
  pieces := [⟨1, .integrator 0.1, [2], 1⟩, ⟨2, .integrator 0, [1], 0⟩, ⟨3, .gain (-1), [0], 2⟩]
  inputs := []

theorem massSpring_closed : massSpring.Closed (fun _ => 0) where
  ids := by simp [massSpring]
  once := by simp [massSpring]
  provided := by simp [massSpring]
  used := by simp [massSpring]
  loops := by simp [massSpring, Part.isIntegrator]

noncomputable def massSpringCourse (s : SigId) (t : ℝ) : ℝ := if s = 0 then 0.1 * Real.sin t else if s = 1 then 0.1 * Real.cos t else -(0.1 * Real.sin t)

theorem massSpring_course (T : ℝ) : massSpring.Course ∅ 0 T massSpringCourse := by
  refine course_smooth (fun t _ => ⟨by simp [massSpring, Piece.Holds, massSpringCourse], by simp [massSpring]⟩) (by simp [massSpring]) ?_ ?_ (by simp [massSpring, Part.isDelay])
  · intro p hp x0 e
    simp only [massSpring, List.mem_cons, List.not_mem_nil, or_false] at hp
    rcases hp with rfl | rfl | rfl <;> cases e <;> simp [massSpringCourse]
  · intro p hp x0 x e1 e2 t _
    simp only [massSpring, List.mem_cons, List.not_mem_nil, or_false] at hp
    rcases hp with rfl | rfl | rfl <;> cases e1 <;> cases e2
    · have : HasDerivAt (fun t => 0.1 * Real.cos t) (0.1 * -Real.sin t) t := (Real.hasDerivAt_cos t).const_mul _
      have e : massSpringCourse 1 = fun t => 0.1 * Real.cos t := by funext t; simp [massSpringCourse]
      rw [e]
      simpa [massSpringCourse] using this.hasDerivWithinAt
    · have : HasDerivAt (fun t => 0.1 * Real.sin t) (0.1 * Real.cos t) t := (Real.hasDerivAt_sin t).const_mul _
      have e : massSpringCourse 0 = fun t => 0.1 * Real.sin t := by funext t; simp [massSpringCourse]
      rw [e]
      simpa [massSpringCourse] using this.hasDerivWithinAt

theorem massSpring_regular (T : ℝ) : massSpring.Regular ∅ 0 T :=
  ⟨by simp [massSpring, Part.Regular], by simp [massSpring], timely_none (by simp [massSpring, Part.isDelay])⟩

/-- The sample: after `run(0)`, …, `run(T)` the position is 0.1 sin T up to `ε`, if the times are close enough. -/
theorem C66_mass_spring (cfg : Config ℝ) (h : cfg.Draws massSpring) (wd : World ℝ) (hw : wd.Begins massSpring) (tPrev T minH maxH : ℝ) (h0 : 0 < minH) (h1 : minH < maxH)
    (hT : 0 ≤ T) : ∀ ε > 0, ∃ η > 0, ∀ ts : List ℝ, (0 :: ts).Pairwise (· < ·) → (0 :: ts).IsChain (fun s u => u - s ≤ η) → (0 :: ts).getLast (by simp) = T →
      (∃ m, RunsTo cfg minH maxH { w := wd, s := { tPrev := tPrev } } (0 :: ts) m) ∧
      ∀ m, RunsTo cfg minH maxH { w := wd, s := { tPrev := tPrev } } (0 :: ts) m → ∃ v, m.w.shown 0 = some (.scalar v) ∧ |v - 0.1 * Real.sin T| ≤ ε := by
  intro ε hε
  obtain ⟨η, hη, key⟩ := C66_converges cfg massSpring _ h massSpring_closed wd hw tPrev 0 T minH maxH h0 h1 hT ∅ massSpringCourse (massSpring_course T)
    (massSpring_regular T) ε hε
  refine ⟨η, hη, fun ts a1 a2 a3 => ⟨(key ts a1 a2 a3.le).1, fun m hm => ?_⟩⟩
  obtain ⟨v, e1, e2⟩ := (key ts a1 a2 a3.le).2 m hm 0 (by simp [massSpring])
  rw [a3] at e2
  exact ⟨v, e1, e2⟩

/-- The sample can be built; so the hypotheses of `C66_mass_spring` hold for every simulator and method. -/
example (k : Strategy) (st : Stepper ℝ) (hst : st ∈ [euler, rk4, rkf45]) :
    (∃ cfg : Config ℝ, cfg.Draws massSpring ∧ cfg.strategy = k ∧ cfg.stepper = some st) ∧ ∃ wd : World ℝ, wd.Begins massSpring :=
  C66_buildable massSpring _ massSpring_closed (by simp [massSpring, Piece.Fits]) k (some st) (.inr ⟨st, hst, rfl⟩) (fun _ => ⟨⟨1, .integrator 0.1, [2], 1⟩, by simp [massSpring], rfl⟩)

/-- samples/test05_pendulum.cpp:32-66,76-86: signals 0 `phi`, 1 `dphi`, 2 `d2phi`, 3 `g`, 4 `l`, 5 `s10`, 6 `s20`. -/
noncomputable def pendulum : Sketch where
  pieces := [⟨1, .integrator 0, [2], 1⟩, ⟨2, .integrator (Real.pi / 4), [1], 0⟩, ⟨3, .siso (fun _ x => Real.sin x), [0], 5⟩, ⟨4, .multiply (-1), [5, 3], 6⟩,
    ⟨5, .divide, [6, 4], 2⟩]
  inputs := [(4, fun _ => 0.1), (3, fun _ => 9.81)]

theorem pendulum_closed : pendulum.Closed id where
  ids := by simp [pendulum]
  once := by simp [pendulum]
  provided := by simp [pendulum]
  used := by simp [pendulum]
  loops := by simp [pendulum, Part.isIntegrator]

/-- The signals, for an angle `φ` with angular velocity `ω`. -/
noncomputable def pendulumCourse (φ ω : ℝ → ℝ) (s : SigId) (t : ℝ) : ℝ :=
  if s = 0 then φ t else if s = 1 then ω t else if s = 2 then -(9.81 / 0.1 * Real.sin (φ t)) else if s = 3 then 9.81 else if s = 4 then 0.1 else
    if s = 5 then Real.sin (φ t) else -(Real.sin (φ t) * 9.81)

theorem pendulum_course {T : ℝ} {φ ω : ℝ → ℝ} (h1 : φ 0 = Real.pi / 4) (h2 : ω 0 = 0) (h3 : ∀ t ∈ Icc 0 T, HasDerivWithinAt φ (ω t) (Icc 0 T) t)
    (h4 : ∀ t ∈ Icc 0 T, HasDerivWithinAt ω (-(9.81 / 0.1 * Real.sin (φ t))) (Icc 0 T) t) : pendulum.Course ∅ 0 T (pendulumCourse φ ω) := by
  refine course_smooth (fun t _ => ?_) ?_ ?_ ?_ (by simp [pendulum, Part.isDelay])
  · refine ⟨?_, by simp [pendulum, pendulumCourse]⟩
    simp [pendulum, Piece.Holds, pendulumCourse]
    ring
  · intro p hp x y e1 e2
    simp only [pendulum, List.mem_cons, List.not_mem_nil, or_false] at hp
    rcases hp with rfl | rfl | rfl | rfl | rfl <;> cases e1
    cases e2
    rw [show pendulumCourse φ ω 4 = fun _ => 0.1 by funext t; simp [pendulumCourse]]
    exact ⟨continuousOn_const, fun t _ => by norm_num⟩
  · intro p hp x0 e
    simp only [pendulum, List.mem_cons, List.not_mem_nil, or_false] at hp
    rcases hp with rfl | rfl | rfl | rfl | rfl <;> cases e <;> simp [pendulumCourse, h1, h2]
  · intro p hp x0 x e1 e2 t ht
    simp only [pendulum, List.mem_cons, List.not_mem_nil, or_false] at hp
    rcases hp with rfl | rfl | rfl | rfl | rfl <;> cases e1 <;> cases e2
    · rw [show pendulumCourse φ ω 1 = ω by funext t; simp [pendulumCourse]]
      simpa [pendulumCourse] using h4 t ht
    · rw [show pendulumCourse φ ω 0 = φ by funext t; simp [pendulumCourse]]
      simpa [pendulumCourse] using h3 t ht

theorem pendulum_regular (T : ℝ) : pendulum.Regular ∅ 0 T := by
  have hk : ∀ v : ℝ, Piecewise ∅ 0 T (fun _ => v) := fun v => ⟨⟨|v|, fun _ _ => le_refl _⟩, continuousOn_const⟩
  refine ⟨?_, by simp [pendulum, hk], timely_none (by simp [pendulum, Part.isDelay])⟩
  intro p hp
  simp only [pendulum, List.mem_cons, List.not_mem_nil, or_false] at hp
  rcases hp with rfl | rfl | rfl | rfl | rfl <;> try trivial
  refine ⟨fun x => hk _, fun R => ⟨1, fun t _ x y _ _ => ?_⟩⟩
  rw [one_mul]
  exact Real.abs_sin_sub_sin_le x y

/-- The sample: after `run(0)`, …, `run(T)` the angle is, up to `ε`, that of the mathematical pendulum of length 0.1 released at 45 degrees, if the times are
close enough. -/
theorem C66_pendulum (cfg : Config ℝ) (h : cfg.Draws pendulum) (wd : World ℝ) (hw : wd.Begins pendulum) (tPrev T minH maxH : ℝ) (h0 : 0 < minH) (h1 : minH < maxH)
    (hT : 0 ≤ T) (φ ω : ℝ → ℝ) (hφ : φ 0 = Real.pi / 4) (hω : ω 0 = 0) (dφ : ∀ t ∈ Icc 0 T, HasDerivWithinAt φ (ω t) (Icc 0 T) t)
    (dω : ∀ t ∈ Icc 0 T, HasDerivWithinAt ω (-(9.81 / 0.1 * Real.sin (φ t))) (Icc 0 T) t) :
    ∀ ε > 0, ∃ η > 0, ∀ ts : List ℝ, (0 :: ts).Pairwise (· < ·) → (0 :: ts).IsChain (fun s u => u - s ≤ η) → (0 :: ts).getLast (by simp) = T →
      (∃ m, RunsTo cfg minH maxH { w := wd, s := { tPrev := tPrev } } (0 :: ts) m) ∧
      ∀ m, RunsTo cfg minH maxH { w := wd, s := { tPrev := tPrev } } (0 :: ts) m → ∃ v, m.w.shown 0 = some (.scalar v) ∧ |v - φ T| ≤ ε := by
  intro ε hε
  obtain ⟨η, hη, key⟩ := C66_converges cfg pendulum _ h pendulum_closed wd hw tPrev 0 T minH maxH h0 h1 hT ∅ _ (pendulum_course hφ hω dφ dω) (pendulum_regular T) ε hε
  refine ⟨η, hη, fun ts a1 a2 a3 => ⟨(key ts a1 a2 a3.le).1, fun m hm => ?_⟩⟩
  obtain ⟨v, e1, e2⟩ := (key ts a1 a2 a3.le).2 m hm 0 (by simp [pendulum])
  rw [a3] at e2
  exact ⟨v, e1, e2⟩

/-- The motion of the pendulum exists. -/
theorem pendulum_moves (T : ℝ) (hT : 0 < T) : ∃ φ ω : ℝ → ℝ, φ 0 = Real.pi / 4 ∧ ω 0 = 0 ∧ (∀ t ∈ Icc 0 T, HasDerivWithinAt φ (ω t) (Icc 0 T) t) ∧
    ∀ t ∈ Icc 0 T, HasDerivWithinAt ω (-(9.81 / 0.1 * Real.sin (φ t))) (Icc 0 T) t := by
  have hc : (0 : ℝ) ≤ 9.81 / 0.1 := by norm_num
  generalize (9.81 / 0.1 : ℝ) = c at hc ⊢
  have hpl : IsPicardLindelof (fun (_ : ℝ) (z : ℝ × ℝ) => (z.2 / T, -(c * T * Real.sin z.1))) (tmin := 0) (tmax := T) ⟨0, le_refl _, hT.le⟩ (Real.pi / 4, 0)
      ⟨c * T * T, by positivity⟩ 0 ⟨c * T, by positivity⟩ ⟨1 / T + c * T, by positivity⟩ := by
    refine ⟨fun t _ => LipschitzOnWith.of_dist_le_mul (fun z _ z' _ => ?_), fun _ _ => continuousOn_const, fun t _ z hz => ?_, ?_⟩
    · have h1 : |z.1 - z'.1| ≤ dist z z' := by rw [← Real.dist_eq]; exact le_max_left _ _
      have h2 : |z.2 - z'.2| ≤ dist z z' := by rw [← Real.dist_eq]; exact le_max_right _ _
      have h3 := dist_nonneg (x := z) (y := z')
      refine max_le ?_ ?_
      · rw [Real.dist_eq]
        simp only
        rw [← sub_div, abs_div, abs_of_pos hT, div_eq_inv_mul, ← one_div]
        show 1 / T * |z.2 - z'.2| ≤ (1 / T + c * T) * dist z z'
        have := mul_le_mul_of_nonneg_left h2 (show 0 ≤ 1 / T by positivity)
        have := mul_nonneg (show 0 ≤ c * T by positivity) h3
        linarith
      · rw [Real.dist_eq]
        simp only
        rw [show -(c * T * Real.sin z.1) - -(c * T * Real.sin z'.1) = -(c * T * (Real.sin z.1 - Real.sin z'.1)) by ring, abs_neg, abs_mul, abs_of_nonneg (by positivity)]
        show c * T * |Real.sin z.1 - Real.sin z'.1| ≤ (1 / T + c * T) * dist z z'
        have := mul_le_mul_of_nonneg_left ((Real.abs_sin_sub_sin_le z.1 z'.1).trans h1) (show 0 ≤ c * T by positivity)
        have := mul_nonneg (show 0 ≤ 1 / T by positivity) h3
        linarith
    · have h2 : |z.2| ≤ c * T * T := by
        have h3 : dist z (Real.pi / 4, 0) ≤ c * T * T := hz
        have h4 : dist z.2 0 ≤ dist z (Real.pi / 4, 0) := le_max_right _ _
        rw [Real.dist_eq, sub_zero] at h4
        exact h4.trans h3
      refine max_le ?_ ?_
      · rw [Real.norm_eq_abs]
        simp only
        rw [abs_div, abs_of_pos hT, div_le_iff₀ hT]
        exact h2
      · rw [Real.norm_eq_abs]
        simp only
        rw [abs_neg, abs_mul, abs_of_nonneg (by positivity)]
        exact mul_le_of_le_one_right (by positivity) (Real.abs_sin_le_one _)
    · show c * T * max (T - 0) (0 - 0) ≤ c * T * T - 0
      rw [sub_zero, sub_zero, sub_zero, max_eq_left hT.le]
  obtain ⟨α, h1, h2⟩ := hpl.exists_eq_forall_mem_Icc_hasDerivWithinAt₀
  have h1 : α 0 = (Real.pi / 4, 0) := h1
  have k1 : ∀ t ∈ Icc 0 T, HasDerivWithinAt (fun t => (α t).1) ((α t).2 / T) (Icc 0 T) t := fun t ht =>
    (ContinuousLinearMap.fst ℝ ℝ ℝ).hasFDerivAt.comp_hasDerivWithinAt t (h2 t ht)
  have k2 : ∀ t ∈ Icc 0 T, HasDerivWithinAt (fun t => (α t).2) (-(c * T * Real.sin (α t).1)) (Icc 0 T) t := fun t ht =>
    (ContinuousLinearMap.snd ℝ ℝ ℝ).hasFDerivAt.comp_hasDerivWithinAt t (h2 t ht)
  refine ⟨fun t => (α t).1, fun t => (α t).2 / T, by simp only [h1], by simp [h1], k1, fun t ht => ?_⟩
  refine ((k2 t ht).div_const T).congr_deriv ?_
  field_simp

/-- The sample can be built. -/
example (k : Strategy) (st : Stepper ℝ) (hst : st ∈ [euler, rk4, rkf45]) :
    (∃ cfg : Config ℝ, cfg.Draws pendulum ∧ cfg.strategy = k ∧ cfg.stepper = some st) ∧ ∃ wd : World ℝ, wd.Begins pendulum :=
  C66_buildable pendulum _ pendulum_closed (by simp [pendulum, Piece.Fits]) k (some st) (.inr ⟨st, hst, rfl⟩) (fun _ => ⟨⟨1, .integrator 0, [2], 1⟩, by simp [pendulum], rfl⟩)

/-- samples/tut01_mass_spring_damper.cpp:31-65: signals 0 `s_F`, 1 `s_F_m`, 2 `s1`, 3 `s_xdd`, 4 `s_xd`, 5 `s_x`, 6 `s_kx_m`, 7 `s_cxd_m`; m = 0.25, c = 0.3, k = 0.7.
The force is switched on at time 1. -/
noncomputable def tutorial : Sketch where
  pieces := [⟨1, .source (fun t => if t < 1 then 0 else 1), [], 0⟩, ⟨2, .gain (1 / 0.25), [0], 1⟩, ⟨3, .subtract, [1, 7], 2⟩, ⟨4, .subtract, [2, 6], 3⟩,
    ⟨5, .integrator 0, [3], 4⟩, ⟨6, .integrator 0, [4], 5⟩, ⟨7, .gain (0.3 / 0.25), [4], 7⟩, ⟨8, .gain (0.7 / 0.25), [5], 6⟩]
  inputs := []

theorem tutorial_closed : tutorial.Closed (fun b => if b = 1 then 0 else if b = 3 then 2 else if b = 4 then 3 else 1) where
  ids := by simp [tutorial]
  once := by simp [tutorial]
  provided := by simp [tutorial]
  used := by simp [tutorial]
  loops := by simp [tutorial, Part.isIntegrator]

/-- The angular frequency of the damped oscillation. -/
noncomputable def tutorialFreq : ℝ := Real.sqrt 2.44

/-- The position, a time `s` after the force was switched on. -/
noncomputable def tutorialPos (s : ℝ) : ℝ :=
  10 / 7 * (1 - Real.exp (-0.6 * s) * (Real.cos (tutorialFreq * s) + 0.6 / tutorialFreq * Real.sin (tutorialFreq * s)))

/-- The velocity. -/
noncomputable def tutorialVel (s : ℝ) : ℝ := 4 / tutorialFreq * (Real.exp (-0.6 * s) * Real.sin (tutorialFreq * s))

theorem tutorialFreq_sq : tutorialFreq * tutorialFreq = 2.44 := Real.mul_self_sqrt (by norm_num)

theorem tutorialFreq_pos : 0 < tutorialFreq := Real.sqrt_pos.2 (by norm_num)

theorem tutorial_moves (s : ℝ) : HasDerivAt tutorialPos (tutorialVel s) s ∧ HasDerivAt tutorialVel (4 - 1.2 * tutorialVel s - 2.8 * tutorialPos s) s := by
  have hω := tutorialFreq_sq
  have hω0 := tutorialFreq_pos.ne'
  have e1 : HasDerivAt (fun s : ℝ => Real.exp (-0.6 * s)) (Real.exp (-0.6 * s) * (-0.6 * 1)) s := ((hasDerivAt_id s).const_mul (-0.6)).exp
  have e2 : HasDerivAt (fun s : ℝ => Real.cos (tutorialFreq * s)) (-Real.sin (tutorialFreq * s) * (tutorialFreq * 1)) s := ((hasDerivAt_id s).const_mul _).cos
  have e3 : HasDerivAt (fun s : ℝ => Real.sin (tutorialFreq * s)) (Real.cos (tutorialFreq * s) * (tutorialFreq * 1)) s := ((hasDerivAt_id s).const_mul _).sin
  constructor
  · refine (((e1.mul (e2.add (e3.const_mul (0.6 / tutorialFreq)))).const_sub 1).const_mul (10 / 7)).congr_deriv ?_
    unfold tutorialVel
    simp only [Pi.add_apply]
    field_simp
    rw [mul_comm s tutorialFreq]
    linear_combination (Real.sin (tutorialFreq * s)) * hω * (10 : ℝ)
  · refine ((e1.mul e3).const_mul (4 / tutorialFreq)).congr_deriv ?_
    unfold tutorialVel tutorialPos
    field_simp
    ring

/-- The signals: nothing moves before time 1. -/
noncomputable def tutorialCourse (s : SigId) (t : ℝ) : ℝ :=
  if s = 0 then (if t < 1 then 0 else 1) else if s = 1 then 4 * (if t < 1 then 0 else 1) else
  if s = 2 then 4 * (if t < 1 then 0 else 1) - 1.2 * tutorialVel (max (t - 1) 0) else
  if s = 3 then 4 * (if t < 1 then 0 else 1) - 1.2 * tutorialVel (max (t - 1) 0) - 2.8 * tutorialPos (max (t - 1) 0) else
  if s = 4 then tutorialVel (max (t - 1) 0) else if s = 5 then tutorialPos (max (t - 1) 0) else
  if s = 6 then 2.8 * tutorialPos (max (t - 1) 0) else 1.2 * tutorialVel (max (t - 1) 0)

theorem tutorial_rest : tutorialPos 0 = 0 ∧ tutorialVel 0 = 0 := by
  constructor <;> simp [tutorialPos, tutorialVel]

/-- A motion that begins at time 1. -/
theorem begins {g : ℝ → ℝ} {g1 t : ℝ} (h : ∀ s, 0 < s → s = t - 1 → HasDerivAt g g1 s) (h0 : t < 1 → g1 = 0) (ht : t ≠ 1) :
    HasDerivAt (fun t => g (max (t - 1) 0)) g1 t := by
  rcases lt_or_gt_of_ne ht with e | e
  · rw [h0 e]
    refine (hasDerivAt_const t (g 0)).congr_of_eventuallyEq ?_
    filter_upwards [Iio_mem_nhds e] with u hu
    rw [max_eq_right (by linarith [mem_Iio.1 hu])]
  · have h1 := (h (t - 1) (by linarith) rfl).comp_sub_const t 1
    refine h1.congr_of_eventuallyEq ?_
    filter_upwards [Ioi_mem_nhds e] with u hu
    rw [max_eq_left (by linarith [mem_Ioi.1 hu])]

theorem tutorial_course (T : ℝ) : tutorial.Course {1} 0 T tutorialCourse where
  meets t _ := by
    refine ⟨?_, by simp [tutorial]⟩
    simp [tutorial, Piece.Holds, tutorialCourse]
    norm_num
  defined := by simp [tutorial]
  initial := by
    intro p hp x0 e
    simp only [tutorial, List.mem_cons, List.not_mem_nil, or_false] at hp
    rcases hp with rfl | rfl | rfl | rfl | rfl | rfl | rfl | rfl <;> cases e <;> simp [tutorialCourse, tutorial_rest]
  cont := by
    have hm : Continuous (fun t : ℝ => max (t - 1) 0) := (continuous_id.sub continuous_const).max continuous_const
    have c1 : Continuous tutorialPos := continuous_iff_continuousAt.2 fun s => (tutorial_moves s).1.continuousAt
    have c2 : Continuous tutorialVel := continuous_iff_continuousAt.2 fun s => (tutorial_moves s).2.continuousAt
    intro p hp hi
    simp only [tutorial, List.mem_cons, List.not_mem_nil, or_false] at hp
    rcases hp with rfl | rfl | rfl | rfl | rfl | rfl | rfl | rfl <;> try cases hi
    · rw [show tutorialCourse 4 = fun t => tutorialVel (max (t - 1) 0) by funext t; simp [tutorialCourse]]
      exact (c2.comp hm).continuousOn
    · rw [show tutorialCourse 5 = fun t => tutorialPos (max (t - 1) 0) by funext t; simp [tutorialCourse]]
      exact (c1.comp hm).continuousOn
  integrates := by
    obtain ⟨r1, r2⟩ := tutorial_rest
    intro p hp x0 x e1 e2 t _ ht
    rw [Finset.mem_singleton] at ht
    simp only [tutorial, List.mem_cons, List.not_mem_nil, or_false] at hp
    rcases hp with rfl | rfl | rfl | rfl | rfl | rfl | rfl | rfl <;> cases e1 <;> cases e2
    · rw [show tutorialCourse 4 = fun t => tutorialVel (max (t - 1) 0) by funext t; simp [tutorialCourse]]
      refine (begins (fun s hs e => (tutorial_moves s).2.congr_deriv ?_) (fun e => ?_) ht).hasDerivWithinAt
      · rw [e] at hs ⊢
        simp [tutorialCourse, not_lt.2 (show 1 ≤ t by linarith), max_eq_left hs.le]
      · simp [tutorialCourse, e, max_eq_right (show t - 1 ≤ 0 by linarith), r1, r2]
    · rw [show tutorialCourse 5 = fun t => tutorialPos (max (t - 1) 0) by funext t; simp [tutorialCourse]]
      refine (begins (fun s hs e => (tutorial_moves s).1.congr_deriv ?_) (fun e => ?_) ht).hasDerivWithinAt
      · rw [e] at hs ⊢
        simp [tutorialCourse, max_eq_left hs.le]
      · simp [tutorialCourse, max_eq_right (show t - 1 ≤ 0 by linarith), r2]
  delays := by simp [tutorial]

theorem tutorial_regular (T : ℝ) : tutorial.Regular {1} 0 T := by
  refine ⟨?_, by simp [tutorial], timely_none (by simp [tutorial, Part.isDelay])⟩
  intro p hp
  simp only [tutorial, List.mem_cons, List.not_mem_nil, or_false] at hp
  rcases hp with rfl | rfl | rfl | rfl | rfl | rfl | rfl | rfl <;> try trivial
  refine ⟨⟨1, fun t _ => by dsimp only; split <;> simp⟩, fun t ht => ?_⟩
  have ht : t ≠ 1 := fun e => ht.2 (by simp [e])
  refine ContinuousAt.continuousWithinAt ?_
  rcases lt_or_gt_of_ne ht with e | e
  · refine (continuousAt_const (y := (0 : ℝ))).congr ?_
    filter_upwards [Iio_mem_nhds e] with u hu
    rw [if_pos (mem_Iio.1 hu)]
  · refine (continuousAt_const (y := (1 : ℝ))).congr ?_
    filter_upwards [Ioi_mem_nhds e] with u hu
    rw [if_neg (not_lt.2 (mem_Ioi.1 hu).le)]

/-- The tutorial: after `run(0)`, …, `run(T)` the position is, up to `ε`, zero if `T ≤ 1`, and else the damped oscillation around 1/k that the force causes; if the times
are close enough.  No call needs to be made for the time 1 at which the force is switched on. -/
theorem C66_tutorial (cfg : Config ℝ) (h : cfg.Draws tutorial) (wd : World ℝ) (hw : wd.Begins tutorial) (tPrev T minH maxH : ℝ) (h0 : 0 < minH) (h1 : minH < maxH)
    (hT : 0 ≤ T) : ∀ ε > 0, ∃ η > 0, ∀ ts : List ℝ, (0 :: ts).Pairwise (· < ·) → (0 :: ts).IsChain (fun s u => u - s ≤ η) → (0 :: ts).getLast (by simp) = T →
      (∃ m, RunsTo cfg minH maxH { w := wd, s := { tPrev := tPrev } } (0 :: ts) m) ∧
      ∀ m, RunsTo cfg minH maxH { w := wd, s := { tPrev := tPrev } } (0 :: ts) m → ∃ v, m.w.shown 5 = some (.scalar v) ∧
        |v - if T ≤ 1 then 0 else 10 / 7 * (1 - Real.exp (-0.6 * (T - 1)) *
          (Real.cos (Real.sqrt 2.44 * (T - 1)) + 0.6 / Real.sqrt 2.44 * Real.sin (Real.sqrt 2.44 * (T - 1))))| ≤ ε := by
  intro ε hε
  obtain ⟨η, hη, key⟩ := C66_converges cfg tutorial _ h tutorial_closed wd hw tPrev 0 T minH maxH h0 h1 hT {1} _ (tutorial_course T) (tutorial_regular T) ε hε
  refine ⟨η, hη, fun ts a1 a2 a3 => ⟨(key ts a1 a2 a3.le).1, fun m hm => ?_⟩⟩
  obtain ⟨v, e1, e2⟩ := (key ts a1 a2 a3.le).2 m hm 5 (by simp [tutorial])
  rw [a3] at e2
  refine ⟨v, e1, ?_⟩
  have e : tutorialCourse 5 T = tutorialPos (max (T - 1) 0) := by simp [tutorialCourse]
  rw [e] at e2
  split
  · rw [max_eq_right (by linarith), tutorial_rest.1] at e2
    exact e2
  · rw [max_eq_left (by linarith)] at e2
    exact e2

/-- The tutorial can be built. -/
example (k : Strategy) (st : Stepper ℝ) (hst : st ∈ [euler, rk4, rkf45]) :
    (∃ cfg : Config ℝ, cfg.Draws tutorial ∧ cfg.strategy = k ∧ cfg.stepper = some st) ∧ ∃ wd : World ℝ, wd.Begins tutorial :=
  C66_buildable tutorial _ tutorial_closed (by simp [tutorial, Piece.Fits]) k (some st) (.inr ⟨st, hst, rfl⟩) (fun _ => ⟨⟨5, .integrator 0, [3], 4⟩, by simp [tutorial], rfl⟩)

/-- samples/delay_block.cpp:31-62: signals 0 `_s_x`, 1 `time_delay`, 2 `initial`, 3 `_s_y`.  The sample has no integrators and no method. -/
noncomputable def delayBlock : Sketch where
  pieces := [⟨1, .source (fun t => Real.sin (Real.pi * t / 5)), [], 0⟩, ⟨2, .const 2.7435, [], 1⟩, ⟨3, .const 0, [], 2⟩, ⟨4, .delay 10, [0, 1, 2], 3⟩]
  inputs := []

theorem delayBlock_closed : delayBlock.Closed id where
  ids := by simp [delayBlock]
  once := by simp [delayBlock]
  provided := by simp [delayBlock]
  used := by simp [delayBlock]
  loops := by simp [delayBlock, Part.isIntegrator]

noncomputable def delayBlockCourse (s : SigId) (t : ℝ) : ℝ :=
  if s = 0 then Real.sin (Real.pi * t / 5) else if s = 1 then 2.7435 else if s = 2 then 0 else if t ≤ 2.7435 then 0 else Real.sin (Real.pi * (t - 2.7435) / 5)

theorem sine_cont : Continuous (fun t : ℝ => Real.sin (Real.pi * t / 5)) := Real.continuous_sin.comp ((continuous_const.mul continuous_id).div_const 5)

theorem delayBlock_course (T : ℝ) : delayBlock.Course {2.7435} 0 T delayBlockCourse where
  meets t _ := ⟨by simp [delayBlock, Piece.Holds, delayBlockCourse], by simp [delayBlock]⟩
  defined := by simp [delayBlock]
  initial := by simp [delayBlock]
  cont := by simp [delayBlock, Part.isIntegrator]
  integrates := by simp [delayBlock]
  delays p hp life x e i e1 e2 := by
    simp only [delayBlock, List.mem_cons, List.not_mem_nil, or_false] at hp
    rcases hp with rfl | rfl | rfl | rfl <;> cases e1
    cases e2
    refine ⟨?_, fun t _ => ?_⟩
    · rw [show delayBlockCourse 0 = fun t => Real.sin (Real.pi * t / 5) by funext t; simp [delayBlockCourse]]
      exact sine_cont.continuousOn
    · simp [delayBlockCourse]

theorem delayBlock_regular (T : ℝ) : delayBlock.Regular {2.7435} 0 T := by
  refine ⟨?_, by simp [delayBlock], ?_⟩
  · intro p hp
    simp only [delayBlock, List.mem_cons, List.not_mem_nil, or_false] at hp
    rcases hp with rfl | rfl | rfl | rfl <;> try trivial
    exact ⟨⟨1, fun t _ => Real.abs_sin_le_one _⟩, sine_cont.continuousOn⟩
  · intro p hp life x e i e1 e2
    simp only [delayBlock, List.mem_cons, List.not_mem_nil, or_false] at hp
    rcases hp with rfl | rfl | rfl | rfl <;> cases e1
    cases e2
    refine ⟨fun _ => 2.7435, .inr ⟨⟨2, .const 2.7435, [], 1⟩, by simp [delayBlock], rfl, .inr ⟨_, rfl, rfl⟩⟩, ⟨1, one_pos, fun t _ => by norm_num⟩, fun t _ e => ?_⟩
    rw [Finset.mem_singleton]
    linarith

theorem delayBlock_slow {T : ℝ} : ∀ p ∈ delayBlock.pieces, ∀ life x e i, p.part = .delay life → p.ins = [x, e, i] → ∀ s ∈ Icc 0 T, ∀ t ∈ Icc 0 T,
    |delayBlockCourse x s - delayBlockCourse x t| ≤ Real.pi * |s - t| := by
  intro p hp life x e i e1 e2 s _ t _
  simp only [delayBlock, List.mem_cons, List.not_mem_nil, or_false] at hp
  rcases hp with rfl | rfl | rfl | rfl <;> cases e1
  cases e2
  have k1 := Real.abs_sin_sub_sin_le (Real.pi * s / 5) (Real.pi * t / 5)
  have k2 : |Real.pi * s / 5 - Real.pi * t / 5| = Real.pi / 5 * |s - t| := by
    rw [show Real.pi * s / 5 - Real.pi * t / 5 = Real.pi / 5 * (s - t) by ring, abs_mul, abs_of_nonneg (by positivity)]
  have k3 : 0 ≤ Real.pi * |s - t| := by positivity
  simp only [delayBlockCourse, if_true]
  linarith

/-- The sample: after `run(0)`, …, `run(T)` the output of the `Delay` is the sine of the time that lies back by 2.7435, or zero as long as that is before the
beginning; up to an error proportional to the largest distance of the times. -/
theorem C66_delay_block (cfg : Config ℝ) (h : cfg.Draws delayBlock) (wd : World ℝ) (hw : wd.Begins delayBlock) (tPrev T minH maxH : ℝ) (h0 : 0 < minH) (h1 : minH < maxH)
    (hT : 0 ≤ T) : ∃ η0 > 0, ∃ B, ∀ η, 0 ≤ η → η ≤ η0 → ∀ ts : List ℝ, (0 :: ts).Pairwise (· < ·) → (0 :: ts).IsChain (fun s u => u - s ≤ η) → (0 :: ts).getLast (by simp) = T →
      (∃ m, RunsTo cfg minH maxH { w := wd, s := { tPrev := tPrev } } (0 :: ts) m) ∧
      ∀ m, RunsTo cfg minH maxH { w := wd, s := { tPrev := tPrev } } (0 :: ts) m → ∃ v, m.w.shown 3 = some (.scalar v) ∧
        |v - if T ≤ 2.7435 then 0 else Real.sin (Real.pi * (T - 2.7435) / 5)| ≤ B * η := by
  obtain ⟨η0, hη, B, key⟩ := C66_rate cfg delayBlock _ h delayBlock_closed wd hw tPrev 0 T minH maxH h0 h1 hT {2.7435} _ (delayBlock_course T) (delayBlock_regular T) Real.pi
    Real.pi_pos.le (by simp [delayBlock, Part.isIntegrator]) delayBlock_slow
  refine ⟨η0, hη, B, fun η q1 q2 ts a1 a2 a3 => ⟨(key η q1 q2 ts a1 a2 a3.le).1, fun m hm => ?_⟩⟩
  obtain ⟨v, e1, e2⟩ := (key η q1 q2 ts a1 a2 a3.le).2 m hm 3 (by simp [delayBlock])
  rw [a3] at e2
  exact ⟨v, e1, by simpa [delayBlockCourse] using e2⟩

/-- The sample can be built, as it is without a method. -/
example (k : Strategy) (hk : k ≠ .reuse) : (∃ cfg : Config ℝ, cfg.Draws delayBlock ∧ cfg.strategy = k ∧ cfg.stepper = none) ∧ ∃ wd : World ℝ, wd.Begins delayBlock :=
  C66_buildable delayBlock _ delayBlock_closed (by simp [delayBlock, Piece.Fits]) k none (.inl ⟨rfl, by simp [delayBlock, Part.isIntegrator]⟩) (fun e => absurd e hk)

/-- A delay differential equation: `x'(t) = -x(t - 1)`, `x = 1` up to time 0; signals 0 `x`, 1 `x(t - 1)`, 2 `x'`, 3 the delay, 4 the initial value. -/
noncomputable def lagged : Sketch where
  pieces := [⟨1, .integrator 1, [2], 0⟩, ⟨2, .delay 2, [0, 3, 4], 1⟩, ⟨3, .gain (-1), [1], 2⟩, ⟨4, .const 1, [], 3⟩, ⟨5, .const 1, [], 4⟩]
  inputs := []

theorem lagged_closed : lagged.Closed (fun b => if b = 3 then 2 else if b = 2 then 1 else 0) where
  ids := by simp [lagged]
  once := by simp [lagged]
  provided := by simp [lagged]
  used := by simp [lagged]
  loops := by simp [lagged, Part.isIntegrator]

/-- The solution up to time 2. -/
noncomputable def laggedPos (t : ℝ) : ℝ := if t ≤ 1 then 1 - t else t ^ 2 / 2 - 2 * t + 3 / 2

noncomputable def laggedCourse (s : SigId) (t : ℝ) : ℝ :=
  if s = 0 then laggedPos t else if s = 1 then (if t - 1 ≤ 0 then 1 else laggedPos (t - 1)) else if s = 2 then -(if t - 1 ≤ 0 then 1 else laggedPos (t - 1)) else 1

theorem laggedPos_cont : Continuous laggedPos := by
  refine Continuous.if_le (by fun_prop) (by fun_prop) continuous_id continuous_const (fun t e => ?_)
  rw [e]
  norm_num

theorem laggedPos_deriv {t : ℝ} (h2 : t ≤ 2) (h1 : t ≠ 1) : HasDerivAt laggedPos (-(if t - 1 ≤ 0 then 1 else laggedPos (t - 1))) t := by
  rcases lt_or_gt_of_ne h1 with e | e
  · rw [if_pos (by linarith)]
    refine ((hasDerivAt_id t).const_sub 1).congr_of_eventuallyEq ?_
    filter_upwards [Iio_mem_nhds e] with u hu
    rw [laggedPos, if_pos (mem_Iio.1 hu).le]
    rfl
  · rw [if_neg (by linarith), laggedPos, if_pos (by linarith)]
    have : HasDerivAt (fun t : ℝ => t ^ 2 / 2 - 2 * t + 3 / 2) (2 * t / 2 - 2) t := by
      simpa using ((((hasDerivAt_id t).pow 2).div_const 2).sub ((hasDerivAt_id t).const_mul 2)).add_const (3 / 2)
    refine (this.congr_of_eventuallyEq ?_).congr_deriv (by ring)
    filter_upwards [Ioi_mem_nhds e] with u hu
    rw [laggedPos, if_neg (not_le.2 (mem_Ioi.1 hu))]

theorem lagged_course {T : ℝ} (hT : T ≤ 2) : lagged.Course {1} 0 T laggedCourse where
  meets t _ := ⟨by simp [lagged, Piece.Holds, laggedCourse]; split <;> rfl, by simp [lagged]⟩
  defined := by simp [lagged]
  initial := by simp [lagged, laggedCourse, laggedPos]
  cont p hp hi := by
    simp only [lagged, List.mem_cons, List.not_mem_nil, or_false] at hp
    rcases hp with rfl | rfl | rfl | rfl | rfl <;> cases hi
    rw [show laggedCourse 0 = laggedPos by funext t; simp [laggedCourse]]
    exact laggedPos_cont.continuousOn
  integrates p hp x0 x e1 e2 t ht hJ := by
    simp only [lagged, List.mem_cons, List.not_mem_nil, or_false] at hp
    rcases hp with rfl | rfl | rfl | rfl | rfl <;> cases e1
    cases e2
    rw [show laggedCourse 0 = laggedPos by funext t; simp [laggedCourse]]
    rw [Finset.mem_singleton] at hJ
    simpa [laggedCourse] using (laggedPos_deriv (ht.2.trans hT) hJ).hasDerivWithinAt
  delays p hp life x e i e1 e2 := by
    simp only [lagged, List.mem_cons, List.not_mem_nil, or_false] at hp
    rcases hp with rfl | rfl | rfl | rfl | rfl <;> cases e1
    cases e2
    refine ⟨?_, fun t _ => by simp [laggedCourse]⟩
    rw [show laggedCourse 0 = laggedPos by funext t; simp [laggedCourse]]
    exact laggedPos_cont.continuousOn

theorem lagged_regular (T : ℝ) : lagged.Regular {1} 0 T := by
  refine ⟨by simp [lagged, Part.Regular], by simp [lagged], ?_⟩
  intro p hp life x e i e1 e2
  simp only [lagged, List.mem_cons, List.not_mem_nil, or_false] at hp
  rcases hp with rfl | rfl | rfl | rfl | rfl <;> cases e1
  cases e2
  refine ⟨fun _ => 1, .inr ⟨⟨4, .const 1, [], 3⟩, by simp [lagged], rfl, .inr ⟨_, rfl, rfl⟩⟩, ⟨1, one_pos, fun t _ => by norm_num⟩, fun t _ e => ?_⟩
  rw [Finset.mem_singleton]
  linarith

/-- The delay equation: after `run(0)`, …, `run(T)` the state is the solution of the delay differential equation up to `ε`, if the times are close enough. -/
theorem C66_delay_equation (cfg : Config ℝ) (h : cfg.Draws lagged) (wd : World ℝ) (hw : wd.Begins lagged) (tPrev T minH maxH : ℝ) (h0 : 0 < minH) (h1 : minH < maxH)
    (hT : 0 ≤ T) (hT2 : T ≤ 2) : ∀ ε > 0, ∃ η > 0, ∀ ts : List ℝ, (0 :: ts).Pairwise (· < ·) → (0 :: ts).IsChain (fun s u => u - s ≤ η) → (0 :: ts).getLast (by simp) = T →
      (∃ m, RunsTo cfg minH maxH { w := wd, s := { tPrev := tPrev } } (0 :: ts) m) ∧
      ∀ m, RunsTo cfg minH maxH { w := wd, s := { tPrev := tPrev } } (0 :: ts) m → ∃ v, m.w.shown 0 = some (.scalar v) ∧
        |v - if T ≤ 1 then 1 - T else T ^ 2 / 2 - 2 * T + 3 / 2| ≤ ε := by
  intro ε hε
  obtain ⟨η, hη, key⟩ := C66_converges cfg lagged _ h lagged_closed wd hw tPrev 0 T minH maxH h0 h1 hT {1} _ (lagged_course hT2) (lagged_regular T) ε hε
  refine ⟨η, hη, fun ts a1 a2 a3 => ⟨(key ts a1 a2 a3.le).1, fun m hm => ?_⟩⟩
  obtain ⟨v, e1, e2⟩ := (key ts a1 a2 a3.le).2 m hm 0 (by simp [lagged])
  rw [a3] at e2
  exact ⟨v, e1, by simpa [laggedCourse, laggedPos] using e2⟩

/-- The delay equation can be built. -/
example (k : Strategy) (st : Stepper ℝ) (hst : st ∈ [euler, rk4, rkf45]) :
    (∃ cfg : Config ℝ, cfg.Draws lagged ∧ cfg.strategy = k ∧ cfg.stepper = some st) ∧ ∃ wd : World ℝ, wd.Begins lagged :=
  C66_buildable lagged _ lagged_closed (by simp [lagged, Piece.Fits]) k (some st) (.inr ⟨st, hst, rfl⟩) (fun _ => ⟨⟨1, .integrator 1, [2], 0⟩, by simp [lagged], rfl⟩)

end Pooya.C66
