import Verif.Proof.Converge
import Verif.Props.C44
import Verif.Props.C60
import Mathlib.Topology.UniformSpace.HeineCantor
import Mathlib.Analysis.SpecialFunctions.ExpDeriv
import Mathlib.Analysis.Calculus.Deriv.Prod

/-! # C61: the simulation converges to the solution of the differential equation -/

namespace Pooya.C61

open Pooya Set

set_option linter.unusedSectionVars false

attribute [local instance] Arith.exact

/-! ### Lists and vectors -/

/-- The function on vectors. -/
def vec (n : Nat) (f : ℝ → List ℝ → List ℝ) (t : ℝ) (v : Fin n → ℝ) : Fin n → ℝ := fun i => (f t (List.ofFn v)).getD i 0

theorem vec_eq {n : Nat} {f : ℝ → List ℝ → List ℝ} (hf : ∀ t x, x.length = n → (f t x).length = n) (t : ℝ) (v : Fin n → ℝ) :
    f t (List.ofFn v) = List.ofFn (vec n f t v) := by
  have hl := hf t (List.ofFn v) (by simp)
  refine List.ext_getElem (by simp [hl]) (fun i h1 h2 => ?_)
  simp [vec, h1]

/-- A step on vectors of length `n` uses the right-hand side on such vectors only. -/
theorem exec_congr {n : Nat} {f g : ℝ → List ℝ → List ℝ} (hf : ∀ t x, x.length = n → (f t x).length = n) (hg : ∀ t x, x.length = n → f t x = g t x) :
    ∀ p : StepProg ℝ, p.Dim n → p.exec (m := Id) f = p.exec (m := Id) g := by
  intro p
  induction p with
  | ret v h => intro _; rfl
  | call t v k ih =>
    intro h
    show (k (f t v)).exec (m := Id) f = (k (g t v)).exec (m := Id) g
    rw [← hg t v h.1]
    exact ih _ (h.2 _ (hf _ _ h.1))

theorem onLists_vec {n : Nat} {f : ℝ → List ℝ → List ℝ} (hf : ∀ t x, x.length = n → (f t x).length = n) (t : ℝ) (x : List ℝ) (hx : x.length = n) :
    f t x = onLists (vec n f) t x := by
  have e : x = List.ofFn (fun i : Fin n => x.getD i 0) := by
    refine List.ext_getElem (by simp [hx]) (fun i h1 h2 => by simp [h1])
  unfold onLists
  rw [← vec_eq hf, ← e]

/-- The provided methods are consistent Runge-Kutta methods on vectors. -/
theorem step_vec {n : Nat} {f : ℝ → List ℝ → List ℝ} (hf : ∀ t x, x.length = n → (f t x).length = n) {st : Stepper ℝ} (he : st ∈ [euler, rk4, rkf45]) :
    ∃ (T : Tableau) (N : ℝ), Conv.Mild T N ∧ N ≤ 120 ∧ ∀ t u (v : Fin n → ℝ), ((st t (List.ofFn v) u).exec (m := Id) f).1 = List.ofFn (T.step (vec n f) t v (u - t)) := by
  have key : ∀ t u (v : Fin n → ℝ), (st t (List.ofFn v) u).Dim n → ((st t (List.ofFn v) u).exec (m := Id) f) = (st t (List.ofFn v) u).exec (m := Id) (onLists (vec n f)) :=
    fun t u v hd => exec_congr hf (onLists_vec hf) _ hd
  have hdim := fun t u (v : Fin n → ℝ) => C44.C44_dimension n t (List.ofFn v) u (by simp)
  simp only [List.mem_cons, List.not_mem_nil, or_false] at he
  rcases he with rfl | rfl | rfl
  · exact ⟨_, _, Conv.mild_euler, by norm_num, fun t u v => by rw [key t u v (hdim t u v).1, C44.C44_euler]⟩
  · exact ⟨_, _, Conv.mild_rk4, by norm_num, fun t u v => by rw [key t u v (hdim t u v).2.1, C44.C44_rk4]⟩
  · exact ⟨_, _, Conv.mild_fehlberg4, by norm_num, fun t u v => by rw [key t u v (hdim t u v).2.2, C44.C44_rkf45]⟩

/-- The points of all steps, of which the given times are some. -/
theorem follows_times {st : Stepper ℝ} {f : ℝ → List ℝ → List ℝ} {η t : ℝ} {x y ts : List ℝ} (h : Follows st f t x ts y)
    (hg : (t :: ts).IsChain (fun s u => u - s ≤ η)) :
    ∃ us, (t :: us).Pairwise (· < ·) ∧ (t :: us).IsChain (fun s u => u - s ≤ η) ∧ (t :: us).getLast (by simp) = (t :: ts).getLast (by simp) ∧
      y = st.iterate f t x us := by
  have chain : ∀ {us : List ℝ} {t : ℝ}, (t :: us).IsChain (· < ·) → (t :: us).Pairwise (· < ·) := fun h => List.isChain_iff_pairwise.1 h
  -- one call of `run`
  have tile : ∀ (steps : List (ℝ × ℝ)) (t u : ℝ), Tiles t u steps → t ≤ u ∧ ∀ (x y vs : List ℝ), u - t ≤ η →
      (u :: vs).IsChain (· < ·) → (u :: vs).IsChain (fun s u => u - s ≤ η) → y = st.iterate f u (st.over f x steps) vs →
      ∃ us, (t :: us).IsChain (· < ·) ∧ (t :: us).IsChain (fun s u => u - s ≤ η) ∧ (t :: us).getLast (by simp) = (u :: vs).getLast (by simp) ∧
        y = st.iterate f t x us := by
    intro steps
    induction steps with
    | nil =>
      intro t u h
      cases h
      exact ⟨le_refl _, fun x y vs _ h1 h2 h3 => ⟨vs, h1, h2, rfl, h3⟩⟩
    | cons p steps ih =>
      intro t u h
      cases h with
      | step h1 h2 =>
        rename_i s
        obtain ⟨k1, k2⟩ := ih _ _ h2
        refine ⟨by linarith, fun x y vs hd h3 h4 h5 => ?_⟩
        obtain ⟨us, q1, q2, q3, q4⟩ := k2 ((st t x s).exec (m := Id) f).1 y vs (by linarith) h3 h4 h5
        exact ⟨s :: us, List.isChain_cons_cons.2 ⟨h1, q1⟩, List.isChain_cons_cons.2 ⟨by linarith, q2⟩, by rw [List.getLast_cons (by simp)]; exact q3, q4⟩
  suffices hh : ∃ us, (t :: us).IsChain (· < ·) ∧ (t :: us).IsChain (fun s u => u - s ≤ η) ∧ (t :: us).getLast (by simp) = (t :: ts).getLast (by simp) ∧
      y = st.iterate f t x us by
    obtain ⟨us, h1, h2⟩ := hh
    exact ⟨us, chain h1, h2⟩
  induction h with
  | nil => exact ⟨[], by simp, by simp, rfl, rfl⟩
  | cons steps h1 h2 ih =>
    rw [List.isChain_cons_cons] at hg
    obtain ⟨us, q1, q2, q3, q4⟩ := ih hg.2
    obtain ⟨vs, r1, r2, r3, r4⟩ := (tile _ _ _ h1).2 _ _ us hg.1 q1 q2 q4
    exact ⟨vs, r1, r2, (r3.trans q3).trans (List.getLast_cons (by simp)).symm, r4⟩

theorem iterate_vec {n : Nat} {f : ℝ → List ℝ → List ℝ} {st : Stepper ℝ} {Φ : ℝ → (Fin n → ℝ) → ℝ → Fin n → ℝ}
    (hΦ : ∀ t u v, ((st t (List.ofFn v) u).exec (m := Id) f).1 = List.ofFn (Φ t v u)) (ts : List ℝ) (t : ℝ) (v : Fin n → ℝ) :
    st.iterate f t (List.ofFn v) ts = List.ofFn (Conv.iter Φ t v ts) := by
  induction ts generalizing t v with
  | nil => rfl
  | cons u us ih =>
    unfold Stepper.iterate Conv.iter
    rw [hΦ, ih]

/-- `y`, continuous and with derivative `y1` except at the times `J`, solves the differential equation of the diagram on `[a, b]`, with the initial state given by the
members `mem` of the blocks; and near it, the right-hand side changes by at most `L` times the change of the state. -/
structure Solves (cfg : Config ℝ) (V : Vars) (mem : BlkId → Mem ℝ) {n : Nat} (J : Finset ℝ) (a b : ℝ) (y y1 : ℝ → Fin n → ℝ) (r L : ℝ) : Prop where
  initial : cfg.Stands V mem (List.ofFn (y a))
  cont : ContinuousOn y (Icc a b)
  deriv : ∀ t ∈ Icc a b, t ∉ J → HasDerivWithinAt y (y1 t) (Icc a b) t
  rhs : ∀ t ∈ Icc a b, Rhs cfg V mem t (List.ofFn (y t)) (List.ofFn (y1 t))
  lipschitz : ∀ t ∈ Icc a b, ∀ x d : Fin n → ℝ, ‖x - y t‖ ≤ r → Rhs cfg V mem t (List.ofFn x) (List.ofFn d) → ‖d - y1 t‖ ≤ L * ‖x - y t‖

/-- The error, for derivatives whose variation over steps up to `η` is bounded by the increase of `G`. -/
theorem error_bound (cfg : Config ℝ) (ps : List (Wire ℝ)) (ty : SigId → Ty) (rank : BlkId → Nat) (h : cfg.Sealed ps ty rank)
    (hme : ∀ p ∈ ps, p.obj.Memoryless) (hs : ∃ p ∈ ps, p.obj.isState = true) (st : Stepper ℝ) (hst : cfg.stepper = some st) (he : st ∈ [euler, rk4, rkf45])
    (wd : World ℝ) (hw : wd.New cfg ty) (hlog : wd.log = []) (tPrev t0 minH maxH : ℝ) (h0 : 0 < minH) (h1 : minH < maxH) (m0 : Machine ℝ)
    (hinit : Call.exec cfg (.init t0) { w := wd, s := { tPrev := tPrev } } = .ok () m0) {T r L W η : ℝ} {J : Finset ℝ} {G : ℝ → ℝ} (hT : t0 ≤ T)
    {y y1 : ℝ → Fin m0.s.nState → ℝ} (hy : Solves cfg m0.vars wd.mem J t0 T y y1 r L) (hr : 0 < r) (hL : 0 ≤ L) (hW0 : 0 ≤ W)
    (hmod : Conv.Varies y1 t0 T W η G) (hmono : Monotone G) (hη0 : 0 ≤ η) (hη1 : η * (120 * L) ≤ 1)
    (hη2 : η * (120 * (L * (r / 2) + 3 * W)) ≤ r / 2) (hB : Real.exp (120 * L * (T - t0)) * (241 * (G T - G t0)) ≤ r / 2)
    (ts : List ℝ) (hp : (t0 :: ts).Pairwise (· < ·)) (hg : (t0 :: ts).IsChain (fun s u => u - s ≤ η)) (hl : (t0 :: ts).getLast (by simp) ≤ T) :
    (∃ m, RunsTo cfg minH maxH m0 ts m) ∧ ∀ m, RunsTo cfg minH maxH m0 ts m → ∃ v : Fin m0.s.nState → ℝ, cfg.Stands m0.vars m.w.mem (List.ofFn v) ∧
      ‖v - y ((t0 :: ts).getLast (by simp))‖ ≤ Real.exp (120 * L * (T - t0)) * (241 * (G T - G t0)) ∧
      ∀ mem, Solution cfg m0.vars mem ((t0 :: ts).getLast (by simp)) (List.ofFn v) m.w.shown := by
  obtain ⟨m0', V, n, f, x0, g1, rfl, rfl, g4, g5, g6, g7, g8, g9, g10, g11⟩ := C60.C60_trajectory cfg ps ty rank h hme hs st hst he
    wd hw hlog tPrev t0 minH maxH h0 h1
  rw [hinit] at g1
  cases g1
  obtain ⟨k1, k2⟩ := g11 ts hp
  refine ⟨k1, fun m hm => ?_⟩
  obtain ⟨x, hfo, _, hstand, hsol⟩ := k2 m hm
  obtain ⟨us, hpu, hgu, hlu, hx⟩ := follows_times hfo hg
  have hx0 : x0 = List.ofFn (y t0) := packed_unique g10 hy.initial (fun _ _ => rfl)
  have hrhs : ∀ t (v d : Fin m0.s.nState → ℝ), Rhs cfg m0.vars wd.mem t (List.ofFn v) (List.ofFn d) ↔ d = vec _ f t v := by
    intro t v d
    rw [g8 _ _ _ _ (by simp), vec_eq g9]
    exact List.ofFn_injective.eq_iff
  have htube : Conv.Tube (vec _ f) y y1 J t0 T r L := by
    refine ⟨hy.cont, hy.deriv, fun t ht x hx => by rw [max_eq_left (norm_nonneg _)]; exact hy.lipschitz t ht x _ hx ((hrhs t x _).2 rfl), hL⟩
  have hlast : t0 ≤ (t0 :: ts).getLast (by simp) := by
    rcases List.mem_cons.1 (List.getLast_mem (l := t0 :: ts) (by simp)) with e | e
    · exact e.ge
    · exact ((List.pairwise_cons.1 hp).1 _ e).le
  obtain ⟨B, N, hm1, hm2, hΦ⟩ := step_vec g9 he
  have hN := hm1.one
  have hLr : 0 ≤ L * (r / 2) + 3 * W := by have := mul_nonneg hL hr.le; linarith
  have hinc : Conv.Increment (fun t x u => B.step (vec _ f) t x (u - t)) y y1 t0 T (r / 2) W η (120 * L) 240 := by
    have := Conv.mild_increment hm1 htube ((mul_le_mul_of_nonneg_left (mul_le_mul_of_nonneg_right hm2 hL) hη0).trans hη1)
      ((mul_le_mul_of_nonneg_left (mul_le_mul_of_nonneg_right hm2 hLr) hη0).trans hη2)
    intro t u x w a1 a2 a3 a4 a5 a6 a7 a8
    refine (this t u x w a1 a2 a3 a4 a5 a6 a7 a8).trans (mul_le_mul_of_nonneg_left ?_ (by linarith))
    have q1 := mul_le_mul_of_nonneg_right (mul_le_mul_of_nonneg_right hm2 hL) (norm_nonneg (x - y t))
    have q2 := mul_le_mul_of_nonneg_right hm2 a5
    linarith
  have e241 : (241 : ℝ) = 240 + 1 := by norm_num
  have hxe : x = List.ofFn (Conv.iter (fun t x u => B.step (vec _ f) t x (u - t)) t0 (y t0) us) := by
    rw [hx, hx0, iterate_vec hΦ]
  refine ⟨Conv.iter (fun t x u => B.step (vec _ f) t x (u - t)) t0 (y t0) us, ?_, ?_, ?_⟩
  · rw [← hxe]; exact hstand
  · have := Conv.iter_error htube hmod (hmono.monotoneOn _) hinc (by linarith) (by norm_num) (by rw [← e241]; exact hB) us (le_refl _) hpu hgu (by rw [hlu]; exact hl) (x := y t0) (by simp)
    rw [← e241] at this
    rw [hlu] at this
    refine this.trans ?_
    have q1 := hmono hlast
    have q2 := hmono hl
    exact mul_le_mul (Real.exp_le_exp.2 (mul_le_mul_of_nonneg_left (by linarith) (by linarith))) (by linarith) (by linarith) (Real.exp_pos _).le
  · rw [← hxe]; exact hsol

/-- Small enough steps. -/
theorem small {r L W : ℝ} (hr : 0 < r) (hL : 0 ≤ L) (hW : 0 ≤ W) : ∃ η0 > 0, ∀ η, η ≤ η0 → η * (120 * L) ≤ 1 ∧ η * (120 * (L * (r / 2) + 3 * W)) ≤ r / 2 := by
  have hLr := mul_nonneg hL hr.le
  have q : 0 < 1 + 120 * L + 120 * (L * (r / 2) + 3 * W) := by linarith
  refine ⟨min 1 (r / 2) / (1 + 120 * L + 120 * (L * (r / 2) + 3 * W)), div_pos (lt_min one_pos (by linarith)) q, fun η hη => ?_⟩
  rw [le_div_iff₀ q] at hη
  have h1 := hη.trans (min_le_left _ _)
  have h2 := hη.trans (min_le_right _ _)
  rcases le_or_gt η 0 with e | e
  · have := mul_nonpos_of_nonpos_of_nonneg e (show 0 ≤ 120 * L by linarith)
    have := mul_nonpos_of_nonpos_of_nonneg e (show 0 ≤ 120 * (L * (r / 2) + 3 * W) by linarith)
    constructor <;> linarith
  · have p1 := mul_nonneg e.le (show 0 ≤ 120 * L by linarith)
    have p2 := mul_nonneg e.le (show 0 ≤ 120 * (L * (r / 2) + 3 * W) by linarith)
    constructor <;> linarith

/-- C61: a closed diagram of blocks without memory, simulated with any of the provided methods.  Let `y` be the solution of the differential equation that the equations
of the diagram define, on `[t0, T]`, beginning with the initial conditions given to the integrators: a continuous function whose derivative is bounded, and exists and is
continuous except at finitely many times `J`.  Let the right-hand side be Lipschitz continuous near `y`.  For every `ε` there is a step size such that, whatever
increasing times with smaller distances `run` is called for, the calls return and the state of the integrators is then the solution at the last of these times up to
`ε`, and the signals solve the equations of the diagram with this state. -/
theorem C61_converges (cfg : Config ℝ) (ps : List (Wire ℝ)) (ty : SigId → Ty) (rank : BlkId → Nat) (h : cfg.Sealed ps ty rank)
    (hme : ∀ p ∈ ps, p.obj.Memoryless) (hs : ∃ p ∈ ps, p.obj.isState = true) (st : Stepper ℝ) (hst : cfg.stepper = some st) (he : st ∈ [euler, rk4, rkf45])
    (wd : World ℝ) (hw : wd.New cfg ty) (hlog : wd.log = []) (tPrev t0 minH maxH : ℝ) (h0 : 0 < minH) (h1 : minH < maxH) (m0 : Machine ℝ)
    (hinit : Call.exec cfg (.init t0) { w := wd, s := { tPrev := tPrev } } = .ok () m0) (T r L : ℝ) (hT : t0 ≤ T) (hr : 0 < r) (hL : 0 ≤ L)
    (y y1 : ℝ → Fin m0.s.nState → ℝ) (J : Finset ℝ) (hy : Solves cfg m0.vars wd.mem J t0 T y y1 r L) (hc : ContinuousOn y1 (Icc t0 T \ J))
    (hb : ∃ K, ∀ t ∈ Icc t0 T, ‖y1 t‖ ≤ K) (ε : ℝ) (hε : 0 < ε) :
    ∃ η > 0, ∀ ts : List ℝ, (t0 :: ts).Pairwise (· < ·) → (t0 :: ts).IsChain (fun s u => u - s ≤ η) → (t0 :: ts).getLast (by simp) ≤ T →
      (∃ m, RunsTo cfg minH maxH m0 ts m) ∧ ∀ m, RunsTo cfg minH maxH m0 ts m → ∃ v : Fin m0.s.nState → ℝ, cfg.Stands m0.vars m.w.mem (List.ofFn v) ∧
        ‖v - y ((t0 :: ts).getLast (by simp))‖ ≤ ε ∧ ∀ mem, Solution cfg m0.vars mem ((t0 :: ts).getLast (by simp)) (List.ofFn v) m.w.shown := by
  obtain ⟨K, hK⟩ := hb
  obtain ⟨W, hW1, hW⟩ : ∃ W : ℝ, 1 ≤ W ∧ ∀ s ∈ Icc t0 T, ∀ t ∈ Icc t0 T, ‖y1 s - y1 t‖ ≤ W := by
    refine ⟨2 * |K| + 1, by linarith [abs_nonneg K], fun s hs t ht => ?_⟩
    have := norm_sub_le (y1 s) (y1 t)
    linarith [hK s hs, hK t ht, le_abs_self K]
  obtain ⟨B, hB, hB0⟩ : ∃ B, B = Real.exp (120 * L * (T - t0)) * 241 ∧ 0 ≤ B := ⟨_, rfl, mul_nonneg (Real.exp_pos _).le (by norm_num)⟩
  have hm : 0 < min ε (r / 2) := lt_min hε (by linarith)
  generalize hmdef : min ε (r / 2) = m at hm
  have hBT : 0 ≤ B * (T - t0) := mul_nonneg hB0 (by linarith)
  obtain ⟨v, hv0, hvW, hv⟩ : ∃ v, 0 < v ∧ v ≤ W ∧ B * (v * (T - t0)) ≤ m / 2 := by
    refine ⟨min 1 (m / 2 / (B * (T - t0) + 1)), lt_min one_pos (by positivity), (min_le_left _ _).trans hW1, ?_⟩
    have q := min_le_right 1 (m / 2 / (B * (T - t0) + 1))
    rw [le_div_iff₀ (by linarith)] at q
    have q0 : 0 < min 1 (m / 2 / (B * (T - t0) + 1)) := lt_min one_pos (by positivity)
    linarith
  obtain ⟨κ, hκ0, hκ⟩ : ∃ κ, 0 < κ ∧ B * (J.card * (W * (2 * (κ + κ)))) ≤ m / 2 := by
    have hq : 0 ≤ B * (J.card * (W * 4)) := by positivity
    refine ⟨m / 2 / (B * (J.card * (W * 4)) + 1), by positivity, ?_⟩
    have q : m / 2 / (B * (J.card * (W * 4)) + 1) * (B * (J.card * (W * 4)) + 1) = m / 2 := div_mul_cancel₀ _ (by linarith)
    have q0 : 0 < m / 2 / (B * (J.card * (W * 4)) + 1) := by positivity
    linarith
  obtain ⟨η1, hη1, hvar⟩ := Conv.varies_of_continuous hc hW hv0 hvW hκ0
  obtain ⟨η2, hη2, hsm⟩ := small hr hL (show 0 ≤ W by linarith)
  refine ⟨min (min η1 η2) κ, lt_min (lt_min hη1 hη2) hκ0, fun ts hp hg hl => ?_⟩
  have p0 : 0 < min (min η1 η2) κ := lt_min (lt_min hη1 hη2) hκ0
  have p1 := min_le_left (min η1 η2) κ
  have p2 := min_le_right (min η1 η2) κ
  generalize min (min η1 η2) κ = η at *
  have hgr : B * (Conv.growth J v W (κ + η) T - Conv.growth J v W (κ + η) t0) ≤ m := by
    have q1 := Conv.growth_le (J := J) (v := v) (a := t0) (b := T) (show 0 ≤ W by linarith) (show 0 ≤ κ + η by linarith)
    have q2 := mul_le_mul_of_nonneg_left q1 hB0
    have q3 : B * (J.card * (W * (2 * (κ + η)))) ≤ B * (J.card * (W * (2 * (κ + κ)))) := by gcongr
    rw [mul_add] at q2
    linarith
  have hBG : Real.exp (120 * L * (T - t0)) * (241 * (Conv.growth J v W (κ + η) T - Conv.growth J v W (κ + η) t0)) ≤ m := by rw [← mul_assoc, ← hB]; exact hgr
  obtain ⟨s1, s2⟩ := hsm η (p1.trans (min_le_right _ _))
  have key := error_bound cfg ps ty rank h hme hs st hst he wd hw hlog tPrev t0 minH maxH h0 h1 m0 hinit hT hy hr hL (show 0 ≤ W by linarith)
    (hvar η (p1.trans (min_le_left _ _))) (Conv.growth_mono hv0.le (by linarith)) p0.le s1 s2 (hBG.trans (hmdef ▸ min_le_right _ _)) ts hp hg hl
  refine ⟨key.1, fun m' hm' => ?_⟩
  obtain ⟨v', e1, e2, e3⟩ := key.2 m' hm'
  exact ⟨v', e1, (e2.trans hBG).trans (hmdef ▸ min_le_left _ _), e3⟩

/-- C61, rate: if the derivative of the solution is Lipschitz continuous between the times `J`, the error is at most proportional to the largest distance of the times. -/
theorem C61_rate (cfg : Config ℝ) (ps : List (Wire ℝ)) (ty : SigId → Ty) (rank : BlkId → Nat) (h : cfg.Sealed ps ty rank)
    (hme : ∀ p ∈ ps, p.obj.Memoryless) (hs : ∃ p ∈ ps, p.obj.isState = true) (st : Stepper ℝ) (hst : cfg.stepper = some st) (he : st ∈ [euler, rk4, rkf45])
    (wd : World ℝ) (hw : wd.New cfg ty) (hlog : wd.log = []) (tPrev t0 minH maxH : ℝ) (h0 : 0 < minH) (h1 : minH < maxH) (m0 : Machine ℝ)
    (hinit : Call.exec cfg (.init t0) { w := wd, s := { tPrev := tPrev } } = .ok () m0) (T r L M : ℝ) (hT : t0 ≤ T) (hr : 0 < r) (hL : 0 ≤ L) (hM : 0 ≤ M)
    (y y1 : ℝ → Fin m0.s.nState → ℝ) (J : Finset ℝ) (hy : Solves cfg m0.vars wd.mem J t0 T y y1 r L)
    (hc : ∀ s ∈ Icc t0 T, ∀ t ∈ Icc t0 T, s ≤ t → (∀ j ∈ J, j ∉ Icc s t) → ‖y1 t - y1 s‖ ≤ M * (t - s)) (hb : ∃ K, ∀ t ∈ Icc t0 T, ‖y1 t‖ ≤ K) :
    ∃ η0 > 0, ∃ B, ∀ η, 0 ≤ η → η ≤ η0 → ∀ ts : List ℝ, (t0 :: ts).Pairwise (· < ·) → (t0 :: ts).IsChain (fun s u => u - s ≤ η) → (t0 :: ts).getLast (by simp) ≤ T →
      (∃ m, RunsTo cfg minH maxH m0 ts m) ∧ ∀ m, RunsTo cfg minH maxH m0 ts m → ∃ v : Fin m0.s.nState → ℝ, cfg.Stands m0.vars m.w.mem (List.ofFn v) ∧
        ‖v - y ((t0 :: ts).getLast (by simp))‖ ≤ B * η ∧ ∀ mem, Solution cfg m0.vars mem ((t0 :: ts).getLast (by simp)) (List.ofFn v) m.w.shown := by
  obtain ⟨K, hK⟩ := hb
  obtain ⟨W, hWM, hW⟩ : ∃ W : ℝ, M ≤ W ∧ ∀ s ∈ Icc t0 T, ∀ t ∈ Icc t0 T, ‖y1 s - y1 t‖ ≤ W := by
    refine ⟨2 * |K| + M, by linarith [abs_nonneg K], fun s hs t ht => ?_⟩
    have := norm_sub_le (y1 s) (y1 t)
    linarith [hK s hs, hK t ht, le_abs_self K]
  have hW0 : 0 ≤ W := by linarith
  obtain ⟨B, hB, hB0⟩ : ∃ B, B = Real.exp (120 * L * (T - t0)) * (241 * (M * (T - t0) + J.card * (W * 2))) ∧ 0 ≤ B :=
    ⟨_, rfl, mul_nonneg (Real.exp_pos _).le (mul_nonneg (by norm_num) (add_nonneg (mul_nonneg hM (by linarith)) (by positivity)))⟩
  obtain ⟨η2, hη2, hsm⟩ := small hr hL hW0
  refine ⟨min (min 1 η2) (r / 2 / (B + 1)), lt_min (lt_min one_pos hη2) (by positivity), B, fun η e1 e2 ts hp hg hl => ?_⟩
  have p1 : η ≤ 1 := e2.trans ((min_le_left _ _).trans (min_le_left _ _))
  have p2 : B * η ≤ r / 2 := by
    have := e2.trans (min_le_right _ _)
    rw [le_div_iff₀ (by linarith)] at this
    linarith
  have hvW : M * η ≤ W := (mul_le_of_le_one_right hM p1).trans hWM
  have hvar : Conv.Varies y1 t0 T W η (Conv.growth J (M * η) W (0 + η)) := by
    refine Conv.varies (mul_nonneg hM e1) hW0 hvW (fun t u ha htu hb hd hJ s hs => ?_) hW
    refine (hc t ⟨ha, by linarith⟩ s ⟨by linarith [hs.1], by linarith [hs.2]⟩ hs.1 (fun j hj hm => hJ j hj ⟨by linarith [hm.1], by linarith [hm.2, hs.2]⟩)).trans ?_
    exact mul_le_mul_of_nonneg_left (by linarith [hs.2]) hM
  have hBG : Real.exp (120 * L * (T - t0)) * (241 * (Conv.growth J (M * η) W (0 + η) T - Conv.growth J (M * η) W (0 + η) t0)) ≤ B * η := by
    have q1 := Conv.growth_le (J := J) (v := M * η) (a := t0) (b := T) hW0 (show 0 ≤ 0 + η by linarith)
    rw [hB, mul_assoc (Real.exp _)]
    refine mul_le_mul_of_nonneg_left ?_ (Real.exp_pos _).le
    linarith
  obtain ⟨s1, s2⟩ := hsm η (e2.trans ((min_le_left _ _).trans (min_le_right _ _)))
  have key := error_bound cfg ps ty rank h hme hs st hst he wd hw hlog tPrev t0 minH maxH h0 h1 m0 hinit hT hy hr hL hW0 hvar
    (Conv.growth_mono (mul_nonneg hM e1) hW0) e1 s1 s2 (hBG.trans p2) ts hp hg hl
  refine ⟨key.1, fun m' hm' => ?_⟩
  obtain ⟨v', e1, e2, e3⟩ := key.2 m' hm'
  exact ⟨v', e1, e2.trans hBG, e3⟩

/-! ## Example: `x' = x`, `x(0) = 1` -/

namespace Growth

def gain : Leaf ℝ := { id := 1, links := [(0, Demo.rq), (1, Demo.ot)], kind := .gain (.scalar 1) 0 1 }
def integ : Leaf ℝ := { id := 2, links := [(1, Demo.inp), (0, Demo.st)], kind := .integrator 1 0 }

noncomputable def wires : List (Wire ℝ) :=
  [⟨1, .gain .double (.scalar 1), [C58.sc "in" 0], [C58.sc "out" 1]⟩, ⟨2, .integrator .double, [C58.sc "in" 1], [C58.sc "out" 0]⟩]

noncomputable def cfg (st : Strategy) (sp : Stepper ℝ) : Config ℝ where
  dbg := true
  model := .sub 100 [] [.leaf gain, .leaf integ]
  deriv s := if s = 0 then some 1 else none
  inputs := none
  modelInput _ := ([], none)
  stepper := some sp
  strategy := st
  hash := id

def world : World ℝ where
  sig _ := { ty := .scalar }
  mem _ := { value := .scalar 1 }
  done _ := false
  log := []

theorem leaves_eq (st : Strategy) (sp : Stepper ℝ) : (cfg st sp).model.leaves = [gain, integ] := by simp [cfg, Block.leaves, leavesL]

theorem closed (st : Strategy) (sp : Stepper ℝ) (hsp : sp ∈ [euler, rk4, rkf45]) : (cfg st sp).Sealed wires (fun _ => .scalar) (fun _ => 0) := by
  have hg : ∀ p ∈ wires, ∀ i, p.Gives i → (p.id, i) ∈ [((1 : Nat), (1 : Nat)), (2, 0)] := by
    intro p hp i hi
    obtain ⟨k, t, hi⟩ := hi
    simp only [wires, List.mem_cons, List.not_mem_nil, or_false] at hp
    rcases hp with rfl | rfl <;> (simp only [C58.sc, List.mem_cons, List.not_mem_nil, or_false] at hi; cases hi; decide)
  have ht : ∀ p ∈ wires, ∀ i, p.Takes i → (p.id, i) ∈ [((1 : Nat), (0 : Nat)), (2, 1)] := by
    intro p hp i hi
    obtain ⟨k, t, hi⟩ := hi
    simp only [wires, List.mem_cons, List.not_mem_nil, or_false] at hp
    rcases hp with rfl | rfl <;> (simp only [C58.sc, List.mem_cons, List.not_mem_nil, or_false] at hi; cases hi; decide)
  exact {
    dbg := rfl
    assembled := ⟨[gain, integ], rfl, by rw [leaves_eq]⟩
    proper := by show Block.Proper (.sub 100 [] [.leaf gain, .leaf integ]); unfold Block.Proper; decide +kernel
    hash := fun _ => .refl _
    sane := by
      have h1 : ∀ a i, Agrees (fun _ => .scalar) [C58.sc a i] ∧ Sized 1 [C58.sc a i] := by
        intro a i
        refine ⟨fun q hq j t e => ?_, fun q hq j m e => ?_⟩ <;> (rw [List.mem_singleton] at hq; subst hq; cases e)
        rfl
      intro p hp
      simp only [wires, List.mem_cons, List.not_mem_nil, or_false] at hp
      rcases hp with rfl | rfl
      · exact ⟨(h1 _ _).1, (h1 _ _).1, .inl ⟨1, Nat.one_pos, .inl ⟨trivial, _, rfl⟩, trivial, (h1 _ _).2, (h1 _ _).2⟩⟩
      · exact ⟨(h1 _ _).1, (h1 _ _).1, .inl ⟨1, Nat.one_pos, trivial, trivial, (h1 _ _).2, (h1 _ _).2⟩⟩
    once := by
      intro p hp q hq i h1 h2
      have key : ∀ a ∈ [((1 : Nat), (1 : Nat)), (2, 0)], ∀ b ∈ [((1 : Nat), (1 : Nat)), (2, 0)], a.2 = b.2 → a.1 = b.1 := by decide
      exact key _ (hg p hp i h1) _ (hg q hq i h2) rfl
    provided := by
      intro p hp i hi
      have key : ∀ a ∈ [((1 : Nat), (0 : Nat)), (2, 1)], a.2 = 0 ∨ a.2 = 1 := by decide
      right
      rcases key _ (ht p hp i hi) with e | e
      · exact ⟨_, .tail _ (.head _), str "out", .scalar, by rw [show i = 0 from e]; exact .head _⟩
      · exact ⟨_, .head _, str "out", .scalar, by rw [show i = 1 from e]; exact .head _⟩
    loops := by
      intro p hp i hn q hq hgi
      left
      have G := hg q hq i hgi
      have T := ht p hp i
      simp only [wires, List.mem_cons, List.not_mem_nil, or_false] at hp hq
      rcases hp with rfl | rfl
      · rcases hq with rfl | rfl
        · have h1 := T hn
          have key : ∀ i : Nat, ((1 : Nat), i) ∈ [((1 : Nat), (1 : Nat)), (2, 0)] → (1, i) ∈ [((1 : Nat), (0 : Nat)), (2, 1)] → False := by
            intro i; simp; omega
          exact (key i G h1).elim
        · rfl
      · exact hn.elim
    inputs := fun f e => by cases e
    modelInput := ⟨fun t => ⟨fun q hq => (by cases hq), fun e he => (by cases he)⟩, fun _ => rfl⟩
    inputOnce := fun _ => .nil
    inputFree := fun t s hs => by cases hs
    stepper := fun sp' e => by
      cases e
      simp only [List.mem_cons, List.not_mem_nil, or_false] at hsp
      rcases hsp with rfl | rfl | rfl
      · exact C26.dim_provided.1
      · exact C26.dim_provided.2.1
      · exact C26.dim_provided.2.2
    stepped := fun _ => rfl
    reuse := fun _ => ⟨_, .tail _ (.head _), rfl⟩ }

theorem fresh (st : Strategy) (sp : Stepper ℝ) : world.New (cfg st sp) (fun _ => .scalar) := by
  refine ⟨⟨fun _ => rfl, fun _ => ⟨fun e => (by cases e), fun v e => (by cases e)⟩, ?_⟩, fun _ => rfl, ?_⟩
  · rw [leaves_eq]
    intro l hl
    simp only [List.mem_cons, List.not_mem_nil, or_false] at hl
    rcases hl with rfl | rfl <;> first | trivial | exact ⟨rfl, fun _ => rfl⟩
  · rw [leaves_eq]
    intro l hl hd
    simp only [List.mem_cons, List.not_mem_nil, or_false] at hl
    rcases hl with rfl | rfl <;> cases hd

theorem linked (st : Strategy) (sp : Stepper ℝ) : linkedSigs (cfg st sp).model = [0, 1] := rfl

/-- The simulator after `init(0)`: the state is signal 0. -/
theorem started (st : Strategy) (sp : Stepper ℝ) (hsp : sp ∈ [euler, rk4, rkf45]) : ∃ m0, Call.exec (cfg st sp) (.init 0) { w := world, s := { tPrev := 0 } } = .ok () m0 ∧
    m0.s.nState = 1 ∧ m0.vars = ⟨[0], [], fun _ => 1⟩ := by
  have hp := C59.C59_complete _ _ _ _ (closed st sp hsp)
  have hord : (cfg st sp).Delays → OrderedArith ℝ := fun _ => C57.ordered_exact
  obtain ⟨m0, g1, g2⟩ := C57.C57_init _ _ _ hp hord _ (.new world 0 (fresh st sp)) rfl 0
  have hat : Attended (cfg st sp) (fun _ => .scalar) m0 := .call (.init 0) (.new world 0 (fresh st sp)) rfl g1
  have hf := (attended_cared hp hord hat).fit g2.init
  have ht : ∀ s, (m0.w.sig s).ty = .scalar := hf.world.types
  have h1 : scalarStatesOf (cfg st sp) m0.w = [0] := by
    unfold scalarStatesOf; rw [linked]; simp [ht, cfg]
  have h2 : arrayStatesOf (cfg st sp) m0.w = [] := by
    unfold arrayStatesOf; rw [linked]; simp [ht, Ty.isArray]
  refine ⟨m0, g1, ?_, ?_⟩
  · rw [hf.call.layout.nState]; unfold stateSize; rw [h1, h2]; rfl
  · unfold Machine.vars
    rw [hf.call.layout.scalarStates, hf.call.layout.arrayStates, h1, h2]
    have : m0.w.size = fun _ => 1 := by funext s; unfold World.size; rw [ht]; rfl
    rw [this]; rfl

theorem stands_iff (st : Strategy) (sp : Stepper ℝ) (mem : BlkId → Mem ℝ) (x : ℝ) :
    (cfg st sp).Stands ⟨[0], [], fun _ => 1⟩ mem [x] ↔ (mem 2).value = .scalar x := by
  have e : (cfg st sp).model.leaves.find? (fun l => decide (l.state = some 0)) = some integ := by rw [leaves_eq]; rfl
  unfold Config.Stands Packed
  simp only [List.forall₂_cons_left_iff, List.forall₂_nil_left_iff, e]
  constructor
  · rintro ⟨a, b, ⟨c, u, h1, rfl, rfl⟩, rfl, h⟩
    simp only [List.flatten_nil, List.append_nil] at h
    cases h
    exact Option.some.inj h1
  · intro h
    exact ⟨[x], [], ⟨x, [], by rw [Option.map_some]; exact congrArg some h, rfl, rfl⟩, rfl, rfl⟩

/-- The right-hand side is the state itself. -/
theorem rhs_iff (st : Strategy) (sp : Stepper ℝ) (mem : BlkId → Mem ℝ) (t x d : ℝ) : Rhs (cfg st sp) ⟨[0], [], fun _ => 1⟩ mem t [x] [d] ↔ d = x := by
  have e0 : (cfg st sp).deriv 0 = some 1 := rfl
  have pk : ∀ (val : SigId → Option (Val ℝ)) size (s : SigId) (y : ℝ), Packed val size [s] [] [y] ↔ val s = some (.scalar y) := by
    intro val size s y
    unfold Packed
    simp only [List.forall₂_cons_left_iff, List.forall₂_nil_left_iff]
    constructor
    · rintro ⟨a, b, ⟨c, u, h1, rfl, rfl⟩, rfl, h⟩
      simp only [List.flatten_nil, List.append_nil] at h
      cases h
      exact h1
    · intro h
      exact ⟨[y], [], ⟨y, [], h, rfl, rfl⟩, rfl, rfl⟩
  constructor
  · rintro ⟨val, hs, hd⟩
    have h0 := (pk _ _ _ _).1 hs.state
    have h1 := (pk _ _ _ _).1 hd
    rw [e0] at h1
    have hb := hs.block gain (by rw [leaves_eq]; simp) (by
      intro s f hm hr
      simp only [gain, List.mem_cons, Prod.mk.injEq, List.not_mem_nil, or_false] at hm
      rcases hm with ⟨rfl, rfl⟩ | ⟨rfl, rfl⟩
      · exact ⟨_, h0⟩
      · cases hr)
    obtain ⟨a, r, q1, q2, q3⟩ := hb
    rw [h0] at q1
    cases q1
    have q4 : some (Val.scalar d) = some r := h1.symm.trans q3
    cases q4
    cases q2
    exact one_mul x
  · rintro rfl
    refine ⟨fun s => if s = 0 ∨ s = 1 then some (.scalar d) else none, ⟨fun p hp => (by cases hp), (pk _ _ _ _).2 (if_pos (.inl rfl)), ?_⟩, (pk _ _ _ _).2 ?_⟩
    · rw [leaves_eq]
      intro l hl _
      simp only [List.mem_cons, List.not_mem_nil, or_false] at hl
      rcases hl with rfl | rfl
      · exact ⟨.scalar d, .scalar d, if_pos (.inl rfl), (by have := Scaled.scalar (1 : ℝ) d; rwa [show (1 : ℝ) *. d = d from one_mul d] at this), if_pos (.inr rfl)⟩
      · trivial
    · rw [e0, Option.bind_some]; exact if_pos (Or.inr rfl)

/-- The exponential function solves the differential equation of the diagram. -/
theorem solves (st : Strategy) (sp : Stepper ℝ) (T : ℝ) {n : Nat} (hn : n = 1) :
    Solves (cfg st sp) ⟨[0], [], fun _ => 1⟩ world.mem ∅ 0 T (fun t (_ : Fin n) => Real.exp t) (fun t _ => Real.exp t) 1 1 := by
  subst hn
  have of1 : ∀ v : Fin 1 → ℝ, List.ofFn v = [v 0] := fun v => by simp
  refine ⟨?_, (continuous_pi fun _ => Real.continuous_exp).continuousOn, fun t _ _ => ?_, fun t _ => ?_, fun t _ x d _ h => ?_⟩
  · rw [of1, stands_iff]; show Val.scalar 1 = Val.scalar (Real.exp 0); rw [Real.exp_zero]
  · exact hasDerivWithinAt_pi.2 (fun _ => (Real.hasDerivAt_exp t).hasDerivWithinAt)
  · rw [of1, rhs_iff]
  · rw [of1, of1, rhs_iff] at h
    have : d = x := by funext i; rw [Subsingleton.elim i 0]; exact h
    rw [this, one_mul]

end Growth

/-- `x' = x`, `x(0) = 1`: at the times `ts`, the integrator holds the exponential function up to `ε`, if the distances are at most `η`. -/
example (st : Strategy) (sp : Stepper ℝ) (hsp : sp ∈ [euler, rk4, rkf45]) (T : ℝ) (hT : 0 ≤ T) (ε : ℝ) (hε : 0 < ε) :
    ∃ m0, Call.exec (Growth.cfg st sp) (.init 0) { w := Growth.world, s := { tPrev := 0 } } = .ok () m0 ∧
    ∃ η > 0, ∀ ts : List ℝ, (0 :: ts).Pairwise (· < ·) → (0 :: ts).IsChain (fun s u => u - s ≤ η) → (0 :: ts).getLast (by simp) ≤ T →
      (∃ m, RunsTo (Growth.cfg st sp) (1/10) 10 m0 ts m) ∧ ∀ m, RunsTo (Growth.cfg st sp) (1/10) 10 m0 ts m →
        ∃ v : ℝ, (m.w.mem 2).value = .scalar v ∧ |v - Real.exp ((0 :: ts).getLast (by simp))| ≤ ε := by
  obtain ⟨m0, g1, g2, g3⟩ := Growth.started st sp hsp
  refine ⟨m0, g1, ?_⟩
  have hs : Solves (Growth.cfg st sp) m0.vars Growth.world.mem ∅ 0 T (fun t (_ : Fin m0.s.nState) => Real.exp t) (fun t _ => Real.exp t) 1 1 := by
    rw [g3]; exact Growth.solves st sp T g2
  obtain ⟨η, h1, h2⟩ := C61_converges (Growth.cfg st sp) Growth.wires _ _ (Growth.closed st sp hsp) (by simp [Growth.wires, Make.Memoryless]) ⟨_, .tail _ (.head _), rfl⟩
    sp rfl hsp Growth.world (Growth.fresh st sp) rfl 0 0 (1/10) 10 (by norm_num) (by norm_num) m0 g1 T 1 1 hT one_pos zero_le_one _ _ ∅ hs
    (continuous_pi fun _ => Real.continuous_exp).continuousOn
    ⟨Real.exp T, fun t ht => (pi_norm_le_iff_of_nonneg (Real.exp_pos _).le).2 fun _ => by
      rw [Real.norm_eq_abs, abs_of_pos (Real.exp_pos _)]; exact Real.exp_le_exp.2 ht.2⟩ ε hε
  refine ⟨η, h1, fun ts a1 a2 a3 => ?_⟩
  obtain ⟨k1, k2⟩ := h2 ts a1 a2 a3
  refine ⟨k1, fun m hm => ?_⟩
  obtain ⟨v, q1, q2, _⟩ := k2 m hm
  rw [g3] at q1
  have of1 : List.ofFn v = [v ⟨0, by omega⟩] := by
    refine List.ext_getElem (by simp [g2]) fun i h _ => ?_
    have : i = 0 := by simp [g2] at h; exact h
    subst this; simp
  rw [of1, Growth.stands_iff] at q1
  exact ⟨_, q1, (norm_le_pi_norm (v - fun _ => Real.exp _) ⟨0, by omega⟩).trans q2⟩

end Pooya.C61
