import Verif.Spec.Alike
import Verif.Props.C92
import Verif.Props.C95
import Mathlib.Analysis.SpecialFunctions.Trigonometric.Bounds

/-!
# C97 — drawings that differ little are simulated with little difference

Full statement: take two drawings without Delays whose Integrators have the same outputs.  Let their inputs differ by at most `L δ + ε` where the outputs differ by at most `δ` and the
equations of the blocks hold.  Then the two programs, asked for the same times with Euler or Rk4, show after every call of `run` numbers at the Integrators that differ by at most
`δ e^(L (t - t0)) + ε / L (e^(L (t - t0)) - 1)`, where the initial values differ by at most `δ`.

Proved: `C97_drawings`, for all pairs of such drawings, all ways to connect them and all simulators; `C97_pendulum`: the pendulum of samples/test06_pendulum_with_torque.cpp with other
initial values and another torque.

For Rkf45 nothing of the kind is claimed: it chooses different steps for the two programs.
-/

namespace Pooya.C97

open Pooya C60 C69 C72 Within

set_option linter.unusedSectionVars false

noncomputable section
attribute [local instance] Arith.exact

variable {cfg : Config ℝ} {d : Sketch} {ws : List (Wire ℝ)} {rank : BlkId → Nat} {wd : World ℝ}

/-- The step at the end. -/
theorem evolved {V : Vars} {st : Stepper ℝ} {t s : ℝ} {mem mem' : BlkId → Mem ℝ} {x y : List ℝ} {steps : List (ℝ × ℝ)} {val : SigId → Option (Val ℝ)}
    (h : Evolves cfg V st t mem s x steps y val mem') : ∃ mem0, Committed cfg V mem0 t y val mem' := by
  induction h with
  | last _ _ _ h => exact ⟨_, h⟩
  | step _ _ _ _ _ ih => exact ih

theorem passed {V : Vars} {a b : Snapshot ℝ} {ts : List ℝ} (h : Passes cfg V a ts b) (ha : ∃ mem0, Committed cfg V mem0 a.time a.state a.vals a.mem) :
    ∃ mem0, Committed cfg V mem0 b.time b.state b.vals b.mem := by
  induction h with
  | nil => exact ha
  | steps _ _ _ _ _ k _ ih => exact ih (evolved k)
  | sample _ k _ ih => exact ih ⟨_, k⟩

theorem derived (h : cfg.Drawn d ws) (hc : d.Closed rank) (hw : wd.Begins d) {s x : SigId} : cfg.deriv s = some x ↔ ∃ x0, d.Slope s x0 x := by
  have key : ∀ p ∈ d.pieces, p.part.isIntegrator = true → ∃ x0, p.part = .integrator x0 := fun p _ k => by
    cases e : p.part <;> rw [e] at k <;> first | exact ⟨_, rfl⟩ | cases k
  constructor
  · intro e
    obtain ⟨l, hl, e'⟩ := C59.deriv_state (h.closed hc hw) (by rw [e]; rfl)
    obtain ⟨p, hp, _, _, hm, _⟩ := h.leaf hl
    rw [hm.state] at e'
    split at e'
    case isTrue hi =>
      cases e'
      obtain ⟨x', e1, e2⟩ := h.derivs hc hw hp hi
      rw [e] at e2
      cases e2
      obtain ⟨x0, e3⟩ := key p hp hi
      exact ⟨x0, p, hp, e3, e1, rfl⟩
    case isFalse => cases e'
  · rintro ⟨x0, p, hp, e1, e2, rfl⟩
    obtain ⟨x', e3, e4⟩ := h.derivs hc hw hp (by rw [e1]; rfl)
    rw [e2] at e3
    cases e3
    exact e4

/-- Values that solve the diagram solve the drawing. -/
theorem solved (h : cfg.Drawn d ws) (hc : d.Closed rank) (hw : wd.Begins d) (hnd : ∀ p ∈ d.pieces, p.part.isDelay = false) {t : ℝ} {val : SigId → Option (Val ℝ)}
    (hs : cfg.Solves (fun s => (wd.sig s).ty) t val) : (∀ s ∈ d.signals, val s = some (.scalar (scal (val s)))) ∧ d.Meets t fun s => scal (val s) := by
  obtain ⟨⟨V, mem, x, hs⟩, hv⟩ := hs
  have hst : ∀ p ∈ d.pieces, p.part.isIntegrator = true → val p.out = some (.scalar (scal (val p.out))) := fun p hp hi => by
    obtain ⟨x', _, e⟩ := h.derivs hc hw hp hi
    obtain ⟨v, e1, e2⟩ := hv p.out (by rw [e]; rfl)
    rw [show (fun s => (wd.sig s).ty) p.out = .scalar from (hw.types p hp).2] at e2
    cases v <;> simp [Val.Fits, Val.hasTag] at e2
    rw [e1]
    rfl
  let ss := (d.pieces.filter fun p => p.part.isIntegrator).map Piece.out
  have hV : (⟨ss, [], fun _ => 1⟩ : Vars).Of d := ⟨rfl, fun s => by
    simp only [ss, List.mem_map, List.mem_filter]
    exact ⟨fun ⟨p, ⟨a, b⟩, c⟩ => ⟨p, a, b, c.symm⟩, fun ⟨p, a, b, c⟩ => ⟨p, ⟨a, b⟩, c.symm⟩⟩⟩
  have hs' : Solution cfg ⟨ss, [], fun _ => 1⟩ mem t (ss.map fun s => scal (val s)) val := ⟨hs.input, by
    rw [packed_scalars, List.forall₂_map_right_iff, List.forall₂_same]
    intro s hs
    obtain ⟨p, hp, hi, rfl⟩ := (hV.scalars s).1 hs
    exact hst p hp hi, hs.block⟩
  obtain ⟨k1, k2⟩ := h.meets hc hV hs' fun p hp e => by rw [hnd p hp] at e; cases e
  exact ⟨fun s hs => by obtain ⟨z, e⟩ := k1 s hs; rw [e]; rfl, k2⟩

theorem slope_out {s x : SigId} {x0 : ℝ} (h : d.Slope s x0 x) : s ∈ d.signals := by
  obtain ⟨p, hp, _, _, rfl⟩ := h
  exact List.mem_append_left _ (List.mem_map_of_mem hp)

theorem slope_in (hc : d.Closed rank) {s x : SigId} {x0 : ℝ} (h : d.Slope s x0 x) : x ∈ d.signals := by
  obtain ⟨p, hp, _, e, rfl⟩ := h
  exact hc.provided p hp x (by rw [e]; simp)

theorem slope_unique (hc : d.Closed rank) {s x x' : SigId} {x0 x0' : ℝ} (h : d.Slope s x0 x) (h' : d.Slope s x0' x') : x0 = x0' ∧ x = x' := by
  obtain ⟨p, hp, e1, e2, rfl⟩ := h
  obtain ⟨q, hq, f1, f2, f3⟩ := h'
  obtain rfl := Piece.eq_of_out hc hq hp f3
  rw [e1] at f1
  rw [e2] at f2
  cases f1
  cases f2
  exact ⟨rfl, rfl⟩

theorem state_eq (h : cfg.Drawn d ws) (hc : d.Closed rank) (hw : wd.Begins d) {val : SigId → Option (Val ℝ)} (hv : ∀ s ∈ d.signals, val s = some (.scalar (scal (val s)))) (s : SigId) (i : Nat) :
    (∀ x0 x, d.Slope s x0 x → cfg.states val s i = scal (val s) ∧ cfg.slopes val s i = scal (val x)) ∧ ((¬ ∃ x0 x, d.Slope s x0 x) → cfg.states val s i = 0 ∧ cfg.slopes val s i = 0) := by
  unfold Config.states Config.slopes
  constructor
  · intro x0 x hs
    rw [(derived h hc hw).2 ⟨x0, hs⟩]
    simp only [Option.isSome_some, if_true, Option.elim_some]
    rw [hv s (slope_out hs), hv x (slope_in hc hs)]
    exact ⟨rfl, rfl⟩
  · intro hn
    cases e : cfg.deriv s with
    | none => simp
    | some x => obtain ⟨x0, k⟩ := (derived h hc hw).1 e; exact absurd ⟨x0, x, k⟩ hn

theorem kept_eq (h : cfg.Drawn d ws) (hc : d.Closed rank) (hw : wd.Begins d) (s : SigId) (i : Nat) :
    (∀ x0 x, d.Slope s x0 x → cfg.states (cfg.keptVal wd) s i = x0) ∧ ((¬ ∃ x0 x, d.Slope s x0 x) → cfg.states (cfg.keptVal wd) s i = 0) := by
  unfold Config.states
  constructor
  · intro x0 x hs
    have hs' := hs
    rw [(derived h hc hw).2 ⟨x0, hs⟩]
    simp only [Option.isSome_some, if_true]
    obtain ⟨p, hp, e1, e2, rfl⟩ := hs
    obtain ⟨l0, hl0, _, _, hm0⟩ := h.leaf_of hp
    unfold Config.keptVal
    cases hfi : cfg.model.leaves.find? (fun l => decide (l.state = some p.out)) with
    | none =>
      have := List.find?_eq_none.1 hfi l0 hl0
      rw [hm0.state, e1] at this
      simp [Part.isIntegrator] at this
    | some l =>
      have k1 := List.find?_some hfi
      obtain ⟨q, hq, hid, _, hm, _⟩ := h.leaf (List.mem_of_find?_eq_some hfi)
      rw [decide_eq_true_eq, hm.state] at k1
      have : q = p := by
        split at k1
        · exact Piece.eq_of_out hc hq hp (Option.some.inj k1)
        · cases k1
      subst this
      show ((some (wd.mem l.id).value).elim 0 (Val.part i)) = x0
      rw [hid, hw.initial q hp x0 e1]
      rfl
  · intro hn
    cases e : cfg.deriv s with
    | none => simp
    | some x => obtain ⟨x0, k⟩ := (derived h hc hw).1 e; exact absurd ⟨x0, x, k⟩ hn

/-- What the integrators show are numbers. -/
theorem shown_scalar (h : cfg.Drawn d ws) (hc : d.Closed rank) (hw : wd.Begins d) (hnd : ∀ p ∈ d.pieces, p.part.isDelay = false) (hpl : ∀ w ∈ ws, w.obj.Plain)
    (he : ∀ st, cfg.stepper = some st → st ∈ [euler, rk4, rkf45]) {tPrev t0 minH maxH : ℝ} (h0 : 0 < minH) (h1 : minH < maxH) {m0 m : Machine ℝ} {ts : List ℝ}
    (hi : Call.exec cfg (.init t0) { w := wd, s := { tPrev := tPrev } } = .ok () m0) (hts : (t0 :: ts).Pairwise (· < ·)) (hm : RunsTo cfg minH maxH m0 ts m) :
    ∀ s ∈ d.signals, m.w.shown s = some (.scalar (scal (m.w.shown s))) := by
  have hcl := h.closed hc hw
  obtain ⟨m0', V, y0, a1, rfl, a3, a4, a5, a6, a7⟩ := C69_passage cfg ws _ rank hcl hpl he wd (h.new hw) hw.log tPrev t0 minH maxH h0 h1
  rw [hi] at a1
  cases a1
  have hV : C72.Sorted ws _ m0.vars := sorted_of hcl (fun _ => C57.ordered_exact) (h.new hw) hi a3 a4
  obtain ⟨y, hp⟩ := (a7 ts hts).2 m hm
  obtain ⟨mem0, k⟩ := passed hp ⟨_, a6⟩
  exact (solved h hc hw hnd (C93.solves hcl hV k.solution)).1

/-- C97: two drawings whose derivatives differ little. -/
theorem C97_drawings (d d' : Sketch) (rank rank' : BlkId → Nat) (hc : d.Closed rank) (hc' : d'.Closed rank') (hnd : ∀ p ∈ d.pieces, p.part.isDelay = false)
    (hnd' : ∀ p ∈ d'.pieces, p.part.isDelay = false) (hsame : ∀ s, (∃ x0 x, d.Slope s x0 x) ↔ ∃ x0 x, d'.Slope s x0 x) (hex : ∃ s x0 x, d.Slope s x0 x)
    (M : Method) (hM : M ≠ .rkf45) (cfg cfg' : Config ℝ) (hd : cfg.Draws d) (hd' : cfg'.Draws d') (he : cfg.stepper = some M.stepper) (he' : cfg'.stepper = some M.stepper)
    (wd wd' : World ℝ) (hw : wd.Begins d) (hw' : wd'.Begins d') (tPrev tPrev' t0 minH maxH : ℝ) (h0 : 0 < minH) (h1 : minH < maxH) (L ε δ : ℝ) (hL0 : 0 < L) (hε : 0 ≤ ε)
    (hL : d.Alike d' t0 L ε) (hn : ∀ s x0 x x0' x', d.Slope s x0 x → d'.Slope s x0' x' → |x0 - x0'| ≤ δ) :
    ∃ m0 m0' : Machine ℝ, Call.exec cfg (.init t0) { w := wd, s := { tPrev := tPrev } } = .ok () m0 ∧ Call.exec cfg' (.init t0) { w := wd', s := { tPrev := tPrev' } } = .ok () m0' ∧
      ∀ ts : List ℝ, (t0 :: ts).IsChain (· < ·) → (∃ m, RunsTo cfg minH maxH m0 ts m) ∧ (∃ m', RunsTo cfg' minH maxH m0' ts m') ∧
        ∀ m m', RunsTo cfg minH maxH m0 ts m → RunsTo cfg' minH maxH m0' ts m' → ∀ s x0 x, d.Slope s x0 x →
          ∃ a b, m.w.shown s = some (.scalar a) ∧ m'.w.shown s = some (.scalar b) ∧
            |a - b| ≤ δ * Real.exp (L * ((t0 :: ts).getLast (by simp) - t0)) + ε / L * (Real.exp (L * ((t0 :: ts).getLast (by simp) - t0)) - 1) := by
  obtain ⟨ws, hdr⟩ := hd.drawn
  obtain ⟨ws', hdr'⟩ := hd'.drawn
  have hcl := hdr.closed hc hw
  have hcl' := hdr'.closed hc' hw'
  have hpl : ∀ w ∈ ws, w.obj.Plain := fun w hm => by obtain ⟨p, _, e⟩ := hdr.piece w hm; exact Piece.plain e
  have hpl' : ∀ w ∈ ws', w.obj.Plain := fun w hm => by obtain ⟨p, _, e⟩ := hdr'.piece w hm; exact Piece.plain e
  have has : ∀ {d : Sketch} {cfg : Config ℝ} {ws : List (Wire ℝ)}, cfg.Drawn d ws → (∃ s x0 x, d.Slope s x0 x) → ∃ w ∈ ws, w.obj.isState = true := by
    rintro d cfg ws h ⟨s, x0, x, p, hp, e, _⟩
    obtain ⟨w, hm, k⟩ := h.wire p hp
    exact ⟨w, hm, by rw [Piece.isState_eq k, e]; rfl⟩
  have hex' : ∃ s x0 x, d'.Slope s x0 x := by
    obtain ⟨s, k⟩ := hex
    exact ⟨s, (hsame s).1 k⟩
  have hδ : 0 ≤ δ := by
    obtain ⟨s, x0, x, k⟩ := hex
    obtain ⟨x0', x', k'⟩ := (hsame s).1 ⟨x0, x, k⟩
    exact (abs_nonneg _).trans (hn s _ _ _ _ k k')
  have hdep : Departs cfg cfg' (fun s => (wd.sig s).ty) (fun s => (wd'.sig s).ty) (fun _ => True) t0 L ε := by
    intro t val val' δ ht hs hs' _ hnear s i
    have h0δ : 0 ≤ δ := (abs_nonneg _).trans (hnear 0 0)
    obtain ⟨k1, k2⟩ := solved hdr hc hw hnd hs
    obtain ⟨k1', k2'⟩ := solved hdr' hc' hw' hnd' hs'
    by_cases hsl : ∃ x0 x, d.Slope s x0 x
    · obtain ⟨x0, x, hsl⟩ := hsl
      obtain ⟨x0', x', hsl'⟩ := (hsame s).1 ⟨x0, x, hsl⟩
      rw [((state_eq hdr hc hw k1 s i).1 _ _ hsl).2, ((state_eq hdr' hc' hw' k1' s i).1 _ _ hsl').2]
      refine hL t _ _ δ ht h0δ k2 k2' (fun s x0 x hsl => ?_) s _ _ _ _ hsl hsl'
      obtain ⟨x0', x', hsl'⟩ := (hsame s).1 ⟨x0, x, hsl⟩
      have := hnear s 0
      rwa [((state_eq hdr hc hw k1 s 0).1 _ _ hsl).1, ((state_eq hdr' hc' hw' k1' s 0).1 _ _ hsl').1] at this
    · rw [((state_eq hdr hc hw k1 s i).2 hsl).2, ((state_eq hdr' hc' hw' k1' s i).2 fun k => hsl ((hsame s).2 k)).2, sub_zero, abs_zero]
      have := mul_nonneg hL0.le h0δ
      linarith
  have hne : Nearby δ (cfg.states (cfg.keptVal wd)) (cfg'.states (cfg'.keptVal wd')) := by
    intro s i
    by_cases hsl : ∃ x0 x, d.Slope s x0 x
    · obtain ⟨x0, x, hsl⟩ := hsl
      obtain ⟨x0', x', hsl'⟩ := (hsame s).1 ⟨x0, x, hsl⟩
      rw [(kept_eq hdr hc hw s i).1 _ _ hsl, (kept_eq hdr' hc' hw' s i).1 _ _ hsl']
      exact hn s _ _ _ _ hsl hsl'
    · rw [(kept_eq hdr hc hw s i).2 hsl, (kept_eq hdr' hc' hw' s i).2 fun k => hsl ((hsame s).2 k), sub_zero, abs_zero]
      exact hδ
  have hst : ∀ {cfg : Config ℝ}, cfg.stepper = some M.stepper → ∀ st, cfg.stepper = some st → st = M.stepper := fun e st k => by rw [e] at k; exact (Option.some_inj.1 k).symm
  have hst' : ∀ {cfg : Config ℝ}, cfg.stepper = some M.stepper → ∀ st, cfg.stepper = some st → st ∈ [euler, rk4, rkf45] := fun e st k => by rw [hst e st k]; exact C87.method_mem M
  obtain ⟨m0, m0', a1, a2, a3⟩ := C95.C95_exp cfg cfg' ws ws' _ _ rank rank' hcl hcl' hpl hpl' (has hdr hex) (has hdr' hex') wd wd' (hdr.new hw) (hdr'.new hw') hw.log hw'.log tPrev tPrev' t0
    minH maxH h0 h1 M hM (hst he) (hst he') L ε δ hL0 hε hdep hne
  refine ⟨m0, m0', a1, a2, fun ts hts => ⟨(a3 ts hts).1, (a3 ts hts).2.1, fun m m' hm hm' s x0 x hsl => ?_⟩⟩
  obtain ⟨x0', x', hsl'⟩ := (hsame s).1 ⟨x0, x, hsl⟩
  have hlt := List.isChain_iff_pairwise.1 hts
  have q1 := shown_scalar hdr hc hw hnd hpl (hst' he) h0 h1 a1 hlt hm
  have q2 := shown_scalar hdr' hc' hw' hnd' hpl' (hst' he') h0 h1 a2 hlt hm'
  refine ⟨_, _, q1 s (slope_out hsl), q2 s (slope_out hsl'), ?_⟩
  have := (a3 ts hts).2.2 m m' hm hm' s 0
  rwa [((state_eq hdr hc hw q1 s 0).1 _ _ hsl).1, ((state_eq hdr' hc' hw' q2 s 0).1 _ _ hsl').1] at this

/-! ## The pendulum -/

/-- samples/test06_pendulum_with_torque.cpp:37-79,91-101, with the given torque, angle and angular velocity at the beginning: signals as in `C92.pushed`. -/
def driven (τ φ ω : ℝ) : Sketch where
  pieces := [⟨1, .integrator ω, [2], 1⟩, ⟨2, .integrator φ, [1], 0⟩, ⟨3, .func fun _ x => Real.sin x, [0], 7⟩, ⟨4, .multiply 1, [7, 5], 8⟩, ⟨5, .divide, [8, 6], 9⟩,
    ⟨6, .multiply 1, [4, 6, 6], 10⟩, ⟨7, .divide, [3, 10], 11⟩, ⟨8, .subtract, [11, 9], 2⟩]
  inputs := [(4, fun _ => 0.2), (6, fun _ => 0.1), (5, fun _ => 9.81), (3, fun _ => τ)]

/-- The sample. -/
example (φ ω : ℝ) : driven 0.13 φ ω = C92.pushed φ ω := rfl

theorem driven_closed (τ φ ω : ℝ) : (driven τ φ ω).Closed (fun b => b) where
  ids := by simp [driven]
  once := by simp [driven]
  provided := by simp [driven]
  used := by simp [driven]
  loops := by simp [driven, Part.isIntegrator]

theorem driven_slope {τ φ ω x0 : ℝ} {s x : SigId} : (driven τ φ ω).Slope s x0 x ↔ (s = 0 ∧ x0 = φ ∧ x = 1) ∨ (s = 1 ∧ x0 = ω ∧ x = 2) := by
  constructor
  · rintro ⟨p, hp, e1, e2, rfl⟩
    simp only [driven, List.mem_cons, List.not_mem_nil, or_false] at hp
    rcases hp with rfl | rfl | rfl | rfl | rfl | rfl | rfl | rfl <;> cases e1 <;> cases e2 <;> simp
  · rintro (⟨rfl, rfl, rfl⟩ | ⟨rfl, rfl, rfl⟩)
    · exact ⟨⟨2, .integrator x0, [1], 0⟩, by simp [driven], rfl, rfl, rfl⟩
    · exact ⟨⟨1, .integrator x0, [2], 1⟩, by simp [driven], rfl, rfl, rfl⟩

theorem driven_force {τ φ ω t : ℝ} {X : SigId → ℝ} (h : (driven τ φ ω).Meets t X) : X 2 = 500 * τ - 98.1 * Real.sin (X 0) := by
  obtain ⟨h1, h2⟩ := h
  simp [driven, Piece.Holds] at h1 h2
  obtain ⟨b1, b2, b3, b4, b5, b6⟩ := h1
  obtain ⟨c1, c2, c3, c4⟩ := h2
  rw [b6, b5, b3, b4, b2, b1, c1, c2, c3, c4]
  ring

/-- The slope of the sine. -/
theorem sin_near (x y : ℝ) : |Real.sin x - Real.sin y| ≤ |x - y| := by
  rw [Real.sin_sub_sin, abs_mul, abs_mul, abs_two]
  have h1 : |Real.sin ((x - y) / 2)| ≤ |(x - y) / 2| := Real.abs_sin_le_abs
  have h2 := Real.abs_cos_le_one ((x + y) / 2)
  rw [abs_div, abs_two] at h1
  have := mul_le_mul h1 h2 (abs_nonneg _) (by positivity)
  linarith

theorem driven_alike (τ φ ω τ' φ' ω' t0 : ℝ) : (driven τ φ ω).Alike (driven τ' φ' ω') t0 98.1 (500 * |τ - τ'|) := by
  intro t X X' δ _ hδ h h' hn s x0 x x0' x' hs hs'
  have n0 := hn 0 _ _ (driven_slope.2 (.inl ⟨rfl, rfl, rfl⟩))
  have n1 := hn 1 _ _ (driven_slope.2 (.inr ⟨rfl, rfl, rfl⟩))
  have hp := abs_nonneg (τ - τ')
  rcases driven_slope.1 hs with ⟨rfl, rfl, rfl⟩ | ⟨rfl, rfl, rfl⟩ <;> rcases driven_slope.1 hs' with ⟨e, rfl, rfl⟩ | ⟨e, rfl, rfl⟩
  · linarith
  · exact absurd e (by decide)
  · exact absurd e (by decide)
  · rw [driven_force h, driven_force h']
    have e1 : 500 * τ - 98.1 * Real.sin (X 0) - (500 * τ' - 98.1 * Real.sin (X' 0)) = 500 * (τ - τ') - 98.1 * (Real.sin (X 0) - Real.sin (X' 0)) := by ring
    rw [e1]
    refine (abs_sub _ _).trans ?_
    rw [abs_mul, abs_mul, abs_of_nonneg (by norm_num : (0 : ℝ) ≤ 500), abs_of_nonneg (by norm_num : (0 : ℝ) ≤ 98.1)]
    have := (sin_near (X 0) (X' 0)).trans n0
    linarith

/-- C97, the pendulum of the sample: angle and angular velocity of two simulations with Euler or Rk4 that begin with a difference of at most `δ` and with the torques `τ` and `τ'` differ at the
time `t` by at most `δ e^(98.1 (t - t0)) + 500 |τ - τ'| / 98.1 (e^(98.1 (t - t0)) - 1)`. -/
theorem C97_pendulum (τ φ ω τ' φ' ω' δ : ℝ) (hφ : |φ - φ'| ≤ δ) (hω : |ω - ω'| ≤ δ) (M : Method) (hM : M ≠ .rkf45) (cfg cfg' : Config ℝ) (hd : cfg.Draws (driven τ φ ω))
    (hd' : cfg'.Draws (driven τ' φ' ω')) (he : cfg.stepper = some M.stepper) (he' : cfg'.stepper = some M.stepper) (wd wd' : World ℝ) (hw : wd.Begins (driven τ φ ω))
    (hw' : wd'.Begins (driven τ' φ' ω')) (tPrev tPrev' t0 minH maxH : ℝ) (h0 : 0 < minH) (h1 : minH < maxH) :
    ∃ m0 m0' : Machine ℝ, Call.exec cfg (.init t0) { w := wd, s := { tPrev := tPrev } } = .ok () m0 ∧ Call.exec cfg' (.init t0) { w := wd', s := { tPrev := tPrev' } } = .ok () m0' ∧
      ∀ ts : List ℝ, (t0 :: ts).IsChain (· < ·) → (∃ m, RunsTo cfg minH maxH m0 ts m) ∧ (∃ m', RunsTo cfg' minH maxH m0' ts m') ∧
        ∀ m m', RunsTo cfg minH maxH m0 ts m → RunsTo cfg' minH maxH m0' ts m' → ∀ s ∈ [0, 1], ∃ a b, m.w.shown s = some (.scalar a) ∧ m'.w.shown s = some (.scalar b) ∧
          |a - b| ≤ δ * Real.exp (98.1 * ((t0 :: ts).getLast (by simp) - t0)) + 500 * |τ - τ'| / 98.1 * (Real.exp (98.1 * ((t0 :: ts).getLast (by simp) - t0)) - 1) := by
  have hnd : ∀ τ φ ω, ∀ p ∈ (driven τ φ ω).pieces, p.part.isDelay = false := by simp [driven, Part.isDelay]
  obtain ⟨m0, m0', a1, a2, a3⟩ := C97_drawings _ _ _ _ (driven_closed τ φ ω) (driven_closed τ' φ' ω') (hnd _ _ _) (hnd _ _ _) (fun s => by simp only [driven_slope]; constructor <;>
      (rintro ⟨x0, x, ⟨k, _⟩ | ⟨k, _⟩⟩; exacts [⟨_, _, .inl ⟨k, rfl, rfl⟩⟩, ⟨_, _, .inr ⟨k, rfl, rfl⟩⟩])) ⟨0, φ, 1, driven_slope.2 (.inl ⟨rfl, rfl, rfl⟩)⟩ M hM cfg cfg' hd hd' he he' wd wd' hw hw' tPrev tPrev' t0
    minH maxH h0 h1 98.1 (500 * |τ - τ'|) δ (by norm_num) (by positivity) (driven_alike τ φ ω τ' φ' ω' t0) (fun s x0 x x0' x' hs hs' => by
      rcases driven_slope.1 hs with ⟨rfl, rfl, rfl⟩ | ⟨rfl, rfl, rfl⟩ <;> rcases driven_slope.1 hs' with ⟨e, rfl, rfl⟩ | ⟨e, rfl, rfl⟩
      · exact hφ
      · exact absurd e (by decide)
      · exact absurd e (by decide)
      · exact hω)
  refine ⟨m0, m0', a1, a2, fun ts hts => ⟨(a3 ts hts).1, (a3 ts hts).2.1, fun m m' hm hm' s hs => ?_⟩⟩
  simp only [List.mem_cons, List.not_mem_nil, or_false] at hs
  rcases hs with rfl | rfl
  · exact (a3 ts hts).2.2 m m' hm hm' 0 _ _ (driven_slope.2 (.inl ⟨rfl, rfl, rfl⟩))
  · exact (a3 ts hts).2.2 m m' hm hm' 1 _ _ (driven_slope.2 (.inr ⟨rfl, rfl, rfl⟩))

/-- Such programs can be built. -/
example (k : Strategy) (M : Method) (τ φ ω : ℝ) : ∃ (cfg : Config ℝ) (wd : World ℝ), cfg.Draws (driven τ φ ω) ∧ wd.Begins (driven τ φ ω) ∧ cfg.strategy = k ∧ cfg.stepper = some M.stepper := by
  obtain ⟨⟨cfg, h1, h2, h3⟩, wd, hw⟩ := C66.C66_buildable (driven τ φ ω) _ (driven_closed τ φ ω) (by simp [driven, Piece.Fits]) k (some M.stepper)
    (.inr ⟨_, C87.method_mem M, rfl⟩) (fun _ => ⟨⟨1, .integrator ω, [2], 1⟩, by simp [driven], rfl⟩)
  exact ⟨cfg, wd, h1, hw, h2, h3⟩

end
end Pooya.C97
