import Verif.Spec.Pursue
import Verif.Props.C97
import Verif.Props.C99

/-!
# C100 — a simulation follows a moving target

Full statement: let following the derivatives of a diagram for the time `g` bring states that are at most `δ` away from a target `r t` to at most `(1 - μ g) δ + g ε` away from it, and let the target
move with a speed of at most `ν`.  Then in a simulation with Euler with gaps of at most `g` and `μ g ≤ 1`, the states are after every call of `run` for a time `t` at most
`δ / (1 + μ (t - t0)) + (ε + ν) / μ` away from `r t`, where `δ` is the distance at the beginning.

Proved: `C100_follows`, for all closed diagrams without TriggeredIntegrators, with scalars and arrays, in exact arithmetic over any Archimedean ordered field; `C100_drawing`: for drawings without
Delays; `C100_lag`: the output of an Integrator with the input `k (u - x)` follows `u`, at most the speed of `u` divided by `k` behind.
-/

namespace Pooya.C100

open Pooya C60 C69 C72 Within C94 C95 C99

set_option linter.unusedSectionVars false

section
variable {F : Type} [_root_.Field F] [LinearOrder F] [IsStrictOrderedRing F] [Archimedean F]
attribute [local instance] Arith.exact
variable {cfg : Config F} {ty : SigId → Ty} {t0 g μ ε ν : F} {r : F → SigId → Nat → F}

theorem walk_follows (hμ : 0 < μ) (hP : cfg.Pursues ty r t0 g μ ε) (hr : ∀ t u, t0 ≤ t → t < u → Nearby (ν * (u - t)) (r u) (r t)) {t : F} {ts : List F} {z z' : SigId → Nat → F}
    (h1 : Walk cfg ty .euler t z ts z') : ∀ {δ : F}, t0 ≤ t → (∀ h : (t :: ts).IsChain (fun s u => s < u ∧ u - s ≤ g), Nearby δ z (r t) →
      Nearby (faded μ t ts * δ + (1 - faded μ t ts) * ((ε + ν) / μ)) z' (r ((t :: ts).getLast (by simp)))) := by
  induction h1 with
  | nil =>
    intro δ _ _ hn
    simpa [faded] using hn
  | cons k1 _ ih =>
    intro δ ht hts hn
    obtain ⟨⟨g1, g2⟩, g3⟩ := List.isChain_cons_cons.1 hts
    obtain ⟨v, a1, rfl, rfl⟩ := k1
    rename_i t u _ us _
    have hg : 0 < g := (sub_pos.2 g1).trans_le g2
    have key : Nearby ((1 - μ * (u - t)) * δ + (u - t) * (ε + ν)) (fun s i => cfg.states v s i + (u - t) * cfg.slopes v s i) (r u) := by
      intro s i
      have c1 := hn s i
      have c2 := hP t v δ ht a1 hn s i
      have c3 := hr t u ht g1 s i
      have hθ : 0 ≤ (u - t) / g ∧ (u - t) / g ≤ 1 := ⟨div_nonneg (sub_nonneg.2 g1.le) hg.le, (div_le_one hg).2 g2⟩
      have e : cfg.states v s i + (u - t) * cfg.slopes v s i - r u s i =
          (1 - (u - t) / g) * (cfg.states v s i - r t s i) + (u - t) / g * (cfg.states v s i + g * cfg.slopes v s i - r t s i) - (r u s i - r t s i) := by
        field_simp
        ring
      have e2 : (1 - μ * (u - t)) * δ + (u - t) * (ε + ν) = (1 - (u - t) / g) * δ + (u - t) / g * ((1 - μ * g) * δ + g * ε) + ν * (u - t) := by
        field_simp
        ring
      rw [e, e2]
      refine (abs_sub _ _).trans (add_le_add ((abs_add_le _ _).trans ?_) c3)
      rw [abs_mul, abs_mul, abs_of_nonneg hθ.1, abs_of_nonneg (sub_nonneg.2 hθ.2)]
      exact add_le_add (mul_le_mul_of_nonneg_left c1 (sub_nonneg.2 hθ.2)) (mul_le_mul_of_nonneg_left c2 hθ.1)
    have := ih (ht.trans g1.le) g3 key
    have e : faded μ t (u :: us) * δ + (1 - faded μ t (u :: us)) * ((ε + ν) / μ) =
        faded μ u us * ((1 - μ * (u - t)) * δ + (u - t) * (ε + ν)) + (1 - faded μ u us) * ((ε + ν) / μ) := by
      simp only [faded]
      field_simp
      ring
    rw [e, List.getLast_cons (by simp)]
    exact this

/-- C100: the states of a simulated diagram follow the target. -/
theorem C100_follows (cfg : Config F) (ps : List (Wire F)) (ty : SigId → Ty) (rank : BlkId → Nat) (h : cfg.Sealed ps ty rank) (hpl : ∀ p ∈ ps, p.obj.Plain)
    (hex : ∃ p ∈ ps, p.obj.isState = true) (he : ∀ st, cfg.stepper = some st → st = euler) (w : World F) (hw : w.New cfg ty) (hlog : w.log = []) (tPrev t0 minH maxH : F)
    (h0 : 0 < minH) (h1 : minH < maxH) (g μ ε ν δ : F) (hμ : 0 < μ) (hg : μ * g ≤ 1) (hε : 0 ≤ ε + ν) (r : F → SigId → Nat → F) (hP : cfg.Pursues ty r t0 g μ ε)
    (hr : ∀ t u, t0 ≤ t → t < u → Nearby (ν * (u - t)) (r u) (r t)) (hn : Nearby δ (cfg.states (cfg.keptVal w)) (r t0)) :
    ∃ m0 : Machine F, Call.exec cfg (.init t0) { w := w, s := { tPrev := tPrev } } = .ok () m0 ∧
      ∀ ts : List F, (t0 :: ts).IsChain (fun s u => s < u ∧ u - s ≤ g) → (∃ m, RunsTo cfg minH maxH m0 ts m) ∧ ∀ m, RunsTo cfg minH maxH m0 ts m →
        Nearby (δ / (1 + μ * ((t0 :: ts).getLast (by simp) - t0)) + (ε + ν) / μ) (cfg.states m.w.shown) (r ((t0 :: ts).getLast (by simp))) := by
  obtain ⟨m0, a1, a2⟩ := simulates (M := .euler) h hpl hex (by simp) he hw hlog tPrev t0 minH maxH h0 h1
  refine ⟨m0, a1, fun ts hts => ?_⟩
  have hlt : (t0 :: ts).IsChain (· < ·) := hts.imp fun _ _ k => k.1
  refine ⟨(a2 ts hlt).1, fun m hm s i => (walk_follows hμ hP hr ((a2 ts hlt).2 m hm) le_rfl hts hn s i).trans ?_⟩
  have hδ : 0 ≤ δ := (abs_nonneg _).trans (hn 0 0)
  have hp := faded_pos hμ hg hts
  have hle := faded_le hμ hg hts
  have hX : 0 < 1 + μ * ((t0 :: ts).getLast (by simp) - t0) := by linarith [mul_nonneg hμ.le (sub_nonneg.2 (last_le hts))]
  refine add_le_add ?_ ?_
  · rw [le_div_iff₀ hX]
    nlinarith [mul_le_mul_of_nonneg_right hle hδ]
  · exact mul_le_of_le_one_left (div_nonneg hε hμ.le) (by linarith)

end

/-! ## Drawings -/

noncomputable section
attribute [local instance] Arith.exact

/-- C100: the Integrators of a simulated drawing follow their targets. -/
theorem C100_drawing (d : Sketch) (rank : BlkId → Nat) (hc : d.Closed rank) (hnd : ∀ p ∈ d.pieces, p.part.isDelay = false) (hex : ∃ s x0 x, d.Slope s x0 x) (cfg : Config ℝ)
    (hd : cfg.Draws d) (he : cfg.stepper = some euler) (wd : World ℝ) (hw : wd.Begins d) (tPrev t0 minH maxH : ℝ) (h0 : 0 < minH) (h1 : minH < maxH) (g μ ε ν δ : ℝ) (hg0 : 0 < g) (hμ : 0 < μ)
    (hg : μ * g ≤ 1) (hε : 0 ≤ ε) (hν : 0 ≤ ν) (r : ℝ → SigId → ℝ) (hP : d.Pursues r t0 g μ ε) (hr : ∀ t u s, t0 ≤ t → t < u → |r u s - r t s| ≤ ν * (u - t))
    (hn : ∀ s x0 x, d.Slope s x0 x → |x0 - r t0 s| ≤ δ) :
    ∃ m0 : Machine ℝ, Call.exec cfg (.init t0) { w := wd, s := { tPrev := tPrev } } = .ok () m0 ∧
      ∀ ts : List ℝ, (t0 :: ts).IsChain (fun s u => s < u ∧ u - s ≤ g) → (∃ m, RunsTo cfg minH maxH m0 ts m) ∧ ∀ m, RunsTo cfg minH maxH m0 ts m → ∀ s x0 x, d.Slope s x0 x →
        ∃ a, m.w.shown s = some (.scalar a) ∧
          |a - r ((t0 :: ts).getLast (by simp)) s| ≤ δ / (1 + μ * ((t0 :: ts).getLast (by simp) - t0)) + (ε + ν) / μ := by
  classical
  obtain ⟨ws, hdr⟩ := hd.drawn
  have hcl := hdr.closed hc hw
  have hpl : ∀ w ∈ ws, w.obj.Plain := fun w hm => by obtain ⟨p, _, e⟩ := hdr.piece w hm; exact Piece.plain e
  have has : ∃ w ∈ ws, w.obj.isState = true := by
    obtain ⟨s, x0, x, p, hp, e, _⟩ := hex
    obtain ⟨w, hm, k⟩ := hdr.wire p hp
    exact ⟨w, hm, by rw [Piece.isState_eq k, e]; rfl⟩
  have hδ : 0 ≤ δ := by
    obtain ⟨s, x0, x, k⟩ := hex
    exact (abs_nonneg _).trans (hn s _ _ k)
  let R : ℝ → SigId → Nat → ℝ := fun t s _ => if ∃ x0 x, d.Slope s x0 x then r t s else 0
  have R1 : ∀ t s i x0 x, d.Slope s x0 x → R t s i = r t s := fun _ _ _ _ _ k => if_pos ⟨_, _, k⟩
  have R2 : ∀ t s i, (¬ ∃ x0 x, d.Slope s x0 x) → R t s i = 0 := fun _ _ _ k => if_neg k
  have hP' : cfg.Pursues (fun s => (wd.sig s).ty) R t0 g μ ε := by
    intro t val δ ht hs hnear s i
    have h0δ : 0 ≤ δ := (abs_nonneg _).trans (hnear 0 0)
    obtain ⟨k1, k2⟩ := C97.solved hdr hc hw hnd hs
    show |cfg.states val s i + g * cfg.slopes val s i - R t s i| ≤ _
    by_cases hsl : ∃ x0 x, d.Slope s x0 x
    · obtain ⟨x0, x, hsl⟩ := hsl
      rw [((C97.state_eq hdr hc hw k1 s i).1 _ _ hsl).1, ((C97.state_eq hdr hc hw k1 s i).1 _ _ hsl).2, R1 t s i _ _ hsl]
      refine hP t _ δ ht h0δ k2 (fun s x0 x hsl => ?_) s _ _ hsl
      have := hnear s 0
      rwa [((C97.state_eq hdr hc hw k1 s 0).1 _ _ hsl).1, R1 t s 0 _ _ hsl] at this
    · rw [((C97.state_eq hdr hc hw k1 s i).2 hsl).1, ((C97.state_eq hdr hc hw k1 s i).2 hsl).2, R2 t s i hsl]
      simp only [mul_zero, add_zero, sub_zero, abs_zero]
      exact add_nonneg (mul_nonneg (by linarith) h0δ) (mul_nonneg hg0.le hε)
  have hr' : ∀ t u, t0 ≤ t → t < u → Nearby (ν * (u - t)) (R u) (R t) := fun t u ht hu s i => by
    by_cases hsl : ∃ x0 x, d.Slope s x0 x
    · obtain ⟨x0, x, hsl⟩ := hsl
      rw [R1 u s i _ _ hsl, R1 t s i _ _ hsl]
      exact hr t u s ht hu
    · rw [R2 u s i hsl, R2 t s i hsl, sub_zero, abs_zero]
      exact mul_nonneg hν (sub_nonneg.2 hu.le)
  have hne : Nearby δ (cfg.states (cfg.keptVal wd)) (R t0) := fun s i => by
    by_cases hsl : ∃ x0 x, d.Slope s x0 x
    · obtain ⟨x0, x, hsl⟩ := hsl
      rw [(C97.kept_eq hdr hc hw s i).1 _ _ hsl, R1 t0 s i _ _ hsl]
      exact hn s _ _ hsl
    · rw [(C97.kept_eq hdr hc hw s i).2 hsl, R2 t0 s i hsl, sub_zero, abs_zero]
      exact hδ
  have hst : ∀ st, cfg.stepper = some st → st = euler := fun st k => by rw [he] at k; exact (Option.some_inj.1 k).symm
  obtain ⟨m0, a1, a2⟩ := C100_follows cfg ws _ rank hcl hpl has hst wd (hdr.new hw) hw.log tPrev t0 minH maxH h0 h1 g μ ε ν δ hμ hg (add_nonneg hε hν) R hP' hr' hne
  refine ⟨m0, a1, fun ts hts => ⟨(a2 ts hts).1, fun m hm s x0 x hsl => ?_⟩⟩
  have hlt := List.isChain_iff_pairwise.1 (hts.imp fun _ _ k => k.1 : (t0 :: ts).IsChain (· < ·))
  have q := C97.shown_scalar hdr hc hw hnd hpl (fun st k => by rw [hst st k]; simp) h0 h1 a1 hlt hm
  refine ⟨_, q s (C97.slope_out hsl), ?_⟩
  have := (a2 ts hts).2 m hm s 0
  rwa [((C97.state_eq hdr hc hw q s 0).1 _ _ hsl).1, R1 _ s 0 _ _ hsl] at this

/-! ## Example: a lag -/

/-- An Integrator with output `x` (signal 0) and input `k (u - x)`: signal 1 is `u`, signal 2 is `k`. -/
def lag (k : ℝ) (u : ℝ → ℝ) (a : ℝ) : Sketch where
  pieces := [⟨1, .integrator a, [4], 0⟩, ⟨2, .subtract, [1, 0], 3⟩, ⟨3, .multiply 1, [2, 3], 4⟩]
  inputs := [(1, u), (2, fun _ => k)]

theorem lag_closed (k : ℝ) (u : ℝ → ℝ) (a : ℝ) : (lag k u a).Closed (fun b => b) where
  ids := by simp [lag]
  once := by simp [lag]
  provided := by simp [lag]
  used := by simp [lag]
  loops := by simp [lag, Part.isIntegrator]

theorem lag_slope {k a x0 : ℝ} {u : ℝ → ℝ} {s x : SigId} : (lag k u a).Slope s x0 x ↔ s = 0 ∧ x0 = a ∧ x = 4 := by
  constructor
  · rintro ⟨p, hp, e1, e2, rfl⟩
    simp only [lag, List.mem_cons, List.not_mem_nil, or_false] at hp
    rcases hp with rfl | rfl | rfl <;> cases e1 <;> cases e2 <;> simp
  · rintro ⟨rfl, rfl, rfl⟩
    exact ⟨⟨1, .integrator x0, [4], 0⟩, by simp [lag], rfl, rfl, rfl⟩

theorem lag_pursues {k g : ℝ} (hg : k * g ≤ 1) (u : ℝ → ℝ) (a t0 : ℝ) : (lag k u a).Pursues (fun t _ => u t) t0 g k 0 := by
  intro t X δ _ _ hX hn s x0 x hs
  have n0 := hn 0 _ _ (lag_slope.2 ⟨rfl, rfl, rfl⟩)
  obtain ⟨rfl, rfl, rfl⟩ := lag_slope.1 hs
  obtain ⟨h1, h2⟩ := hX
  simp [lag, Piece.Holds] at h1 h2
  obtain ⟨b1, b2⟩ := h1
  obtain ⟨c1, c2⟩ := h2
  have e : X 0 + g * X 4 - u t = (1 - k * g) * (X 0 - u t) := by
    rw [b2, b1, c1, c2]
    ring
  rw [e, abs_mul, abs_of_nonneg (by linarith : 0 ≤ 1 - k * g), mul_zero, add_zero]
  exact mul_le_mul_of_nonneg_left n0 (by linarith)

/-- C100: an Integrator with the input `k (u - x)` follows `u`: at the time `t` it is at most `|a - u t0| / (1 + k (t - t0)) + ν / k` away from `u t`, where `ν` is the greatest speed of `u`, if it is simulated
with Euler with gaps of at most `1 / k`. -/
theorem C100_lag (k ν a : ℝ) (hk : 0 < k) (hν : 0 ≤ ν) (u : ℝ → ℝ) (hu : ∀ s t, s < t → |u t - u s| ≤ ν * (t - s)) (cfg : Config ℝ) (hd : cfg.Draws (lag k u a))
    (he : cfg.stepper = some euler) (wd : World ℝ) (hw : wd.Begins (lag k u a)) (tPrev t0 minH maxH : ℝ) (h0 : 0 < minH) (h1 : minH < maxH) :
    ∃ m0 : Machine ℝ, Call.exec cfg (.init t0) { w := wd, s := { tPrev := tPrev } } = .ok () m0 ∧
      ∀ ts : List ℝ, (t0 :: ts).IsChain (fun s u => s < u ∧ u - s ≤ 1 / k) → (∃ m, RunsTo cfg minH maxH m0 ts m) ∧ ∀ m, RunsTo cfg minH maxH m0 ts m →
        ∃ x, m.w.shown 0 = some (.scalar x) ∧ |x - u ((t0 :: ts).getLast (by simp))| ≤ |a - u t0| / (1 + k * ((t0 :: ts).getLast (by simp) - t0)) + ν / k := by
  have hg : k * (1 / k) ≤ 1 := by rw [mul_one_div_cancel hk.ne']
  obtain ⟨m0, a1, a2⟩ := C100_drawing (lag k u a) _ (lag_closed k u a) (by simp [lag, Part.isDelay]) ⟨0, a, 4, lag_slope.2 ⟨rfl, rfl, rfl⟩⟩ cfg hd he wd hw tPrev t0 minH maxH h0 h1
    (1 / k) k 0 ν |a - u t0| (by positivity) hk hg le_rfl hν (fun t _ => u t) (lag_pursues hg u a t0) (fun t v _ _ h => hu t v h) (fun s x0 x hs => by
      obtain ⟨rfl, rfl, rfl⟩ := lag_slope.1 hs
      exact le_rfl)
  refine ⟨m0, a1, fun ts hts => ⟨(a2 ts hts).1, fun m hm => ?_⟩⟩
  have := (a2 ts hts).2 m hm 0 _ _ (lag_slope.2 ⟨rfl, rfl, rfl⟩)
  simpa only [zero_add] using this

/-- Such programs can be built; the sine moves with a speed of at most 1. -/
example (st : Strategy) (k a : ℝ) : (∃ (cfg : Config ℝ) (wd : World ℝ), cfg.Draws (lag k Real.sin a) ∧ wd.Begins (lag k Real.sin a) ∧ cfg.strategy = st ∧ cfg.stepper = some euler) ∧
    ∀ s t : ℝ, s < t → |Real.sin t - Real.sin s| ≤ 1 * (t - s) := by
  refine ⟨?_, fun s t h => ?_⟩
  · obtain ⟨⟨cfg, h1, h2, h3⟩, wd, hw⟩ := C66.C66_buildable (lag k Real.sin a) _ (lag_closed k Real.sin a) (by simp [lag, Piece.Fits]) st (some euler)
      (.inr ⟨_, by simp, rfl⟩) (fun _ => ⟨⟨1, .integrator a, [4], 0⟩, by simp [lag], rfl⟩)
    exact ⟨cfg, wd, h1, hw, h2, h3⟩
  · rw [one_mul, ← abs_of_pos (sub_pos.2 h)]
    exact C97.sin_near t s

end
end Pooya.C100
