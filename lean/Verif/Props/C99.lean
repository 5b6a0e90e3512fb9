import Verif.Spec.Forget
import Verif.Props.C95

/-!
# C99 — initial values are forgotten

Full statement: let two diagrams (or one) be such that states that differ by at most `δ` differ by at most `(1 - μ g) δ + g ε` after following their derivatives for the time `g`.  Then two
simulations with Euler, asked for the same times with gaps of at most `g`, differ after every call of `run` by at most `p δ + (1 - p) ε / μ`, where `p` is the product of `1 - μ h` over all gaps
`h`.  This `p` is at most `1 / (1 + μ (t - t0))`: at late times the initial values do not matter, and a difference of at most `ε` in the derivatives makes a difference of little more than `ε / μ`
in the states, however long the simulation is.

Proved: `C99_fades`, `C99_forgets`, for all pairs of closed diagrams without TriggeredIntegrators, with scalars and arrays, in exact arithmetic; `C99_decay` for `x' = - x`; `C99_steps`: with larger gaps it is false.
-/

namespace Pooya.C99

open Pooya C60 C69 C72 Within C94 C95

set_option linter.unusedSectionVars false

section
variable {F : Type} [_root_.Field F] [LinearOrder F] [IsStrictOrderedRing F] [Archimedean F]
attribute [local instance] Arith.exact
variable {cfg cfg' : Config F} {ty ty' : SigId → Ty} {t0 g μ ε : F}

theorem walk_fades (hμ : 0 < μ) (hL : Forgets cfg cfg' ty ty' t0 g μ ε) {t : F} {ts : List F} {z z' : SigId → Nat → F} (h1 : Walk cfg ty .euler t z ts z') :
    ∀ {δ : F} {y y' : SigId → Nat → F}, Walk cfg' ty' .euler t y ts y' → t0 ≤ t → (t :: ts).IsChain (fun s u => s < u ∧ u - s ≤ g) → Nearby δ z y →
      Nearby (faded μ t ts * δ + (1 - faded μ t ts) * (ε / μ)) z' y' := by
  induction h1 with
  | nil =>
    intro δ y y' h2 _ _ hn
    cases h2
    simpa [faded] using hn
  | cons k1 _ ih =>
    intro δ y y' h2 ht hts hn
    cases h2 with
    | cons j1 j2 =>
      obtain ⟨⟨g1, g2⟩, g3⟩ := List.isChain_cons_cons.1 hts
      obtain ⟨v, a1, rfl, rfl⟩ := k1
      obtain ⟨w, b1, rfl, rfl⟩ := j1
      rename_i t u _ us _
      have hg : 0 < g := (sub_pos.2 g1).trans_le g2
      have key : Nearby ((1 - μ * (u - t)) * δ + (u - t) * ε) (fun s i => cfg.states v s i + (u - t) * cfg.slopes v s i) (fun s i => cfg'.states w s i + (u - t) * cfg'.slopes w s i) := by
        intro s i
        have c1 := hn s i
        have c2 := hL t v w δ ht a1 b1 hn s i
        have hθ : 0 ≤ (u - t) / g ∧ (u - t) / g ≤ 1 := ⟨div_nonneg (sub_nonneg.2 g1.le) hg.le, (div_le_one hg).2 g2⟩
        have e : cfg.states v s i + (u - t) * cfg.slopes v s i - (cfg'.states w s i + (u - t) * cfg'.slopes w s i) =
            (1 - (u - t) / g) * (cfg.states v s i - cfg'.states w s i) + (u - t) / g * (cfg.states v s i + g * cfg.slopes v s i - (cfg'.states w s i + g * cfg'.slopes w s i)) := by
          field_simp
          ring
        have e2 : (1 - μ * (u - t)) * δ + (u - t) * ε = (1 - (u - t) / g) * δ + (u - t) / g * ((1 - μ * g) * δ + g * ε) := by
          field_simp
          ring
        rw [e, e2]
        refine (abs_add_le _ _).trans ?_
        rw [abs_mul, abs_mul, abs_of_nonneg hθ.1, abs_of_nonneg (sub_nonneg.2 hθ.2)]
        exact add_le_add (mul_le_mul_of_nonneg_left c1 (sub_nonneg.2 hθ.2)) (mul_le_mul_of_nonneg_left c2 hθ.1)
      have := ih j2 (ht.trans g1.le) g3 key
      have e : faded μ t (u :: us) * δ + (1 - faded μ t (u :: us)) * (ε / μ) = faded μ u us * ((1 - μ * (u - t)) * δ + (u - t) * ε) + (1 - faded μ u us) * (ε / μ) := by
        simp only [faded]
        field_simp
        ring
      rw [e]
      exact this

theorem faded_pos (hμ : 0 < μ) (hg : μ * g ≤ 1) : ∀ {ts : List F} {t : F}, (t :: ts).IsChain (fun s u => s < u ∧ u - s ≤ g) → 0 ≤ faded μ t ts
  | [], _, _ => zero_le_one
  | u :: ts, t, h => by
    obtain ⟨⟨_, g2⟩, g3⟩ := List.isChain_cons_cons.1 h
    exact mul_nonneg (by nlinarith [mul_le_mul_of_nonneg_left g2 hμ.le]) (faded_pos hμ hg g3)

theorem last_le : ∀ {ts : List F} {t : F}, (t :: ts).IsChain (fun s u => s < u ∧ u - s ≤ g) → t ≤ (t :: ts).getLast (by simp)
  | [], _, _ => le_rfl
  | u :: ts, t, h => by
    obtain ⟨⟨g1, _⟩, g3⟩ := List.isChain_cons_cons.1 h
    rw [List.getLast_cons (by simp)]
    exact g1.le.trans (last_le g3)

theorem faded_le (hμ : 0 < μ) (hg : μ * g ≤ 1) : ∀ {ts : List F} {t : F}, (t :: ts).IsChain (fun s u => s < u ∧ u - s ≤ g) →
    faded μ t ts * (1 + μ * ((t :: ts).getLast (by simp) - t)) ≤ 1
  | [], _, _ => by simp [faded]
  | u :: ts, t, h => by
    obtain ⟨⟨g1, g2⟩, g3⟩ := List.isChain_cons_cons.1 h
    rw [List.getLast_cons (by simp)]
    have ih := faded_le hμ hg g3
    have hp := faded_pos hμ hg g3
    have hl := last_le g3
    generalize (u :: ts).getLast (by simp) = e at ih hl
    simp only [faded]
    have hX : 0 ≤ μ * (e - u) := mul_nonneg hμ.le (sub_nonneg.2 hl)
    have hh : 0 ≤ μ * (u - t) := mul_nonneg hμ.le (sub_nonneg.2 g1.le)
    have : (1 - μ * (u - t)) * (1 + μ * (e - t)) ≤ 1 + μ * (e - u) := by
      have e1 : μ * (e - t) = μ * (u - t) + μ * (e - u) := by ring
      rw [e1]
      nlinarith [mul_nonneg hh hh, mul_nonneg hh hX]
    calc (1 - μ * (u - t)) * faded μ u ts * (1 + μ * (e - t)) = faded μ u ts * ((1 - μ * (u - t)) * (1 + μ * (e - t))) := by ring
      _ ≤ faded μ u ts * (1 + μ * (e - u)) := mul_le_mul_of_nonneg_left this hp
      _ ≤ 1 := ih

variable (cfg cfg') (ps ps' : List (Wire F)) (ty ty') (rank rank' : BlkId → Nat) (h : cfg.Sealed ps ty rank) (h' : cfg'.Sealed ps' ty' rank') (hpl : ∀ p ∈ ps, p.obj.Plain)
  (hpl' : ∀ p ∈ ps', p.obj.Plain) (hex : ∃ p ∈ ps, p.obj.isState = true) (hex' : ∃ p ∈ ps', p.obj.isState = true) (w w' : World F) (hw : w.New cfg ty) (hw' : w'.New cfg' ty') (hlog : w.log = [])
  (hlog' : w'.log = []) (tPrev tPrev' t0 minH maxH : F) (h0 : 0 < minH) (h1 : minH < maxH)
include h h' hpl hpl' hex hex' hw hw' hlog hlog' h0 h1

/-- C99: the difference of the initial values is multiplied by `1 - μ h` in every step, and the difference of the derivatives makes no more than `ε / μ` in the long run. -/
theorem C99_fades (he : ∀ st, cfg.stepper = some st → st = euler) (he' : ∀ st, cfg'.stepper = some st → st = euler) (g μ ε δ : F) (hμ : 0 < μ)
    (hL : Forgets cfg cfg' ty ty' t0 g μ ε) (hn : Nearby δ (cfg.states (cfg.keptVal w)) (cfg'.states (cfg'.keptVal w'))) :
    ∃ m0 m0' : Machine F, Call.exec cfg (.init t0) { w := w, s := { tPrev := tPrev } } = .ok () m0 ∧ Call.exec cfg' (.init t0) { w := w', s := { tPrev := tPrev' } } = .ok () m0' ∧
      ∀ ts : List F, (t0 :: ts).IsChain (fun s u => s < u ∧ u - s ≤ g) → (∃ m, RunsTo cfg minH maxH m0 ts m) ∧ (∃ m', RunsTo cfg' minH maxH m0' ts m') ∧
        ∀ m m', RunsTo cfg minH maxH m0 ts m → RunsTo cfg' minH maxH m0' ts m' →
          Nearby (faded μ t0 ts * δ + (1 - faded μ t0 ts) * (ε / μ)) (cfg.states m.w.shown) (cfg'.states m'.w.shown) := by
  obtain ⟨m0, a1, a2⟩ := simulates (M := .euler) h hpl hex (by simp) he hw hlog tPrev t0 minH maxH h0 h1
  obtain ⟨m0', b1, b2⟩ := simulates (M := .euler) h' hpl' hex' (by simp) he' hw' hlog' tPrev' t0 minH maxH h0 h1
  refine ⟨m0, m0', a1, b1, fun ts hts => ?_⟩
  have hlt : (t0 :: ts).IsChain (· < ·) := hts.imp fun _ _ k => k.1
  exact ⟨(a2 ts hlt).1, (b2 ts hlt).1, fun m m' hm hm' => walk_fades hμ hL ((a2 ts hlt).2 m hm) ((b2 ts hlt).2 m' hm') le_rfl hts hn⟩

/-- C99: at the time `t` the simulations differ by at most `δ / (1 + μ (t - t0)) + ε / μ`. -/
theorem C99_forgets (he : ∀ st, cfg.stepper = some st → st = euler) (he' : ∀ st, cfg'.stepper = some st → st = euler) (g μ ε δ : F) (hμ : 0 < μ) (hg : μ * g ≤ 1) (hε : 0 ≤ ε)
    (hL : Forgets cfg cfg' ty ty' t0 g μ ε) (hn : Nearby δ (cfg.states (cfg.keptVal w)) (cfg'.states (cfg'.keptVal w'))) :
    ∃ m0 m0' : Machine F, Call.exec cfg (.init t0) { w := w, s := { tPrev := tPrev } } = .ok () m0 ∧ Call.exec cfg' (.init t0) { w := w', s := { tPrev := tPrev' } } = .ok () m0' ∧
      ∀ ts : List F, (t0 :: ts).IsChain (fun s u => s < u ∧ u - s ≤ g) → (∃ m, RunsTo cfg minH maxH m0 ts m) ∧ (∃ m', RunsTo cfg' minH maxH m0' ts m') ∧
        ∀ m m', RunsTo cfg minH maxH m0 ts m → RunsTo cfg' minH maxH m0' ts m' →
          Nearby (δ / (1 + μ * ((t0 :: ts).getLast (by simp) - t0)) + ε / μ) (cfg.states m.w.shown) (cfg'.states m'.w.shown) := by
  obtain ⟨m0, m0', a1, b1, k⟩ := C99_fades cfg cfg' ty ty' ps ps' rank rank' h h' hpl hpl' hex hex' w w' hw hw' hlog hlog' tPrev tPrev' t0 minH maxH h0 h1 he he' g μ ε δ hμ hL hn
  refine ⟨m0, m0', a1, b1, fun ts hts => ⟨(k ts hts).1, (k ts hts).2.1, fun m m' hm hm' s i => ((k ts hts).2.2 m m' hm hm' s i).trans ?_⟩⟩
  have hδ : 0 ≤ δ := (abs_nonneg _).trans (hn 0 0)
  have hp := faded_pos hμ hg hts
  have hle := faded_le hμ hg hts
  have hX : 0 < 1 + μ * ((t0 :: ts).getLast (by simp) - t0) := by linarith [mul_nonneg hμ.le (sub_nonneg.2 (last_le hts))]
  refine add_le_add ?_ ?_
  · rw [le_div_iff₀ hX]
    nlinarith [mul_le_mul_of_nonneg_right hle hδ]
  · exact mul_le_of_le_one_left (div_nonneg hε hμ.le) (by linarith)

end

/-! ## Example: `x' = - x` -/

section
attribute [local instance] Arith.exact

theorem decays (st st' : Strategy) : Forgets (C94.prog (-1) euler st) (C94.prog (-1) euler st') (fun _ => .array 2) (fun _ => .array 2) 0 1 1 0 := by
  intro t v v' δ _ k1 k2 k3 s i
  simp only [C94.slopes_eq (-1) euler st k1, C94.slopes_eq (-1) euler st' k2]
  have e : ∀ a : ℚ, a + 1 * (-1 * a) = 0 := fun a => by ring
  rw [e, e]
  simp

/-- C99: with gaps of at most 1, `x' = - x` forgets its initial values: at the time `t` two simulations differ by no more than `δ / (1 + t)`.  All hypotheses of `C99_forgets` hold. -/
theorem C99_decay (st st' : Strategy) (a b a' b' δ : ℚ) (h1 : |a - a'| ≤ δ) (h2 : |b - b'| ≤ δ) :
    ∃ m0 m0' : Machine ℚ, Call.exec (C94.prog (-1) euler st) (.init 0) { w := C94.world a b, s := { tPrev := 0 } } = .ok () m0 ∧
      Call.exec (C94.prog (-1) euler st') (.init 0) { w := C94.world a' b', s := { tPrev := 0 } } = .ok () m0' ∧
      ∀ ts : List ℚ, (0 :: ts).IsChain (fun s u => s < u ∧ u - s ≤ 1) → (∃ m, RunsTo (C94.prog (-1) euler st) (1 / 2 ^ 20) 1 m0 ts m) ∧
        (∃ m', RunsTo (C94.prog (-1) euler st') (1 / 2 ^ 20) 1 m0' ts m') ∧ ∀ m m', RunsTo (C94.prog (-1) euler st) (1 / 2 ^ 20) 1 m0 ts m → RunsTo (C94.prog (-1) euler st') (1 / 2 ^ 20) 1 m0' ts m' →
          Nearby (δ / (1 + 1 * ((0 :: ts).getLast (by simp) - 0)) + 0 / 1) ((C94.prog (-1) euler st).states m.w.shown) ((C94.prog (-1) euler st').states m'.w.shown) :=
  C99_forgets (C94.prog (-1) euler st) (C94.prog (-1) euler st') _ _ (C94.wires _) (C94.wires _) _ _ (C94.sealed _ euler (by simp) st) (C94.sealed _ euler (by simp) st')
    (by simp [C94.wires, Make.Plain]) (by simp [C94.wires, Make.Plain]) ⟨_, .head _, rfl⟩ ⟨_, .head _, rfl⟩ _ _ (C94.new _ _ _ euler st) (C94.new _ _ _ euler st') rfl rfl 0 0 0 (1 / 2 ^ 20) 1
    (by norm_num) (by norm_num) (fun s e => (Option.some_inj.1 e).symm) (fun s e => (Option.some_inj.1 e).symm) 1 1 0 δ (by norm_num) (by norm_num) le_rfl (decays st st')
    (C94.near (-1) euler st h1 h2)

/-- C99: with a gap of 3 the difference grows: from 1 to 2. -/
theorem C99_steps (st : Strategy) : ∃ m0 m0' m m' : Machine ℚ, Call.exec (C94.prog (-1) euler st) (.init 0) { w := C94.world 1 0, s := { tPrev := 0 } } = .ok () m0 ∧
    Call.exec (C94.prog (-1) euler st) (.init 0) { w := C94.world 2 0, s := { tPrev := 0 } } = .ok () m0' ∧ RunsTo (C94.prog (-1) euler st) (1 / 2) 4 m0 [3] m ∧
    RunsTo (C94.prog (-1) euler st) (1 / 2) 4 m0' [3] m' ∧ m.w.shown 0 = some (.array [-2, 0]) ∧ m'.w.shown 0 = some (.array [-4, 0]) := by
  refine ⟨_, _, _, _, eq_of_returns (by cases st <;> decide +kernel), eq_of_returns (by cases st <;> decide +kernel), .cons 10 (eq_of_returns (by cases st <;> decide +kernel)) .nil,
    .cons 10 (eq_of_returns (by cases st <;> decide +kernel)) .nil, ?_, ?_⟩ <;> cases st <;> decide +kernel

end
end Pooya.C99
