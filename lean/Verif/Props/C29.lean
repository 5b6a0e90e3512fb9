import Verif.Props.C27
import Mathlib.Algebra.Order.Archimedean.Basic

/-! # C29 — run terminates

The model runs the loop of `run` with a bound on the number of trials (`fuel`); the theorems say that a bound exists that is never
reached, so that the loop without a bound ends.  Exact arithmetic: with rounding, `t1 + min_time_step == t1` is possible and the loop of
the code then does not end (C70, also for when it ends). -/

namespace Pooya.C29

set_option linter.unusedSectionVars false

section
variable {K : Type} [Field K] [LinearOrder K] [IsStrictOrderedRing K]
attribute [local instance] Arith.exact

theorem ends_provided {s t minH maxH : K} (ht : s < t) (h0 : 0 < minH) {a B : Nat} (ha : t - s ≤ a * minH) (hB : t - s ≤ 2 ^ B * minH) :
    Ends Halving t minH maxH (a * (B + 1)) s t false := by
  have h := halving_ends h0 a s ha hB B t (le_refl _) ht hB (.inr rfl) (maxH := maxH)
  have hpos : 0 < a := by
    rcases Nat.eq_zero_or_pos a with h | h
    · subst h; simp only [Nat.cast_zero, zero_mul] at ha; linarith
    · exact h
  obtain ⟨a, rfl⟩ : ∃ a', a = a' + 1 := ⟨a - 1, by omega⟩
  rw [Nat.add_sub_cancel] at h
  rw [Nat.succ_mul]
  exact h

/-- For each provided stepper, every model and all limits: if the interval is at most `a` and at most `2 ^ B` smallest steps long,
the run attempts at most `a * (B + 1)` steps, however large the bound given to the loop. -/
theorem C29_trials (cfg : Config K) (st : Stepper K) (hst : st ∈ [euler, rk4, rkf45]) (hcfg : cfg.stepper = some st) (fuel : Nat)
    (t minH maxH : K) (m : Machine K) (hi : m.s.initialized = true) (hs : 0 < m.s.svSize) (ht : m.s.tPrev < t) (h0 : 0 < minH)
    {a B : Nat} (ha : t - m.s.tPrev ≤ a * minH) (hB : t - m.s.tPrev ≤ 2 ^ B * minH) :
    ∃ new, (stateOf (Call.exec cfg (.run fuel t minH maxH) m)).w.log = new ++ m.w.log ∧ (trialsIn new).length ≤ a * (B + 1) := by
  have hA : Answering cfg Halving := fun st' h t1 x t2 => by
    rw [hcfg, Option.some.injEq] at h
    subst h
    exact halving_provided st hst t1 x t2
  have hr := run_trace hA fuel t minH maxH m hi hs (by simpa using ht.le) (by simpa using (ne_of_gt ht))
  have : ∃ es c, LoopTrace Halving t minH maxH m.s.tPrev t false es c ∧ After m.w.log es (stateOf (run cfg fuel t minH maxH m)) := by
    cases hx : run cfg fuel t minH maxH m with
    | ok a m' => obtain ⟨es, h⟩ := hr.1 m' hx; exact ⟨es, true, h⟩
    | error e m' => exact hr.2 e m' hx
  obtain ⟨es, c, h1, new, h2, h3⟩ := this
  exact ⟨new, h2, by rw [trialsIn, h3]; exact h1.trials_le (ends_provided ht h0 ha hB)⟩

/-- The result of the run is the same for all larger bounds, so the bound is not what ended the run. -/
theorem C29_terminates (cfg : Config K) (st : Stepper K) (hst : st ∈ [euler, rk4, rkf45]) (hcfg : cfg.stepper = some st)
    (t minH maxH : K) (m : Machine K) (hi : m.s.initialized = true) (ht : m.s.tPrev < t) (h0 : 0 < minH)
    {a B : Nat} (ha : t - m.s.tPrev ≤ a * minH) (hB : t - m.s.tPrev ≤ 2 ^ B * minH) (n n' : Nat) (hn : a * (B + 1) < n) (hn' : a * (B + 1) < n') :
    Call.exec cfg (.run n t minH maxH) m = Call.exec cfg (.run n' t minH maxH) m := by
  have hA : Answering cfg Halving := fun st' h t1 x t2 => by
    rw [hcfg, Option.some.injEq] at h
    subst h
    exact halving_provided st hst t1 x t2
  exact run_fuel hA hi (ends_provided ht h0 ha hB) n n' hn hn'

/-- In an Archimedean field such numbers exist: there is a number of trials that suffices. -/
theorem C29_finite [Archimedean K] (cfg : Config K) (st : Stepper K) (hst : st ∈ [euler, rk4, rkf45]) (hcfg : cfg.stepper = some st)
    (t minH maxH : K) (m : Machine K) (hi : m.s.initialized = true) (ht : m.s.tPrev < t) (h0 : 0 < minH) :
    ∃ N, ∀ n, N ≤ n → Call.exec cfg (.run n t minH maxH) m = Call.exec cfg (.run N t minH maxH) m := by
  obtain ⟨a, ha⟩ := Archimedean.arch (t - m.s.tPrev) h0
  obtain ⟨B, hB⟩ := pow_unbounded_of_one_lt ((t - m.s.tPrev) / minH) (one_lt_two (α := K))
  have hB' : t - m.s.tPrev ≤ 2 ^ B * minH := ((div_lt_iff₀ h0).1 hB).le
  rw [nsmul_eq_mul] at ha
  exact ⟨a * (B + 1) + 1, fun n hn => C29_terminates cfg st hst hcfg t minH maxH m hi ht h0 ha hB' n _ (by omega) (by omega)⟩

/-- With Euler and Rk4 the run takes the whole interval in one step. -/
theorem C29_single (cfg : Config K) (st : Stepper K) (hst : st ∈ [euler, rk4]) (hcfg : cfg.stepper = some st) (fuel : Nat)
    (t minH maxH : K) (m m' : Machine K) (hi : m.s.initialized = true) (hs : 0 < m.s.svSize) (ht : m.s.tPrev < t)
    (h : Call.exec cfg (.run fuel t minH maxH) m = .ok () m') :
    ∃ new, m'.w.log = new ++ m.w.log ∧ stepsIn new = [.trial m.s.tPrev t, .accept m.s.tPrev t] := by
  have hA : Answering cfg (fun t1 t2 nh => nh = t2 - t1) := fun st' h t1 x t2 => by
    rw [hcfg, Option.some.injEq] at h
    subst h
    simp only [List.mem_cons, List.not_mem_nil, or_false] at hst
    rcases hst with rfl | rfl
    · intro r; rfl
    · intro _ _ _ _; rfl
  obtain ⟨es, h1, new, h2, h3⟩ := (run_trace hA fuel t minH maxH m hi hs (by simpa using ht.le) (by simpa using (ne_of_gt ht))).1 m' h
  refine ⟨new, h2, h3.trans ?_⟩
  cases h1 with
  | stop h => simp at h; exact absurd ht (not_lt.2 h)
  | accept _ _ _ h =>
    cases h with
    | stop h => rfl
    | accept h => simp at h
    | reject h => simp at h
  | reject _ h h' => rw [h] at h'; simp at h'

end

/-- The demo with Rkf45: an interval of 1 with smallest step 1/10, so `a = 10` and `B = 4`. -/
def rkfCfg (st : Strategy) : Config ℚ := { Demo.cfg st with stepper := some rkf45 }

def rkfStart (st : Strategy) : Machine ℚ := stateOf (Call.exec (rkfCfg st) (.init 0) Demo.start)

example (st : Strategy) : (rkfStart st).s.initialized = true ∧ 0 < (rkfStart st).s.svSize ∧ (rkfStart st).s.tPrev < 1 ∧
    1 - (rkfStart st).s.tPrev ≤ (10 : Nat) * (1/10 : ℚ) ∧ 1 - (rkfStart st).s.tPrev ≤ 2 ^ 4 * (1/10 : ℚ) ∧
    ∃ m', Call.exec (rkfCfg st) (.run 51 1 (1/10) 1) (rkfStart st) = .ok () m' ∧
      1 < (trialsIn (m'.w.log.take (m'.w.log.length - (rkfStart st).w.log.length))).length := by
  cases st <;> exact ⟨by decide +kernel, by decide +kernel, by decide +kernel, by decide +kernel, by decide +kernel, _,
    eq_of_returns (by decide +kernel), by decide +kernel⟩

end Pooya.C29
