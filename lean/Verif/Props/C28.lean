import Verif.Props.C27

/-! # C28 — step-size limits are respected

The lower limit holds.  The upper limit does not hold for the first trial of a run, which always spans the whole interval: the code
limits the size of the following steps only (`C28_refuted`). -/

namespace Pooya.C28

set_option linter.unusedSectionVars false

section
variable {K : Type} [Field K] [LinearOrder K] [IsStrictOrderedRing K]
attribute [local instance] Arith.exact

theorem run_lengths (cfg : Config K) (fuel : Nat) (t minH maxH : K) (m : Machine K) (hi : m.s.initialized = true) (hs : 0 < m.s.svSize)
    (ht : m.s.tPrev < t) :
    ∃ new, (stateOf (Call.exec cfg (.run fuel t minH maxH) m)).w.log = new ++ m.w.log ∧
      (∀ a b, (a, b) ∈ trialsIn new → minH ≤ b - a ∨ b = t) ∧
      (∀ a b, (a, b) ∈ trialsIn new → b - a ≤ max minH maxH ∨ (a = m.s.tPrev ∧ b = t)) := by
  have hA : Answering cfg (fun _ _ _ => True) := fun st _ t1 x t2 => by
    generalize st t1 x t2 = p
    induction p with
    | ret v h => trivial
    | call t v k ih => exact fun r => ih r
  have hr := run_trace hA fuel t minH maxH m hi hs (by simpa using ht.le) (by simpa using (ne_of_gt ht))
  have : ∃ es c, LoopTrace (fun _ _ _ => True) t minH maxH m.s.tPrev t false es c ∧ After m.w.log es (stateOf (run cfg fuel t minH maxH m)) := by
    cases hx : run cfg fuel t minH maxH m with
    | ok a m' => obtain ⟨es, h⟩ := hr.1 m' hx; exact ⟨es, true, h⟩
    | error e m' => exact hr.2 e m' hx
  obtain ⟨es, c, h1, new, h2, h3⟩ := this
  have h4 := h1.lengths
  have hmem : ∀ a b, (a, b) ∈ trialsIn new → StepEv.trial a b ∈ es := by
    intro a b hab
    rw [trialsIn, h3] at hab
    obtain ⟨e, he, h7⟩ := List.mem_filterMap.1 hab
    cases e with
    | trial a' b' => simp only [StepEv.trial?, Option.some.injEq, Prod.mk.injEq] at h7; obtain ⟨rfl, rfl⟩ := h7; exact he
    | accept a' b' => cases h7
  exact ⟨new, h2, fun a b h => h4.1 (.inr rfl) a b (hmem a b h), fun a b h => h4.2 a b (hmem a b h)⟩

/-- Lower limit: every accepted step is at least `min` long unless it ends at `t`; whatever the stepper, whether the run returns or not. -/
theorem C28_min (cfg : Config K) (fuel : Nat) (t minH maxH : K) (m : Machine K) (hi : m.s.initialized = true) (hs : 0 < m.s.svSize)
    (ht : m.s.tPrev < t) (h0 : 0 < minH) :
    ∃ new, (stateOf (Call.exec cfg (.run fuel t minH maxH) m)).w.log = new ++ m.w.log ∧
      ∀ a b, (a, b) ∈ acceptsIn new → minH ≤ b - a ∨ b = t := by
  obtain ⟨new, h1, h2, _⟩ := run_lengths cfg fuel t minH maxH m hi hs ht
  obtain ⟨new', h1', _, h3, _⟩ := C27.C27_within cfg fuel t minH maxH m hi hs ht h0
  have : new' = new := List.append_cancel_right (h1'.symm.trans h1)
  subst this
  exact ⟨new', h1, fun a b hab => h2 a b (h3 a b hab)⟩

/-- Upper limit: every accepted step is at most `max` long, except possibly a step over the whole interval. -/
theorem C28_max_partial (cfg : Config K) (fuel : Nat) (t minH maxH : K) (m : Machine K) (hi : m.s.initialized = true) (hs : 0 < m.s.svSize)
    (ht : m.s.tPrev < t) (h0 : 0 < minH) (hmax : minH < maxH) :
    ∃ new, (stateOf (Call.exec cfg (.run fuel t minH maxH) m)).w.log = new ++ m.w.log ∧
      ∀ a b, (a, b) ∈ acceptsIn new → b - a ≤ maxH ∨ (a = m.s.tPrev ∧ b = t) := by
  obtain ⟨new, h1, _, h2⟩ := run_lengths cfg fuel t minH maxH m hi hs ht
  obtain ⟨new', h1', _, h3, _⟩ := C27.C27_within cfg fuel t minH maxH m hi hs ht h0
  have : new' = new := List.append_cancel_right (h1'.symm.trans h1)
  subst this
  exact ⟨new', h1, fun a b hab => max_eq_right hmax.le ▸ h2 a b (h3 a b hab)⟩

/-- If the interval is no longer than `max`, the upper limit holds. -/
theorem C28_max_short_partial (cfg : Config K) (fuel : Nat) (t minH maxH : K) (m : Machine K) (hi : m.s.initialized = true) (hs : 0 < m.s.svSize)
    (ht : m.s.tPrev < t) (h0 : 0 < minH) (hmax : minH < maxH) (hshort : t - m.s.tPrev ≤ maxH) :
    ∃ new, (stateOf (Call.exec cfg (.run fuel t minH maxH) m)).w.log = new ++ m.w.log ∧
      ∀ a b, (a, b) ∈ acceptsIn new → b - a ≤ maxH := by
  obtain ⟨new, h1, h2⟩ := C28_max_partial cfg fuel t minH maxH m hi hs ht h0 hmax
  refine ⟨new, h1, fun a b hab => ?_⟩
  rcases h2 a b hab with h | ⟨rfl, rfl⟩
  · exact h
  · exact hshort

end

/-- The claim about `max` fails: with Euler and limits 1/10 and 1/2, `run(1)` from 0 accepts one step of length 1. -/
theorem C28_refuted : ∃ (cfg : Config ℚ) (m m' : Machine ℚ), Reach cfg m ∧ m.s.initialized = true ∧ 0 < m.s.svSize ∧ m.s.tPrev = 0 ∧
    Call.exec cfg (.run 10 1 (1/10) (1/2)) m = .ok () m' ∧
    ∃ new, m'.w.log = new ++ m.w.log ∧ acceptsIn new = [(0, 1)] := by
  let m := stateOf (Call.exec (Demo.cfg .plain) (.init 0) Demo.start)
  let m' := stateOf (Call.exec (Demo.cfg .plain) (.run 10 1 (1/10) (1/2)) m)
  exact ⟨Demo.cfg .plain, m, m', .call _ (.new Demo.world 0 (fun _ => rfl) rfl), by decide +kernel, by decide +kernel, by decide +kernel,
    eq_of_returns (by decide +kernel), m'.w.log.take (m'.w.log.length - m.w.log.length), by decide +kernel, by decide +kernel⟩

/-- The hypotheses are met by the example of `C27`, whose accepted steps have lengths 1/4, 1/4, 1/3 and 1/6. -/
example (st : Strategy) : (C27.fussyStart st).s.initialized = true ∧ 0 < (C27.fussyStart st).s.svSize ∧ (C27.fussyStart st).s.tPrev < 1 ∧
    (0 : ℚ) < 1/10 ∧ (1/10 : ℚ) < 10 ∧ (1 : ℚ) - (C27.fussyStart st).s.tPrev ≤ 10 := by
  cases st <;> decide +kernel

end Pooya.C28
