import Verif.Proof.Steps
import Verif.Spec.Demo

/-! # C27 — solver steps tile the requested interval -/

namespace Pooya.C27

set_option linter.unusedSectionVars false

section
variable {K : Type} [Field K] [LinearOrder K] [IsStrictOrderedRing K]
attribute [local instance] Arith.exact

/-- In exact arithmetic, for any stepper (any answers about the step size) and any positive smallest step: a run of a model with
state variables forward from `s` to `t` that returns has accepted steps that begin at `s`, follow each other with strictly increasing
end points, and end exactly at `t`.  The steps are those logged by this run. -/
theorem C27_tiling (cfg : Config K) (fuel : Nat) (t minH maxH : K) (m m' : Machine K) (hi : m.s.initialized = true) (hs : 0 < m.s.svSize)
    (ht : m.s.tPrev < t) (h0 : 0 < minH) (h : Call.exec cfg (.run fuel t minH maxH) m = .ok () m') :
    ∃ new, m'.w.log = new ++ m.w.log ∧ Tiles m.s.tPrev t (acceptsIn new) := by
  have hA : Answering cfg (fun _ _ _ => True) := fun st _ t1 x t2 => by
    generalize st t1 x t2 = p
    induction p with
    | ret v h => trivial
    | call t v k ih => exact fun r => ih r
  obtain ⟨es, h1, new, h2, h3⟩ := (run_trace hA fuel t minH maxH m hi hs (by simpa using ht.le) (by simpa using (ne_of_gt ht))).1 m' h
  obtain ⟨_, _, u, h4, h5⟩ := h1.bounds h0 (fun h => ⟨h, le_refl t⟩)
  refine ⟨new, h2, ?_⟩
  rw [acceptsIn, h3]
  exact h5 rfl ht.le ▸ h4

/-- Every attempted step, accepted or not, of a run that returns or throws, goes forward and stays within `[s, t]`; every accepted
step was attempted; and the accepted steps follow each other from `s`. -/
theorem C27_within (cfg : Config K) (fuel : Nat) (t minH maxH : K) (m : Machine K) (hi : m.s.initialized = true) (hs : 0 < m.s.svSize)
    (ht : m.s.tPrev < t) (h0 : 0 < minH) :
    ∃ new, (stateOf (Call.exec cfg (.run fuel t minH maxH) m)).w.log = new ++ m.w.log ∧
      (∀ a b, (a, b) ∈ trialsIn new → m.s.tPrev ≤ a ∧ a < b ∧ b ≤ t) ∧ (∀ a b, (a, b) ∈ acceptsIn new → (a, b) ∈ trialsIn new) ∧
      ∃ u, Tiles m.s.tPrev u (acceptsIn new) := by
  have hA : Answering cfg (fun _ _ _ => True) := fun st _ t1 x t2 => by
    generalize st t1 x t2 = p
    induction p with
    | ret v h => trivial
    | call t v k ih => exact fun r => ih r
  have hr := run_trace hA fuel t minH maxH m hi hs (by simpa using ht.le) (by simpa using (ne_of_gt ht))
  have : ∃ es c, LoopTrace (fun _ _ _ => True) t minH maxH m.s.tPrev t false es c ∧ After m.w.log es (stateOf (run cfg fuel t minH maxH m)) := by
    cases hx : run cfg fuel t minH maxH m with
    | ok a m' => obtain ⟨es, h⟩ := hr.1 m' hx; exact ⟨es, true, h⟩
    | error e m' => exact hr.2 e m' hx
  obtain ⟨es, c, h1, new, h2, h3⟩ := this
  obtain ⟨h4, h5, u, h6, _⟩ := h1.bounds h0 (fun h => ⟨h, le_refl t⟩)
  refine ⟨new, h2, ?_, ?_, u, by rw [acceptsIn, h3]; exact h6⟩
  · intro a b hab
    rw [trialsIn, h3] at hab
    obtain ⟨e, he, h7⟩ := List.mem_filterMap.1 hab
    cases e with
    | trial a' b' => simp only [StepEv.trial?, Option.some.injEq, Prod.mk.injEq] at h7; obtain ⟨rfl, rfl⟩ := h7; exact h4 _ _ he
    | accept a' b' => cases h7
  · intro a b hab
    rw [trialsIn, h3]
    rw [acceptsIn, h3] at hab
    obtain ⟨e, he, h7⟩ := List.mem_filterMap.1 hab
    cases e with
    | trial a' b' => cases h7
    | accept a' b' =>
      simp only [StepEv.accept?, Option.some.injEq, Prod.mk.injEq] at h7
      obtain ⟨rfl, rfl⟩ := h7
      exact List.mem_filterMap.2 ⟨_, h5 _ _ he, rfl⟩

end

/-- A stepper that asks for a step of 1/4 first, then of 1/3, then of 3. -/
def fussy : Stepper ℚ := fun t0 v t1 => .call t0 v fun k => .ret (vadd v (vsmul (t1 - t0) k)) (if t0 < 1/5 then 1/4 else if t0 < 1/3 then 1/3 else 3)

def fussyCfg (st : Strategy) : Config ℚ := { Demo.cfg st with stepper := some fussy }

def fussyStart (st : Strategy) : Machine ℚ := stateOf (Call.exec (fussyCfg st) (.init 0) Demo.start)

/-- A concrete run with a rejected first trial: the trials are (0,1), (0,1/4), (1/4,1/2), (1/2,5/6), (5/6,1). -/
example (st : Strategy) : (fussyStart st).s.initialized = true ∧ 0 < (fussyStart st).s.svSize ∧ (fussyStart st).s.tPrev < 1 ∧
    ∃ m', Call.exec (fussyCfg st) (.run 10 1 (1/10) 10) (fussyStart st) = .ok () m' ∧
      acceptsIn (m'.w.log.take (m'.w.log.length - (fussyStart st).w.log.length)) = [(0, 1/4), (1/4, 1/2), (1/2, 5/6), (5/6, 1)] ∧
      trialsIn (m'.w.log.take (m'.w.log.length - (fussyStart st).w.log.length)) = [(0, 1), (0, 1/4), (1/4, 1/2), (1/2, 5/6), (5/6, 1)] := by
  cases st <;> exact ⟨by decide +kernel, by decide +kernel, by decide +kernel, _, eq_of_returns (by decide +kernel), by decide +kernel, by decide +kernel⟩

end Pooya.C27
