import Verif.Proof.Sized
import Verif.Spec.Demo

/-! # C25 — the first run is the initialisation -/

namespace Pooya.C25

set_option linter.unusedSectionVars false

variable {K : Type} [Arith K]

/-- Before `init`, `run(t)` does exactly what `init(t)` does, with the same outcome, whatever the step-size limits; this
holds for every simulator whose `init` was not called, whatever happened before. -/
theorem C25_first_run (cfg : Config K) (m : Machine K) (hm : m.s.initialized = false) (t : K) (fuel : Nat) (minH maxH : K) :
    Call.exec cfg (.run fuel t minH maxH) m = Call.exec cfg (.init t) m := run_init cfg fuel t minH maxH m hm

/-- A simulator counts as initialised exactly if some call was made (even one that threw). -/
inductive Called (cfg : Config K) : Machine K → Prop
  | call {m : Machine K} (c : Call K) : Reach cfg m → Called cfg (stateOf (c.exec cfg m))
  | user {m : Machine K} (sig : SigId → Cell K) : Called cfg m → Called cfg { m with w := { m.w with sig := sig } }

theorem simInit_initialized (cfg : Config K) (t : K) (m : Machine K) : (stateOf (simInit cfg t m)).s.initialized = true := by
  obtain ⟨m1, h1, h2⟩ := simInit_fixed cfg t m
  obtain ⟨lg, _, he⟩ := baseInit_eq cfg t m
  rw [h1] at he
  cases he
  rw [h2.initialized]

theorem C25_initialized (cfg : Config K) {m : Machine K} (hm : Called cfg m) : m.s.initialized = true := by
  induction hm with
  | @call m c h =>
    cases c with
    | init t => exact simInit_initialized cfg t m
    | run f t a b =>
      cases hi : m.s.initialized with
      | false =>
        show (stateOf (run cfg f t a b m)).s.initialized = true
        rw [run_init cfg f t a b m hi]; exact simInit_initialized cfg t m
      | true => exact ((covers_fixed cfg).run f t a b m hi).initialized.trans hi
  | user sig _ ih => exact ih

/-- Until then every call is an initialisation: a reachable state in which the simulator does not count as initialised is
one in which no call was made, only the user changed signals. -/
theorem C25_not_initialized (cfg : Config K) {m : Machine K} (hm : Reach cfg m) (hi : m.s.initialized = false) :
    ∃ w t, (∀ b, w.done b = false) ∧ w.log = [] ∧ m = { w := w, s := { tPrev := t } } := by
  induction hm with
  | new w t h1 h2 => exact ⟨w, t, h1, h2, rfl⟩
  | call c h _ => rw [C25_initialized cfg (.call c h)] at hi; cases hi
  | user sig _ ih =>
    obtain ⟨w, t, h1, h2, rfl⟩ := ih hi
    exact ⟨{ w with sig := sig }, t, h1, h2, rfl⟩

/-- After the first run the previous time is the time of the run. -/
theorem C25_time (cfg : Config K) (m : Machine K) (hm : m.s.initialized = false) (t : K) (fuel : Nat) (minH maxH : K) :
    (stateOf (Call.exec cfg (.run fuel t minH maxH) m)).s.tPrev = t := by
  rw [C25_first_run cfg m hm]
  exact simInit_time cfg t m

/-- The first run of the demo returns, whatever limits are given, and does not step. -/
example (st : Strategy) : returns (Call.exec (Demo.cfg st) (.run 0 3 1 0) Demo.start) = true ∧
    (stateOf (Call.exec (Demo.cfg st) (.run 0 3 1 0) Demo.start)).s.tPrev = 3 ∧
    Demo.start.s.initialized = false := by
  cases st <;> decide +kernel

end Pooya.C25
