import Verif.Proof.Calls
import Verif.Props.C26

/-! # C52 — step callbacks bracket each evaluation -/

namespace Pooya.C52

set_option linter.unusedSectionVars false

variable {K : Type} [Arith K]

/-- Without state variables, a run that returns calls the input callback, then `pre_step` of all leaves in insertion order, then the
activation functions of different leaves of the diagram, then `post_step` of all leaves in insertion order, and nothing else. -/
theorem C52_run (cfg : Config K) (hp : cfg.model.Proper) {m m' : Machine K} (hr : Reach cfg m) (hi : m.s.initialized = true) (hs : m.s.svSize = 0)
    (fuel : Nat) (t minH maxH : K) (h : Call.exec cfg (.run fuel t minH maxH) m = .ok () m') :
    ∃ es, Round cfg.model.leaves t true true es ∧ m'.w.log = es.reverse ++ m.w.log := by
  rcases run_ok hi h with ⟨_, h1⟩ | ⟨h0, _⟩
  · obtain ⟨es, h2, h3⟩ := wrote_final hp (reach_mid cfg hr) h1
    rw [hs] at h2
    exact ⟨es, h2, h3⟩
  · omega

/-- If the run throws, the calls made are an initial part of such a sequence. -/
theorem C52_throws (cfg : Config K) (hp : cfg.model.Proper) {m m' : Machine K} {e : Err} (hr : Reach cfg m) (hi : m.s.initialized = true)
    (hs : m.s.svSize = 0) (fuel : Nat) (t minH maxH : K) (h : Call.exec cfg (.run fuel t minH maxH) m = .error e m') :
    ∃ es p, Round cfg.model.leaves t true true es ∧ p <+: es ∧ m'.w.log = p.reverse ++ m.w.log := by
  have hround : Round cfg.model.leaves t true true ([.input t] ++ cfg.model.leaves.map (fun l => .pre l.id t) ++
      cfg.model.leaves.map (fun l => .post l.id t)) := ⟨[], by simp, by simp, by simp⟩
  replace h : run cfg fuel t minH maxH m = .error e m' := h
  rw [run_eq _ _ _ _ _ _ hi, if_neg (by omega)] at h
  unfold finish at h
  rw [bind_apply] at h
  simp only [getSim] at h
  cases hsv : m.s.sv with
  | none =>
    rw [hsv] at h
    cases h
    exact ⟨_, [], hround, by simp, rfl⟩
  | some x =>
    rw [hsv] at h
    have hx : x = [] := by simpa [Sim.svSize, hsv] using hs
    subst hx
    simp only [bind_apply] at h
    cases h1 : resetWith cfg [] m with
    | error e1 m1 =>
      rw [h1] at h
      cases h
      have : Moves (fun m m' : Machine K => SameLog m.w m'.w) (resetWith cfg []) := by
        refine Moves.bind Moves.getSim (fun s => Moves.bind (sameLog_inW (moves_clearAll _ (fun _ _ _ => rfl))) (fun _ => Moves.bind
          (sameLog_inW (moves_writeScalars _ _ _ (fun _ _ _ _ => rfl))) (fun d => sameLog_inW (moves_writeArrays _ _ _ (fun _ _ _ _ => rfl)))))
      have := this m
      rw [h1] at this
      exact ⟨_, [], hround, by simp, this⟩
    | ok u m1 =>
      rw [h1] at h
      obtain ⟨es, p, g1, g2, g3⟩ := process_prefix hp (t := t) (mid_of ((covers_mid cfg).reset []) (reach_mid cfg hr) h1)
      refine ⟨es, p, g1, g2, ?_⟩
      have g4 : Wrote p m.w (stateOf (processModel cfg t true true m1)).w := by simpa using (wrote_reset h1).append g3
      simp only [List.length_nil, decide_true] at h
      cases h2 : processModel cfg t true true m1 with
      | error e2 m2 => rw [h2] at h g4; cases h; exact g4
      | ok u m2 => rw [h2] at h; cases h

/-- With state variables, a run forward in time first makes the calls of the solver steps (`StepCalls`), then one more evaluation without
`pre_step`, with `post_step`. -/
theorem C52_states (cfg : Config K) (hp : cfg.model.Proper) (hd : ∀ st, cfg.stepper = some st → Stepper.Dim st) {m m' : Machine K}
    (hr : Reach cfg m) (hi : m.s.initialized = true) (hn : m.s.svSize = m.s.nState) (hs : 0 < m.s.nState) (fuel : Nat) (t minH maxH : K)
    (ht : (t ==. m.s.tPrev) = false) (h : Call.exec cfg (.run fuel t minH maxH) m = .ok () m') :
    ∃ steps fin, StepCalls cfg.model.leaves t steps ∧ Round cfg.model.leaves t false true fin ∧ m'.w.log = (steps ++ fin).reverse ++ m.w.log := by
  replace h : run cfg fuel t minH maxH m = .ok () m' := h
  rw [run_eq _ _ _ _ _ _ hi, if_pos (by omega)] at h
  obtain ⟨_, m1, ha, hf⟩ := ok_bind h
  have hz := sized_advance (n := m.s.nState) hd fuel t minH maxH m ⟨hn, rfl⟩
  rw [ha] at hz
  cases advance_ok ha with
  | again h1 h2 _ => rw [ht] at h2; cases h2
  | steps _ _ h3 =>
    obtain ⟨hm1, es, g1, g2⟩ := wrote_sub hp (reach_mid cfg hr) h3
    obtain ⟨fin, g3, g4⟩ := wrote_final hp hm1 (finish_ok hf)
    rw [hz.1, decide_eq_false (by omega)] at g3
    exact ⟨es, fin, g1, g3, g2.append g4⟩

/-- `init` of a new `Simulator` makes the calls of one complete evaluation (and warns about a stepper that is not needed). -/
theorem C52_init (cfg : Config K) (hp : cfg.model.Proper) (hst : cfg.strategy = .plain) {m m' : Machine K} (hr : Reach cfg m)
    (t : K) (h : Call.exec cfg (.init t) m = .ok () m') :
    ∃ warn es, (warn = [] ∨ warn = [.warnStepper]) ∧ Round cfg.model.leaves t true true es ∧ m'.w.log = (warn ++ es).reverse ++ m.w.log := by
  replace h : simInit cfg t m = .ok () m' := h
  obtain ⟨lg, hlg, he⟩ := baseInit_eq cfg t m
  unfold simInit at h
  rw [bind_of_ok he, hst] at h
  dsimp only at h
  obtain ⟨es, g1, g2⟩ := wrote_process hp (Mid.other (m := m) _ (reach_mid cfg hr) (by rfl) (by rfl) (by rfl)) h
  have g2 : m'.w.log = es.reverse ++ lg := g2
  rcases hlg with rfl | rfl
  · exact ⟨[], es, .inl rfl, g1, by simpa using g2⟩
  · exact ⟨[.warnStepper], es, .inr rfl, g1, by simpa using g2⟩

/-- A model without state variables: the calls of `run(2)` after `init(1)`. -/
example (st : Strategy) : let cfg := C26.constCfg st
    let m := stateOf (Call.exec cfg (.init 1) Demo.start)
    let m' := stateOf (Call.exec cfg (.run 10 2 (1/10) 1) m)
    returns (Call.exec cfg (.run 10 2 (1/10) 1) m) = (st != .reuse) ∧ m.s.initialized = true ∧ m.s.svSize = 0 ∧
      (st ≠ .reuse → m'.w.log = [.post 1 2, .act 1 2, .pre 1 2, .input 2] ++ m.w.log) := by
  cases st <;> decide +kernel

/-- The demo, with state variables and Euler: the calls of `run(1)` after `init(0)`, newest first. -/
example : let m := stateOf (Call.exec (Demo.cfg .plain) (.init 0) Demo.start)
    let m' := stateOf (Call.exec (Demo.cfg .plain) (.run 10 1 (1/10) 1) m)
    returns (Call.exec (Demo.cfg .plain) (.run 10 1 (1/10) 1) m) = true ∧ m.s.initialized = true ∧ m.s.svSize = m.s.nState ∧ 0 < m.s.nState ∧
      m'.w.log = [.post 4 1, .post 3 1, .post 2 1, .post 1 1, .act 1 1, .act 2 1, .act 4 1, .act 3 1, .input 1, .accept 0 1, .act 1 0, .act 2 0,
        .act 4 0, .act 3 0, .input 0, .trial 0 1, .pre 4 0, .pre 3 0, .pre 2 0, .pre 1 0, .input 0] ++ m.w.log := by
  decide +kernel

end Pooya.C52
