import Verif.Proof.Retry
import Verif.Props.C18
import Verif.Props.C26
import Verif.Props.C36

/-! # C53 — retrying a failed run

Full statement: if a call of `run` throws, whatever the cause and the point, nothing the simulation depends on has advanced, and repeating the call with
the cause removed gives the result of an undisturbed run.  It is false of the code: `C53_refuted_states` (an accepted sub-step before the
exception advances integrators, but not the time) and `C53_refuted_memory` (blocks after the one whose `post_step` throws are not stepped, those before
are).  It holds (`C53_retry_partial`) for exceptions before the first `post_step`, with causes outside the blocks (inputs, stepper), in models of
blocks that change their members only in `post_step`. -/

namespace Pooya

set_option linter.unusedSectionVars false

variable {K : Type} [Arith K]

/-- A call of `run` that throws, whatever the inputs and the stepper, leaves the time; and if no `post_step` was called it leaves the members of all blocks
that change them only in `post_step`, and all signals that are not linked to the model. -/
theorem C53_unmoved_partial (cfg : Config K) (hs : cfg.Sound) (hf : cfg.strategy = .fast → cfg.Steady)
    (hd : ∀ st, cfg.stepper = some st → Stepper.Dim st) {w : World K} (hw : Startable cfg cfg w) {t t0 : K} {as : List (RunArgs K)} {m : Machine K}
    (hm : simulate cfg t0 as (fresh w t) = .ok () m)
    {i : Option (UserInput K)} {mi : UserInput K} {st : Option (Stepper K)} (hi : ∀ s, (cfg.With i mi st).inputSigs s → cfg.Links s)
    {n : Nat} {t1 minH maxH : K} {e : Err} {m' : Machine K} (he : Call.exec (cfg.With i mi st) (.run n t1 minH maxH) m = .error e m') :
    m'.s.tPrev = m.s.tPrev ∧ (∀ s, ¬ cfg.Links s → m'.w.sig s = m.w.sig s) ∧
    (NoPost m.w m'.w → ∀ b, (∀ l ∈ cfg.model.leaves, l.id = b → l.Quiet (m.w.mem b)) → m'.w.mem b = m.w.mem b) := by
  have he : run (cfg.With i mi st) n t1 minH maxH m = .error e m' := he
  have hg := (simulate_good hs hf hw hd hm).1
  have hl := hg.ready.layout
  have o := hl.statesOk hs.hash
  have hv : ∀ s ∈ m.s.valueSigs, cfg.Links s := fun s h => by
    rw [hl.valueSigs, (hs.hash _).mem_iff] at h
    exact of_linkedSigs h
  have hk : Held (cfg.With i mi st) m := ⟨mid_with hg.ready.mid, fun s h => hv s (o.linked s h), hv⟩
  have hc := (covers_unmoved (cfg := cfg.With i mi st) hs.proper hs.drivers.outLink hs.drivers.preLink hi).run n t1 minH maxH m hg.init hk
  rw [he] at hc
  obtain ⟨new, h1, h2, h3⟩ := hc.2
  refine ⟨(run_time (cfg.With i mi st) n t1 minH maxH m hg.init).2 e m' he, h3, fun hn b hq => ?_⟩
  obtain ⟨new', k1, k2⟩ := hn
  have : new' = new := List.append_cancel_right (k1.symm.trans h1)
  subst this
  exact h2 k2 b hq

/-- Retrying.  A simulation stands after `init` and some runs.  A call of `run` is made with other inputs or another stepper, and throws before any
`post_step`; all blocks change their members only in `post_step`.  Then a `run` with the right inputs and stepper, and all runs after it, have the outcome
they would have had without the failed call: both throw, or both return and agree on all signals, block members, the time and the state variables. -/
theorem C53_retry_partial (cfg : Config K) (hs : cfg.Sound) (hf : cfg.strategy = .fast → cfg.Steady)
    (hd : ∀ st, cfg.stepper = some st → Stepper.Dim st) {w : World K} (hw : Startable cfg cfg w) {t t0 : K} {as : List (RunArgs K)} {m : Machine K}
    (hm : simulate cfg t0 as (fresh w t) = .ok () m) (hq : ∀ l ∈ cfg.model.leaves, l.Quiet (m.w.mem l.id))
    {i : Option (UserInput K)} {mi : UserInput K} {st : Option (Stepper K)} (hi : ∀ s, (cfg.With i mi st).inputSigs s → cfg.Links s)
    (hst : ∀ s, st = some s → Stepper.Dim s)
    {n : Nat} {t1 minH maxH : K} {e : Err} {m' : Machine K} (he : Call.exec (cfg.With i mi st) (.run n t1 minH maxH) m = .error e m')
    (hn : NoPost m.w m'.w) (b : RunArgs K) (bs : List (RunArgs K)) (hc : Comparable b.t m.s.tPrev) :
    SameOutcome (runs cfg (b :: bs) m) (runs cfg (b :: bs) m') := by
  obtain ⟨h1, h2, h3⟩ := C53_unmoved_partial cfg hs hf hd hw hm hi he
  have he : run (cfg.With i mi st) n t1 minH maxH m = .error e m' := he
  obtain ⟨hg, h0⟩ := simulate_good hs hf hw hd hm
  obtain ⟨hg', h0', hty, _⟩ := good_after hg h0 hst n t1 minH maxH (i := i) (mi := mi) (m' := m') (by rw [he]; rfl)
  exact retry hs hf hg hg' h0 h0' hty (h3 hn · (fun l hl e => e ▸ hq l hl)) h2 h1 b bs hc

namespace C53

/-- After `init(0)` and `run(1)` of the diagram `x' = 2 u(t) + x`. -/
def ready (st : Strategy) : Machine ℚ := stateOf (simulate (Demo.cfg st) 0 [⟨100, 1, 1/10, 10⟩] (fresh Demo.world 0))

/-- An inputs callback that throws from the time 3/2 on. -/
def bad : UserInput ℚ := fun t => ([], if (3/2 : ℚ) ≤ t then some (.exc .outOfRange) else none)

/-- `run(2)` with it. -/
def failed (st : Strategy) : Machine ℚ := stateOf (Call.exec ((Demo.cfg st).With (some bad) (fun _ => ([], none)) (some euler)) (.run 100 2 (1/10) 10) (ready st))

/-- The hypotheses of `C53_retry_partial`, and results: `run(2)` fails in the last evaluation, with the state vector already at the new time; the state
variable is 28 after the second attempt. -/
example (st : Strategy) : (Demo.cfg st).Sound ∧ (Demo.cfg st).Steady ∧ (∀ s, (Demo.cfg st).stepper = some s → Stepper.Dim s) ∧
    Startable (Demo.cfg st) (Demo.cfg st) Demo.world ∧
    simulate (Demo.cfg st) 0 [⟨100, 1, 1/10, 10⟩] (fresh Demo.world 0) = .ok () (ready st) ∧ (∀ l ∈ (Demo.cfg st).model.leaves, l.Quiet ((ready st).w.mem l.id)) ∧
    (∀ s, ((Demo.cfg st).With (some bad) (fun _ => ([], none)) (some euler)).inputSigs s → (Demo.cfg st).Links s) ∧
    returns (Call.exec ((Demo.cfg st).With (some bad) (fun _ => ([], none)) (some euler)) (.run 100 2 (1/10) 10) (ready st)) = false ∧
    NoPost (ready st).w (failed st).w ∧ Comparable 2 (ready st).s.tPrev ∧ (failed st).s.sv = some [28] ∧ (failed st).s.tPrev = 1 ∧
    ((failed st).w.mem 4).value = .scalar 12 ∧
    returns (runs (Demo.cfg st) [⟨100, 2, 1/10, 10⟩] (failed st)) = true ∧
    (stateOf (runs (Demo.cfg st) [⟨100, 2, 1/10, 10⟩] (failed st))).s.sv = some [28] := by
  refine ⟨C18.demo_sound st, C18.demo_steady st, C36.dim st, ⟨fun _ => rfl, C18.demo_typed st, fun _ => ?_, fun _ => ?_⟩, ?_, ?_, ?_, ?_, ?_, ?_, ?_, ?_, ?_, ?_, ?_⟩
  · cases st <;> decide +kernel
  · have e : (Demo.cfg st).model.leaves = [Demo.add, Demo.gain, Demo.source, Demo.integ] := Demo.leaves_eq
    rw [e]
    intro l hl
    simp only [List.mem_cons, List.not_mem_nil, or_false] at hl
    rcases hl with rfl | rfl | rfl | rfl <;> simp [Leaf.Quiet, Demo.add, Demo.gain, Demo.source, Demo.integ]
  · exact eq_of_returns (by cases st <;> decide +kernel)
  · have e : (Demo.cfg st).model.leaves = [Demo.add, Demo.gain, Demo.source, Demo.integ] := Demo.leaves_eq
    rw [e]
    intro l hl
    simp only [List.mem_cons, List.not_mem_nil, or_false] at hl
    rcases hl with rfl | rfl | rfl | rfl <;> simp [Leaf.Quiet, Demo.add, Demo.gain, Demo.source, Demo.integ]
  · rintro s ⟨t, ⟨f, hf, h⟩ | h⟩
    · cases hf; simp [bad] at h
    · simp [Config.With] at h
  · cases st <;> decide +kernel
  · have h : (failed st).w.log = (failed st).w.log.take ((failed st).w.log.length - (ready st).w.log.length) ++ (ready st).w.log := by
      cases st <;> decide +kernel
    refine ⟨_, h, fun b t hb => ?_⟩
    have : ∀ e ∈ (failed st).w.log.take ((failed st).w.log.length - (ready st).w.log.length), (match e with | .post _ _ => false | _ => true) = true := by
      cases st <;> decide +kernel
    have := this _ hb
    cases this
  all_goals first | (unfold Comparable; cases st <;> decide +kernel) | (cases st <;> decide +kernel)

/-- A stepper that takes Euler steps and always asks for a step of 1. -/
def ones : Stepper ℚ := fun t0 v t1 => .call t0 v (fun d => .ret (List.zipWith (fun x y => x + (t1 - t0) * y) v d) 1)

def cfg1 (st : Strategy) : Config ℚ := { Demo.cfg st with stepper := some ones }
def ready1 (st : Strategy) : Machine ℚ := stateOf (simulate (cfg1 st) 0 [] (fresh Demo.world 0))
def failed1 (st : Strategy) : Machine ℚ :=
  stateOf (Call.exec ((cfg1 st).With (some bad) (fun _ => ([], none)) (some ones)) (.run 100 2 (1/10) 10) (ready1 st))

/-- A source `t`, a memory of it, and a memory of a signal that the inputs callback assigns. -/
def src : Leaf ℚ := { id := 1, links := [(0, Demo.ot)], kind := .source (fun t => .ok (.scalar t)) 0 }
def memA : Leaf ℚ := { id := 2, links := [(0, Demo.inp), (1, Demo.ot)], kind := .memory 0 1 }
def memB : Leaf ℚ := { id := 3, links := [(5, Demo.inp), (6, Demo.ot)], kind := .memory 5 6 }
def cfg2 (st : Strategy) : Config ℚ := { Demo.cfg st with
  model := .sub 100 [] [.leaf src, .leaf memA, .leaf memB], deriv := fun _ => none, stepper := none, inputs := some (fun t => ([(5, .scalar t)], none)) }
def ready2 (st : Strategy) : Machine ℚ := stateOf (simulate (cfg2 st) 0 [] (fresh Demo.world 0))
def failed2 (st : Strategy) : Machine ℚ :=
  stateOf (Call.exec ((cfg2 st).With (some (fun _ => ([], none))) (fun _ => ([], none)) none) (.run 100 1 (1/10) 10) (ready2 st))

end C53

/-- A run with sub-steps that throws after one of them was accepted: the integrator has advanced and the time has not.  Undisturbed, `run(2)` leads to the state
28; after a failed attempt it leads to 56. -/
theorem C53_refuted_states (st : Strategy) :
    returns (Call.exec ((C53.cfg1 st).With (some C53.bad) (fun _ => ([], none)) (some C53.ones)) (.run 100 2 (1/10) 10) (C53.ready1 st)) = false ∧
    ((C53.ready1 st).w.mem 4).value = .scalar 5 ∧ ((C53.failed1 st).w.mem 4).value = .scalar 12 ∧ (C53.failed1 st).s.tPrev = 0 ∧
    returns (Call.exec (C53.cfg1 st) (.run 100 2 (1/10) 10) (C53.ready1 st)) = true ∧
    (stateOf (Call.exec (C53.cfg1 st) (.run 100 2 (1/10) 10) (C53.ready1 st))).s.sv = some [28] ∧
    returns (Call.exec (C53.cfg1 st) (.run 100 2 (1/10) 10) (C53.failed1 st)) = true ∧
    (stateOf (Call.exec (C53.cfg1 st) (.run 100 2 (1/10) 10) (C53.failed1 st))).s.sv = some [56] := by
  refine ⟨?_, ?_, ?_, ?_, ?_, ?_, ?_, ?_⟩ <;> (cases st <;> decide +kernel)

/-- A run that throws in a `post_step` (here of a `Memory` whose input the inputs callback did not assign): the blocks before it have been stepped.
Undisturbed, `run(1)` shows the old value 0 of the first memory; after a failed attempt it shows 1.  (A simulator that reuses its
order cannot run a model without state variables, see C19.) -/
theorem C53_refuted_memory (st : Strategy) (hst : st ≠ .reuse) :
    returns (Call.exec ((C53.cfg2 st).With (some (fun _ => ([], none))) (fun _ => ([], none)) none) (.run 100 1 (1/10) 10) (C53.ready2 st)) = false ∧
    (C53.failed2 st).s.tPrev = 0 ∧
    returns (Call.exec (C53.cfg2 st) (.run 100 1 (1/10) 10) (C53.ready2 st)) = true ∧
    (stateOf (Call.exec (C53.cfg2 st) (.run 100 1 (1/10) 10) (C53.ready2 st))).value 1 = some (.scalar 0) ∧
    returns (Call.exec (C53.cfg2 st) (.run 100 1 (1/10) 10) (C53.failed2 st)) = true ∧
    (stateOf (Call.exec (C53.cfg2 st) (.run 100 1 (1/10) 10) (C53.failed2 st))).value 1 = some (.scalar 1) := by
  refine ⟨?_, ?_, ?_, ?_, ?_, ?_⟩ <;> (cases st <;> first | exact (hst rfl).elim | decide +kernel)

end Pooya
