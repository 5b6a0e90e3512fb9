import Verif.Proof.Dirty
import Verif.Props.C36

/-! # C54 — a diagram can be simulated again by a new simulator

Full claim: a new simulator, on a diagram that other simulators have processed before, does the same as on a diagram with the same signals and
block members that has never been processed.  This holds for `Simulator` (`C54_simulator_partial`) and is false of `FastSimulator`, which rejects
such a diagram (`C54_refuted_fast`). -/

namespace Pooya

set_option linter.unusedSectionVars false

variable {K : Type} [Arith K]

/-- A `Simulator`, with or without `reuse_order`: whatever `_processed` flags earlier simulations have left on the blocks of the model, `init` and any
calls of `run` return with exactly the same diagram and simulator, or throw the same, as if no block had been processed. -/
theorem C54_simulator_partial (cfg : Config K) (hst : cfg.strategy ≠ .fast) (w : World K) (flags : BlkId → Bool)
    (hf : ∀ b, b ∉ cfg.model.ids → flags b = false) (hw : ∀ b, w.done b = false) (t t0 : K) (as : List (RunArgs K)) :
    match simulate cfg t0 as (fresh { w with done := flags } t), simulate cfg t0 as (fresh w t) with
    | .ok _ m1, .ok _ m2 => m1 = m2
    | .error e1 _, .error e2 _ => e1 = e2
    | _, _ => False := by
  have h : SameRes (simulate cfg t0 as (fresh { w with done := flags } t)) (simulate cfg t0 as (fresh w t)) :=
    dirty_simulate hst t0 as ⟨⟨rfl, rfl, rfl, fun b hb => (hf b hb).trans (hw b).symm⟩, rfl⟩
  cases h1 : simulate cfg t0 as (fresh { w with done := flags } t) <;> cases h2 : simulate cfg t0 as (fresh w t) <;> rw [h1, h2] at h
  · exact h.2
  · exact h
  · exact h
  · exact h

/-- All blocks are marked, as after any complete evaluation. -/
def C54.marked (b : BlkId) : Bool := decide (b ∈ (Demo.cfg .reuse).model.ids)

example : (Demo.cfg .reuse).strategy ≠ .fast ∧ (∀ b, b ∉ (Demo.cfg .reuse).model.ids → C54.marked b = false) ∧ (∀ b, Demo.world.done b = false) ∧
    (∀ b ∈ (Demo.cfg .reuse).model.ids, (C36.ready .reuse).w.done b = C54.marked b) ∧
    returns (simulate (Demo.cfg .reuse) 0 [⟨100, 1, 1/10, 10⟩] (fresh { Demo.world with done := C54.marked } 0)) = true :=
  ⟨by decide, fun _ hb => decide_eq_false hb, fun _ => rfl, by decide +kernel, by decide +kernel⟩

/-- `FastSimulator::init` never accepts a model with a leaf block that is marked as processed. -/
theorem C54_refuted_fast (cfg : Config K) (hp : cfg.model.Proper) (hst : cfg.strategy = .fast) (l : Leaf K) (hl : l ∈ cfg.model.leaves)
    (m : Machine K) (hd : m.w.done l.id = true) (t0 : K) : ∀ m', simInit cfg t0 m ≠ .ok () m' :=
  fun _ => fast_rejects hp hst t0 hl hd

/-- The example model, which a `FastSimulator` accepts if it is new, but not after a `Simulator` has used it. -/
example : returns (simInit (Demo.cfg .fast) 0 (fresh Demo.world 0)) = true ∧ Demo.add ∈ (Demo.cfg .fast).model.leaves ∧
    (C36.ready .plain).w.done Demo.add.id = true ∧
    (match simInit (Demo.cfg .fast) 0 (fresh (C36.ready .plain).w 0) with | .error (.exc .notFast) _ => true | _ => false) = true := by
  refine ⟨by decide +kernel, ?_, by decide +kernel, by decide +kernel⟩
  have e : (Demo.cfg .fast).model.leaves = [Demo.add, Demo.gain, Demo.source, Demo.integ] := Demo.leaves_eq
  rw [e]; simp

end Pooya
