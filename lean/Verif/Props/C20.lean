import Verif.Proof.FastInit
import Verif.Proof.TiedInit
import Verif.Props.C18
import Verif.Props.C22
import Verif.Props.C33

/-! C20: FastSimulator is equivalent to Simulator. -/

namespace Pooya

set_option linter.unusedSectionVars false

variable {K : Type} [Arith K]

/-- If `FastSimulator::init` accepts a model, it has found a processing order of all leaf blocks in which every block requires only signals
that are assigned from outside (inputs, `pre_step`) and outputs of blocks before it. -/
theorem C20_order (cfg : Config K) (hp : cfg.model.Proper) (hash : ∀ l, (cfg.hash l).Perm l) (hst : cfg.strategy = .fast) {t : K}
    {m m' : Machine K} (hnew : m.s.fast = []) (h : simInit cfg t m = .ok () m') : cfg.FastOrder m'.s.fast.flatten :=
  fastOrder_init hp hash hst hnew h

/-- From then on every evaluation, at any time and from any state in which the required inputs and states are assigned, gives the same
signal values and block members as that of a `Simulator`, or both throw.  (Blocks always assign all their outputs; no `BusBlockBuilder`s.)
Full statement: the same for whole runs including `init`; this is false, see `C20_refuted_init`. -/
theorem C20_same_results_partial (cfg : Config K) (hp : cfg.model.Proper) (hst : cfg.strategy = .fast) (hW : Wired cfg.model.leaves)
    (hA : ∀ l ∈ cfg.model.leaves, l.Assigns) (hb : ∀ b ∈ cfg.model.all, b.isBuilder = false)
    {m m2 : Machine K} (ho : cfg.FastOrder m.s.fast.flatten) (hw : SameView m.w m2.w) (hs : Supplied cfg m.w)
    (hfree : ∀ l ∈ cfg.model.leaves, ∀ s ∈ l.outs, (m.w.sig s).assigned = false) (t : K) :
    match evalModel cfg t m, evalModel { cfg with strategy := .plain } t m2 with
    | .ok _ m1', .ok _ m2' => SameView m1'.w m2'.w
    | .error _ _, .error _ _ => True
    | _, _ => False :=
  eval_any cfg { cfg with strategy := .plain } rfl (List.Perm.refl _) hW
    ⟨hp, hb, (fun e => by rw [hst] at e; cases e), fun _ => ⟨ho, hA⟩⟩ ⟨hp, hb, (fun e => by cases e), (fun e => by cases e)⟩ hw hfree
    (fun _ => hs) (fun e => by cases e) t

/-- Whole simulations: if `FastSimulator::init` accepts a well-formed model, then for any sequence of calls `init`, `run`, …, `run` both kinds of
simulator throw, or both return and agree on all signals, block members, the time and the state variables.  (Inputs always assign the same signals,
blocks always assign all their outputs, the activation functions and `pre_step`s of the blocks do not change members.) -/
theorem C20_same_runs_partial (cfg : Config K) (hs : cfg.Sound) (hq : cfg.Steady) (w : World K) (hd : ∀ b, w.done b = false) (hty : cfg.Typed w)
    (hquiet : ∀ l ∈ cfg.model.leaves, l.Quiet (w.mem l.id)) (t t0 : K) (m' : Machine K)
    (hacc : simInit { cfg with strategy := .fast } t0 (fresh w t) = .ok () m') (as : List (RunArgs K)) :
    SameOutcome (simulate { cfg with strategy := .fast } t0 as (fresh w t)) (simulate { cfg with strategy := .plain } t0 as (fresh w t)) :=
  simulate_same (c1 := { cfg with strategy := .fast }) (c2 := { cfg with strategy := .plain }) ⟨⟨rfl, .refl _, fun _ => .rfl, rfl, rfl, rfl, rfl⟩,
      hs.with _ hs.hash,
      hs.with _ hs.hash, fun _ => ⟨hq.inputs, hq.assigns, hq.preOuts⟩⟩
    ⟨hd, ⟨hty.float, hty.deriv⟩, fun e => (by rcases e with e | e <;> cases e), fun _ => hquiet⟩ (fun _ => ⟨m', hacc⟩) (fun e => by cases e) as

namespace C20

/-- The hypotheses of `C20_same_runs_partial`, and the result of two runs. -/
example : (Demo.cfg .fast).Sound ∧ (Demo.cfg .fast).Steady ∧ (∀ b, Demo.world.done b = false) ∧ (Demo.cfg .fast).Typed Demo.world ∧
    (∀ l ∈ (Demo.cfg .fast).model.leaves, l.Quiet (Demo.world.mem l.id)) ∧ returns (simInit (Demo.cfg .fast) 0 (fresh Demo.world 0)) = true ∧
    (stateOf (simulate (Demo.cfg .fast) 0 [⟨100, 1, 1/10, 10⟩, ⟨100, 2, 1/10, 10⟩] (fresh Demo.world 0))).s.sv = some [28] := by
  refine ⟨C18.demo_sound _, C18.demo_steady _, fun _ => rfl, C18.demo_typed _, ?_, by decide +kernel, by decide +kernel⟩
  have e : (Demo.cfg .fast).model.leaves = [Demo.add, Demo.gain, Demo.source, Demo.integ] := Demo.leaves_eq
  rw [e]
  intro l hl
  simp only [List.mem_cons, List.not_mem_nil, or_false] at hl
  rcases hl with rfl | rfl | rfl | rfl <;> simp [Leaf.Quiet, Demo.add, Demo.gain, Demo.source, Demo.integ]

/-- The trigger is always set. -/
def trig : Leaf ℚ := { id := 2, links := [(5, Demo.ot)], kind := .const (.bool true) 5 }

def cfg (st : Strategy) : Config ℚ := { C33.cfg st with model := .sub 100 [] [.leaf C33.slope, .leaf trig, .leaf C33.tint] }

def ready (st : Strategy) : Machine ℚ := stateOf (Call.exec (cfg st) (.init 0) C33.start)

/-- The hypotheses of `C20_order`: `init` succeeds on the diagram `x' = 2 u(t) + x`. -/
example : (Demo.cfg .fast).model.Proper ∧ (∀ l, ((Demo.cfg .fast).hash l).Perm l) ∧ Demo.start.s.fast = [] ∧
    returns (simInit (Demo.cfg .fast) 0 Demo.start) = true ∧
    (C36.ready .fast).s.fast.map (·.map Leaf.id) = [[3, 4], [2], [1]] := by
  refine ⟨Demo.proper _, (C36.owned .fast).hash, rfl, ?_, ?_⟩ <;> decide +kernel

/-- A state at which a minor step evaluates. -/
def mid : Machine ℚ := stateOf (resetWith (Demo.cfg .fast) [7] (C36.ready .fast))

/-- The hypotheses of `C20_same_results_partial`. -/
example : Wired (Demo.cfg .fast).model.leaves ∧ (∀ l ∈ (Demo.cfg .fast).model.leaves, l.Assigns) ∧
    (∀ b ∈ (Demo.cfg .fast).model.all, b.isBuilder = false) ∧ (Demo.cfg .fast).FastOrder mid.s.fast.flatten ∧
    Supplied (Demo.cfg .fast) mid.w ∧ (∀ l ∈ (Demo.cfg .fast).model.leaves, ∀ s ∈ l.outs, (mid.w.sig s).assigned = false) ∧
    returns (evalModel (Demo.cfg .fast) 3 mid) = true := by
  have hlv : (Demo.cfg .fast).model.leaves = [Demo.add, Demo.gain, Demo.source, Demo.integ] := Demo.leaves_eq
  refine ⟨Demo.wired _, ?_, ?_, ?_, ?_, ?_, by decide +kernel⟩
  · rw [hlv]
    intro l hl
    simp only [List.mem_cons, List.not_mem_nil, or_false] at hl
    rcases hl with rfl | rfl | rfl | rfl <;> exact assigns_library _ (by simp [Demo.add, Demo.gain, Demo.source, Demo.integ])
  · show ∀ b ∈ Demo.model.all, b.isBuilder = false
    simp [Demo.model, Block.all, allL, Block.isBuilder, Demo.add, Demo.gain, Demo.source, Demo.integ]
  · have h := C20_order (Demo.cfg .fast) (Demo.proper _) (C36.owned .fast).hash rfl (m := Demo.start) rfl
      (eq_of_returns (r := simInit (Demo.cfg .fast) 0 Demo.start) (by decide +kernel))
    have e : mid.s = (C36.ready .fast).s := resetWith_sim (Demo.cfg .fast) [7] (C36.ready .fast)
    rw [e]
    have e2 : C36.ready .fast = stateOf (simInit (Demo.cfg .fast) 0 Demo.start) := rfl
    rw [e2]
    exact h
  · rintro s (⟨t, ht⟩ | ⟨l, hl, hs⟩) _
    · cases ht
    · rw [hlv] at hl
      simp only [List.mem_cons, List.not_mem_nil, or_false] at hl
      have : s = 2 := by
        rcases hl with rfl | rfl | rfl | rfl <;> simpa [Leaf.preOuts, Kind.preOuts, Demo.add, Demo.gain, Demo.source, Demo.integ] using hs
      subst this; decide +kernel
  · rw [hlv]; decide +kernel

end C20

/-- The members of blocks can differ after `init`, and with them the whole simulation: a `TriggeredIntegrator` whose trigger is set at `t0` starts
with its initial value 5 in a `Simulator`, but with 0 in a `FastSimulator`, since the ordering pass has triggered it. -/
theorem C20_refuted_init :
    returns (simInit (C20.cfg .plain) 0 C33.start) = true ∧ returns (simInit (C20.cfg .fast) 0 C33.start) = true ∧
    (C20.ready .plain).value 2 = some (.scalar 5) ∧ (C20.ready .fast).value 2 = some (.scalar 0) := by
  refine ⟨?_, ?_, ?_, ?_⟩ <;> decide +kernel

end Pooya
