import Verif.Proof.Again
import Verif.Props.C36

/-! # C34 — a simulator can be initialised again

Full claim: calling `init` a second time restarts the bookkeeping as the first call did.  This is false of the code for models with state
variables, and for `reuse_order` and `FastSimulator` (`C34_refuted_*`); `C34_again_partial` proves it for a `Simulator` without `reuse_order`
and models without state variables. -/

namespace Pooya

set_option linter.unusedSectionVars false

variable {K : Type} [Arith K]

/-- Both throw the same, or both return; and the diagrams and the times are the same. -/
def C34.SameEnd : EStateM.Result Err (Machine K) Unit → EStateM.Result Err (Machine K) Unit → Prop
  | .ok _ m1, .ok _ m2 => m1.w = m2.w ∧ m1.s.tPrev = m2.s.tPrev
  | .error e1 m1, .error e2 m2 => e1 = e2 ∧ m1.w = m2.w ∧ m1.s.tPrev = m2.s.tPrev
  | _, _ => False

/-- After any history of calls (returning or throwing, including calls of `init`) and changes of signals by the user, `init` followed by any
calls of `run` does exactly the same as with a new simulator on the same diagram. -/
theorem C34_again_partial (cfg : Config K) (hst : cfg.strategy = .plain) (hh : ∀ l, (cfg.hash l).Perm l) (hd : ∀ s, cfg.deriv s = none)
    {m : Machine K} (h : Reach cfg m) (t t0 : K) (as : List (RunArgs K)) :
    C34.SameEnd (simulate cfg t0 as m) (simulate cfg t0 as (fresh m.w t)) := by
  have hb := bare_reach hst hh hd h
  have := again_simulate hst hh hd t0 as (m1 := m) (m2 := fresh m.w t) rfl hb ⟨rfl, rfl, rfl, rfl, fun s hs => by cases hs⟩
  cases h1 : simulate cfg t0 as m with
  | ok _ n1 =>
    cases h2 : simulate cfg t0 as (fresh m.w t) with
    | ok _ n2 => rw [h1, h2] at this; exact ⟨this.2.w, this.2.time⟩
    | error e n2 => rw [h1, h2] at this; exact this.elim
  | error e n1 =>
    cases h2 : simulate cfg t0 as (fresh m.w t) with
    | ok _ n2 => rw [h1, h2] at this; cases this
    | error e n2 =>
      rw [h1, h2] at this
      obtain ⟨e, a⟩ := this.resolve_left (by simp)
      exact ⟨e, a.w, a.time⟩

namespace C34

/-- A `Memory` (id 2, signal 0 to 1) behind the source `t + 1`: no state variables, but members that change. -/
def cfg : Config ℚ := { Demo.cfg .plain with
  model := .sub 100 [] [.leaf Demo.source, .leaf { id := 2, links := [(0, Demo.inp), (1, Demo.ot)], kind := .memory 0 1 }]
  deriv := fun _ => none
  stepper := none }

def used : Machine ℚ := stateOf (Call.exec cfg (.run 10 3 (1/10) 10) (stateOf (Call.exec cfg (.init 0) Demo.start)))

/-- The hypotheses of `C34_again_partial`: `init(0)`, `run(3)`, and now `init(7)`, `run(8)`. -/
example : (∀ l, (cfg.hash l).Perm l) ∧ Reach cfg used ∧ (∀ s, cfg.deriv s = none) ∧
    returns (simulate cfg 7 [⟨10, 8, 1/10, 10⟩] used) = true ∧ (stateOf (simulate cfg 7 [⟨10, 8, 1/10, 10⟩] used)).s.tPrev = 8 ∧
    (stateOf (simulate cfg 7 [⟨10, 8, 1/10, 10⟩] used)).s.valueSigs.length = 4 :=
  ⟨fun _ => .refl _, .call _ (.call _ (.new Demo.world 0 (fun _ => rfl) rfl)), fun _ => rfl, by decide +kernel, by decide +kernel, by decide +kernel⟩

end C34

/-- With state variables the second `init` returns, but it has listed the state signals again, and the next `run` writes outside of the state
vector. -/
theorem C34_refuted_states :
    returns (simInit (Demo.cfg .plain) 0 (C36.ready .plain)) = true ∧
    (stateOf (simInit (Demo.cfg .plain) 0 (C36.ready .plain))).s.scalarStates = [2, 2] ∧
    (match run (Demo.cfg .plain) 100 1 (1/10) 10 (stateOf (simInit (Demo.cfg .plain) 0 (C36.ready .plain))) with
      | .error (.ub .outOfBounds) _ => true | _ => false) = true := by
  refine ⟨?_, ?_, ?_⟩ <;> decide +kernel

/-- In debug builds the second `init` with `reuse_order` or of a `FastSimulator` throws. -/
theorem C34_refuted_debug :
    (match simInit (Demo.cfg .reuse) 0 (C36.ready .reuse) with | .error (.exc .debugVerify) _ => true | _ => false) = true ∧
    (match simInit (Demo.cfg .fast) 0 (C36.ready .fast) with | .error (.exc .debugVerify) _ => true | _ => false) = true := by
  constructor <;> decide +kernel

/-- In release builds the second `init` of a `FastSimulator` rejects the model it has accepted before, since all blocks are still marked as
processed. -/
theorem C34_refuted_fast :
    returns (simInit { Demo.cfg .fast with dbg := false } 0 Demo.start) = true ∧
    (match simInit { Demo.cfg .fast with dbg := false } 0 (stateOf (simInit { Demo.cfg .fast with dbg := false } 0 Demo.start)) with
      | .error (.exc .notFast) _ => true | _ => false) = true := by
  constructor <;> decide +kernel

namespace C34

/-- A source that works, and one whose function throws as long as `bad`. -/
def late (bad : Bool) (dbg : Bool) : Config ℚ := { Demo.cfg .fast with
  dbg := dbg
  model := .sub 100 [] [.leaf { id := 1, links := [(0, Demo.ot)], kind := .source (fun t => .ok (.scalar t)) 0 },
    .leaf { id := 2, links := [(1, Demo.ot)], kind := .source (fun t => if bad then .error (.exc .outOfRange) else .ok (.scalar t)) 1 }]
  deriv := fun _ => none
  stepper := none }

def broken (dbg : Bool) : Machine ℚ := stateOf (simInit (late true dbg) 0 Demo.start)

end C34

/-- A `FastSimulator` whose first `init` threw in a block can never be initialised: it has kept the part of the order found before.  In debug builds
`init` throws from then on, even if the block works now; in release builds it rejects the model, which a new simulator accepts. -/
theorem C34_refuted_failed (dbg : Bool) :
    (match simInit (C34.late true dbg) 0 Demo.start with | .error (.exc .outOfRange) _ => true | _ => false) = true ∧
    (C34.broken dbg).s.fast.map (·.map Leaf.id) = [[1]] ∧
    returns (simInit (C34.late false dbg) 0 Demo.start) = true ∧
    (match simInit (C34.late false dbg) 0 (C34.broken dbg) with
      | .error (.exc .debugVerify) _ => dbg | .error (.exc .notFast) _ => !dbg | _ => false) = true := by
  cases dbg <;> refine ⟨?_, ?_, ?_, ?_⟩ <;> decide +kernel

end Pooya
