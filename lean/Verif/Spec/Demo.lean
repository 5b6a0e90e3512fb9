import Verif.Model.Field
import Verif.Spec.Reach
import Verif.Spec.Wiring

/-! A small diagram with feedback, used in examples: `x' = 2 u(t) + x`, where `u` is a source, in the
submodel 100, with the gain in a nested submodel and blocks in an order that is not the data flow order. -/

namespace Pooya.Demo

abbrev rq : Flags := 9#32
abbrev ot : Flags := 2#32
abbrev inp : Flags := 1#32
/-- the output of an integrator -/
abbrev st : Flags := 10#32

/-- `add`: ins 1 (gain) and 2 (state), out 3 (derivative) -/
def add : Leaf ℚ := { id := 1, links := [(1, rq), (2, rq), (3, ot)], kind := .add (.scalar 0) [1, 2] 3 }
/-- `gain`: in 0, out 1 -/
def gain : Leaf ℚ := { id := 2, links := [(0, rq), (1, ot)], kind := .gain (.scalar 2) 0 1 }
/-- `source`: out 0 -/
def source : Leaf ℚ := { id := 3, links := [(0, ot)], kind := .source (fun t => .ok (.scalar (t + 1))) 0 }
/-- `integrator`: in 3, out 2 -/
def integ : Leaf ℚ := { id := 4, links := [(3, inp), (2, st)], kind := .integrator 3 2 }

def model : Block ℚ :=
  .sub 100 [] [.leaf add, .sub 101 [] [.leaf gain], .leaf source, .leaf integ]

def world : World ℚ where
  sig _ := { ty := .scalar }
  mem _ := { value := .scalar 5 }
  done _ := false
  log := []

def cfg (st : Strategy) : Config ℚ where
  dbg := true
  model := model
  deriv s := if s = 2 then some 3 else none
  inputs := none
  modelInput _ := ([], none)
  stepper := some euler
  strategy := st
  hash := id

def start : Machine ℚ := { w := world, s := { tPrev := 0 } }

/-- After `init(0)`, then `run(1, 0.1, 10)`. -/
def after (st : Strategy) : Machine ℚ :=
  stateOf (Call.exec (cfg st) (.run 100 1 (1/10) 10) (stateOf (Call.exec (cfg st) (.init 0) start)))

theorem proper (st : Strategy) : (cfg st).model.Proper := by
  show model.Proper
  unfold Block.Proper; decide +kernel

theorem leaves_eq : model.leaves = [add, gain, source, integ] := by
  simp [model, Block.leaves, leavesL]

theorem wired (st : Strategy) : Wired (cfg st).model.leaves := by
  show Wired model.leaves
  refine ⟨by decide +kernel, ?_, ?_⟩
  · rw [leaves_eq]; decide +kernel
  · rw [leaves_eq]
    intro l hl s hs
    simp only [List.mem_cons, List.not_mem_nil, or_false] at hl
    rcases hl with rfl | rfl | rfl | rfl
    · exact ⟨rq, by revert s; decide +kernel, by decide⟩
    · exact ⟨rq, by revert s; decide +kernel, by decide⟩
    · exact (List.not_mem_nil hs).elim
    · exact (List.not_mem_nil hs).elim

theorem reach (st : Strategy) : Reach (cfg st) (after st) :=
  .call _ (.call _ (.new world 0 (fun _ => rfl) rfl))

end Pooya.Demo
