import Verif.Spec.Variant

/-! Calls of `run` that fail, and the calls after them. -/

namespace Pooya

variable {K : Type}

/-- No `post_step` of a block was called between the two states. -/
def NoPost (w w' : World K) : Prop := ∃ new, w'.log = new ++ w.log ∧ ∀ b t, Event.post b t ∉ new

/-- The same simulator and diagram with other inputs and another stepper (they may be what makes a call fail). -/
def Config.With (cfg : Config K) (i : Option (UserInput K)) (mi : UserInput K) (st : Option (Stepper K)) : Config K := { cfg with inputs := i, modelInput := mi, stepper := st }

/-- The two numbers can be compared (they are not NaN). -/
def Comparable [Arith K] (a b : K) : Prop := (a <. b) = true ∨ (a ==. b) = true ∨ (b <. a) = true

end Pooya
