import Verif.Spec.Simulated

/-! Specification of triggers. -/

namespace Pooya

variable {K : Type} [Arith K]

/-- The evaluation that ended in this state has set the boolean signal to `true`. -/
def Machine.fires (m : Machine K) (tr : SigId) : Prop := (m.w.sig tr).assigned = true ∧ m.value tr = some (.bool true)

/-- `init` has found the signal among the state variables, and has found none of them twice. -/
def Machine.Tracks (m : Machine K) (s : SigId) : Prop :=
  s ∈ m.s.scalarStates ++ m.s.arrayStates ∧ (m.s.scalarStates ++ m.s.arrayStates).Nodup

/-- A stepper at work: the states after each of the evaluations it asks for, and its result. -/
inductive Stages (cfg : Config K) : StepProg K → Machine K → List (Machine K) → List K × K → Machine K → Prop
  | ret (v : List K) (h : K) (m : Machine K) : Stages cfg (.ret v h) m [] (v, h) m
  | call {t : K} {x d : List K} {k : List K → StepProg K} {m m1 m' : Machine K} {ms : List (Machine K)} {r : List K × K} :
      minorCb cfg t x m = .ok d m1 → Stages cfg (k d) m1 ms r m' → Stages cfg (.call t x k) m (m1 :: ms) r m'

end Pooya
