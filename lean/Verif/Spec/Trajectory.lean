import Verif.Spec.Evolve
import Verif.Spec.Sealed
import Verif.Spec.Steps

/-! The points a one-step method computes, and sequences of calls of `run`. -/

namespace Pooya

variable {K : Type}

/-- The state the method `st` reaches from the state `x` at time `t`, with the right-hand side `f` and one step to each of the times. -/
def Stepper.iterate (st : Stepper K) (f : K → List K → List K) : K → List K → List K → List K
  | _, x, [] => x
  | t, x, u :: us => Stepper.iterate st f u ((st t x u).exec (m := Id) f).1 us

/-- The state the method `st` reaches from the state `x` with the given steps. -/
def Stepper.over (st : Stepper K) (f : K → List K → List K) (x : List K) (steps : List (K × K)) : List K :=
  steps.foldl (fun x p => ((st p.1 x p.2).exec (m := Id) f).1) x

/-- From the state `x` at time `t` the method reaches the state `y`, with steps of its choice that follow each other and end at each of the times. -/
inductive Follows [LT K] (st : Stepper K) (f : K → List K → List K) : K → List K → List K → List K → Prop
  | nil {t : K} {x : List K} : Follows st f t x [] x
  | cons {t u : K} {x y us : List K} (steps : List (K × K)) : Tiles t u steps → Follows st f u (st.over f x steps) us y → Follows st f t x (u :: us) y

/-- Calls `run(t, minH, maxH)`, for one time after the other, return. -/
inductive RunsTo [Arith K] (cfg : Config K) (minH maxH : K) : Machine K → List K → Machine K → Prop
  | nil {m : Machine K} : RunsTo cfg minH maxH m [] m
  | cons {m m1 m' : Machine K} {t : K} {ts : List K} (fuel : Nat) : Call.exec cfg (.run fuel t minH maxH) m = .ok () m1 →
      RunsTo cfg minH maxH m1 ts m' → RunsTo cfg minH maxH m (t :: ts) m'

/-- The output of the block is a function of time and its inputs at the same time, or the state of an integrator without trigger. -/
def Make.Memoryless : Make K → Prop
  | .memory _ | .delay _ _ | .derivative _ | .trigInt _ | .custom _ _ _ _ _ => False
  | _ => True

end Pooya
