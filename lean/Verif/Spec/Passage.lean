import Verif.Spec.Trajectory

/-! The course of a diagram with memory through a sequence of times. -/

namespace Pooya

variable {K : Type}

/-- A diagram at a time: the members of its blocks, the state of the integrators, the values of its signals. -/
structure Snapshot (K : Type) where
  mem : BlkId → Mem K
  time : K
  state : List K
  vals : SigId → Option (Val K)

/-- From one snapshot the diagram gets to another one by way of the given times.  With integrators it evolves from time to time in accepted steps of the method that
follow each other (one step for Euler and Rk4).  Without integrators the equations hold at each of the times, with what the blocks have stored before. -/
inductive Passes [Arith K] [LT K] (cfg : Config K) (V : Vars) : Snapshot K → List K → Snapshot K → Prop
  | nil {a : Snapshot K} : Passes cfg V a [] a
  | steps {a b c : Snapshot K} {ts : List K} {st : Stepper K} (steps : List (K × K)) : V.scalars ++ V.arrays ≠ [] → cfg.stepper = some st →
      Tiles a.time b.time steps → (st ∈ [euler, rk4] → steps = [(a.time, b.time)]) →
      Evolves cfg V st b.time a.mem a.time a.state steps b.state b.vals b.mem → Passes cfg V b ts c → Passes cfg V a (b.time :: ts) c
  | sample {a b c : Snapshot K} {ts : List K} : V.scalars ++ V.arrays = [] → Committed cfg V a.mem b.time b.state b.vals b.mem → Passes cfg V b ts c →
      Passes cfg V a (b.time :: ts) c

/-- All classes but `TriggeredIntegrator` and user-written ones. -/
def Make.Plain : Make K → Prop
  | .trigInt _ | .custom _ _ _ _ _ => False
  | _ => True

end Pooya
