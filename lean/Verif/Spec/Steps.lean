import Verif.Model.Simulator

/-! Specification of the solver steps of a call of `run`, read off the event log. -/

namespace Pooya

variable {K : Type}

/-- The stepper was asked to step from `a` to `b`; that step was accepted. -/
inductive StepEv (K : Type) where
  | trial (a b : K)
  | accept (a b : K)
deriving DecidableEq, Repr

def Event.step? : Event K → Option (StepEv K)
  | .trial a b => some (.trial a b)
  | .accept a b => some (.accept a b)
  | _ => none

/-- The solver steps in a part of the event log (newest first), oldest first. -/
def stepsIn (log : List (Event K)) : List (StepEv K) := (log.filterMap Event.step?).reverse

def StepEv.trial? : StepEv K → Option (K × K)
  | .trial a b => some (a, b)
  | _ => none

def StepEv.accept? : StepEv K → Option (K × K)
  | .accept a b => some (a, b)
  | _ => none

/-- The attempted steps, oldest first. -/
def trialsIn (log : List (Event K)) : List (K × K) := (stepsIn log).filterMap StepEv.trial?

/-- The accepted steps, oldest first. -/
def acceptsIn (log : List (Event K)) : List (K × K) := (stepsIn log).filterMap StepEv.accept?

/-- Intervals, each beginning where the previous one ended, from `s` to `t`. -/
inductive Tiles [LT K] : K → K → List (K × K) → Prop
  | done {t : K} : Tiles t t []
  | step {s u t : K} {l : List (K × K)} : s < u → Tiles u t l → Tiles s t ((s, u) :: l)

end Pooya
