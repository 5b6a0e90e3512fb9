import Verif.Spec.Passage
import Verif.Spec.Steps

/-! The step size control: which steps are tried, and which of them are accepted. -/

namespace Pooya

variable {K : Type}

/-- The step from `t1` to `t2` is accepted: it is forced, or not longer than the step size `q` the method proposes, or not longer than the smallest one. -/
def Suits [Arith K] (minH t1 t2 : K) (force : Bool) (q : K) : Prop := force = true ∨ ((t2 -. t1) <=. q) = true ∨ ((t2 -. t1) <=. minH) = true

/-- The proposed step size within the limits. -/
def limited [Arith K] (minH maxH q : K) : K := fmax minH (fmin q maxH)

/-- The course to the time `t` with step size control: from time `t1`, state `x`, members `mem`, the next trial step being the one to `t2`.  A rejected step is
tried again from the same state with the proposed step size, and accepted in any case if the proposed step size was not larger than the smallest one.  After an accepted
one the next step has the proposed size but does not go beyond `t`.  `es` are the trial steps and the accepted ones in their order; the course ends with the state
`y`, the values `val` of the signals, and the members `mem'`. -/
inductive Adapts [Arith K] (cfg : Config K) (V : Vars) (st : Stepper K) (minH maxH t : K) :
    (BlkId → Mem K) → K → K → Bool → List K → List (StepEv K) → List K → (SigId → Option (Val K)) → (BlkId → Mem K) → Prop
  | reject {mem mem' : BlkId → Mem K} {t1 t2 q : K} {force : Bool} {x x1 y : List K} {es : List (StepEv K)} {val : SigId → Option (Val K)} :
      (t1 <. t) = true → (st t1 x t2).By (Rhs cfg V mem) (x1, q) → ¬ Suits minH t1 t2 force q →
      Adapts cfg V st minH maxH t mem t1 (t1 +. limited minH maxH q) (q <=. minH) x es y val mem' →
      Adapts cfg V st minH maxH t mem t1 t2 force x (.trial t1 t2 :: es) y val mem'
  | step {mem mem1 mem' : BlkId → Mem K} {t1 t2 q : K} {force : Bool} {x x1 y : List K} {es : List (StepEv K)} {val1 val : SigId → Option (Val K)} :
      (t1 <. t) = true → (st t1 x t2).By (Rhs cfg V mem) (x1, q) → Suits minH t1 t2 force q → (t2 <. t) = true → Committed cfg V mem t2 x1 val1 mem1 →
      Adapts cfg V st minH maxH t mem1 t2 (fmin (t2 +. limited minH maxH q) t) false x1 es y val mem' →
      Adapts cfg V st minH maxH t mem t1 t2 force x (.trial t1 t2 :: .accept t1 t2 :: es) y val mem'
  | last {mem mem' : BlkId → Mem K} {t1 t2 q : K} {force : Bool} {x y : List K} {val : SigId → Option (Val K)} :
      (t1 <. t) = true → (st t1 x t2).By (Rhs cfg V mem) (y, q) → Suits minH t1 t2 force q → (t2 <. t) = false → Committed cfg V mem t y val mem' →
      Adapts cfg V st minH maxH t mem t1 t2 force x [.trial t1 t2, .accept t1 t2] y val mem'

/-- From one snapshot the diagram gets to another one by way of the given times.  With integrators, the first step tried from each time is the one to the next time.
`es` are all trial and accepted steps. -/
inductive Paces [Arith K] (cfg : Config K) (V : Vars) (minH maxH : K) : Snapshot K → List K → List (StepEv K) → Snapshot K → Prop
  | nil {a : Snapshot K} : Paces cfg V minH maxH a [] [] a
  | steps {a b c : Snapshot K} {ts : List K} {st : Stepper K} {es es' : List (StepEv K)} : V.scalars ++ V.arrays ≠ [] → cfg.stepper = some st →
      Adapts cfg V st minH maxH b.time a.mem a.time b.time false a.state es b.state b.vals b.mem → Paces cfg V minH maxH b ts es' c →
      Paces cfg V minH maxH a (b.time :: ts) (es ++ es') c
  | sample {a b c : Snapshot K} {ts : List K} {es : List (StepEv K)} : V.scalars ++ V.arrays = [] → Committed cfg V a.mem b.time b.state b.vals b.mem →
      Paces cfg V minH maxH b ts es c → Paces cfg V minH maxH a (b.time :: ts) es c

end Pooya
