import Verif.Spec.Pace

/-! Step size control in diagrams with `TriggeredIntegrator`s, by their equations: the members change in the middle of a step. -/

namespace Pooya

variable {K : Type}

/-- The members at the beginning of a trial step: a pending reset is carried out. -/
def Leaf.begun [Arith K] (l : Leaf K) (mem : Mem K) : Mem K :=
  match l.kind with
  | .trigInt _ _ _ => if mem.triggered then { mem with value := mem.value.nought, triggered := false } else mem
  | _ => mem

/-- The signal has the value `true`. -/
def isSet (val : SigId → Option (Val K)) (s : SigId) : Bool :=
  match val s with
  | some (.bool b) => b
  | _ => false

/-- The members after an evaluation with the values `val`: a `TriggeredIntegrator` notes that its trigger was set. -/
def Leaf.noted (l : Leaf K) (val : SigId → Option (Val K)) (mem : Mem K) : Mem K :=
  match l.kind with
  | .trigInt _ tr _ => { mem with triggered := mem.triggered || isSet val tr }
  | _ => mem

/-- An evaluation at `(t, x)`: the derivative signals form the vector `d`, the members change from `mem` to `mem'`. -/
def Stage [Arith K] (cfg : Config K) (V : Vars) (mem : BlkId → Mem K) (t : K) (x d : List K) (mem' : BlkId → Mem K) : Prop :=
  ∃ val, Solution cfg V mem t x val ∧ Packed (fun s => (cfg.deriv s).bind val) (fun s => (cfg.deriv s).elim 0 V.size) V.scalars V.arrays d ∧
    ∀ l ∈ cfg.model.leaves, mem' l.id = l.noted val (mem l.id)

/-- The step, with slopes given by the relation `R` on something that changes from `a` to `b`, ends with `r`: the new vector and the proposed step size. -/
def StepProg.Along {σ : Type} (R : σ → K → List K → List K → σ → Prop) : StepProg K → σ → List K × K → σ → Prop
  | .ret v h, a, r, b => r = (v, h) ∧ b = a
  | .call t v k, a, r, b => ∃ d c, R a t v d c ∧ (k d).Along R c r b

/-- A trial step from `t1` to `t2`: it begins with the pending resets, its state is that of the integrators afterwards. -/
def Attempt [Arith K] (cfg : Config K) (V : Vars) (st : Stepper K) (mem : BlkId → Mem K) (t1 t2 : K) (r : List K × K) (mem' : BlkId → Mem K) : Prop :=
  ∃ (mem0 : BlkId → Mem K) (x : List K), (∀ l ∈ cfg.model.leaves, mem0 l.id = l.begun (mem l.id)) ∧ cfg.Stands V mem0 x ∧ (st t1 x t2).Along (Stage cfg V) mem0 r mem'

/-- A step ends at `t` with the state `x`: the values of the signals, and the members of the blocks from then on. -/
structure Closes [Arith K] (cfg : Config K) (V : Vars) (mem : BlkId → Mem K) (t : K) (x : List K) (val : SigId → Option (Val K)) (mem' : BlkId → Mem K) : Prop where
  solution : Solution cfg V mem t x val
  stored : ∀ l ∈ cfg.model.leaves, l.Stored t val (l.noted val (mem l.id)) (mem' l.id)

/-- The course to the time `t` with step size control: from time `t1` and the members `mem`, the next trial step being the one to `t2`; the rules for the steps are
those of `Adapts`.  What a rejected step has noted remains noted, so that the next attempt begins with a reset if a trigger was set in the rejected one. -/
inductive Resets [Arith K] (cfg : Config K) (V : Vars) (st : Stepper K) (minH maxH t : K) :
    (BlkId → Mem K) → K → K → Bool → List (StepEv K) → List K → (SigId → Option (Val K)) → (BlkId → Mem K) → Prop
  | reject {mem mem1 mem' : BlkId → Mem K} {t1 t2 q : K} {force : Bool} {x1 y : List K} {es : List (StepEv K)} {val : SigId → Option (Val K)} :
      (t1 <. t) = true → Attempt cfg V st mem t1 t2 (x1, q) mem1 → ¬ Suits minH t1 t2 force q →
      Resets cfg V st minH maxH t mem1 t1 (t1 +. limited minH maxH q) (q <=. minH) es y val mem' →
      Resets cfg V st minH maxH t mem t1 t2 force (.trial t1 t2 :: es) y val mem'
  | step {mem mem1 mem2 mem' : BlkId → Mem K} {t1 t2 q : K} {force : Bool} {x1 y : List K} {es : List (StepEv K)} {val1 val : SigId → Option (Val K)} :
      (t1 <. t) = true → Attempt cfg V st mem t1 t2 (x1, q) mem1 → Suits minH t1 t2 force q → (t2 <. t) = true → Closes cfg V mem1 t2 x1 val1 mem2 →
      Resets cfg V st minH maxH t mem2 t2 (fmin (t2 +. limited minH maxH q) t) false es y val mem' →
      Resets cfg V st minH maxH t mem t1 t2 force (.trial t1 t2 :: .accept t1 t2 :: es) y val mem'
  | last {mem mem1 mem' : BlkId → Mem K} {t1 t2 q : K} {force : Bool} {y : List K} {val : SigId → Option (Val K)} :
      (t1 <. t) = true → Attempt cfg V st mem t1 t2 (y, q) mem1 → Suits minH t1 t2 force q → (t2 <. t) = false → Closes cfg V mem1 t y val mem' →
      Resets cfg V st minH maxH t mem t1 t2 force [.trial t1 t2, .accept t1 t2] y val mem'

/-- Calls of `run` to the given times, from the members `mem` and the time `t`: `es` are the trial and the accepted steps, and at the end there are the values `val` of
the signals and the members `mem'`. -/
inductive ResetsTo [Arith K] (cfg : Config K) (V : Vars) (st : Stepper K) (minH maxH : K) :
    (BlkId → Mem K) → (SigId → Option (Val K)) → K → List K → List (StepEv K) → (BlkId → Mem K) → (SigId → Option (Val K)) → Prop
  | nil {mem : BlkId → Mem K} {val : SigId → Option (Val K)} {t : K} : ResetsTo cfg V st minH maxH mem val t [] [] mem val
  | cons {mem mem1 mem' : BlkId → Mem K} {val val1 val' : SigId → Option (Val K)} {t u : K} {us : List K} {es es' : List (StepEv K)} {y : List K} :
      Resets cfg V st minH maxH u mem t u false es y val1 mem1 → ResetsTo cfg V st minH maxH mem1 val1 u us es' mem' val' →
      ResetsTo cfg V st minH maxH mem val t (u :: us) (es ++ es') mem' val'

/-- A block that changes its members only in `post_step` (once it has been through one), or a `TriggeredIntegrator` as the library makes it: it requires its trigger
and its output. -/
def Leaf.Tame (l : Leaf K) : Prop := l.Calm ∨ ∃ x tr o, l.kind = .trigInt x tr o ∧ ∀ s f, (s, f) ∈ l.links → f.isRequired = true → s = tr ∨ s = o

end Pooya
