import Verif.Spec.Equations
import Verif.Spec.Integ
import Verif.Spec.Reach

/-! The course of a block diagram in time, by its equations: no simulator, no evaluation order. -/

namespace Pooya

variable {K : Type}

/-- The signals that hold the state vector, scalars first, and the sizes of the signals. -/
structure Vars where
  scalars : List SigId
  arrays : List SigId
  size : SigId → Nat

/-- The state signals of a simulator. -/
def Machine.vars (m : Machine K) : Vars := ⟨m.s.scalarStates, m.s.arrayStates, m.w.size⟩

/-- What the user's input functions assign at time `t`. -/
def Config.inputVals (cfg : Config K) (t : K) : List (SigId × Val K) :=
  (match cfg.inputs with | some f => (f t).1 | none => []) ++ (cfg.modelInput t).1

/-- The state vector consists of the values of the integrators. -/
def Config.Stands (cfg : Config K) (V : Vars) (mem : BlkId → Mem K) (x : List K) : Prop :=
  Packed (fun s => (cfg.model.leaves.find? (fun l => decide (l.state = some s))).map (fun l => (mem l.id).value)) V.size V.scalars V.arrays x

/-- The values `val` of the signals solve the diagram at time `t`, with the state `x` and the members `mem` of the blocks: the inputs have the
values the user gives them, the state signals have the values in `x`, and the equation of every block holds whose required signals have values. -/
structure Solution [Arith K] (cfg : Config K) (V : Vars) (mem : BlkId → Mem K) (t : K) (x : List K) (val : SigId → Option (Val K)) : Prop where
  input : ∀ p ∈ cfg.inputVals t, val p.1 = some p.2
  state : Packed val V.size V.scalars V.arrays x
  block : ∀ l ∈ cfg.model.leaves, (∀ s f, (s, f) ∈ l.links → f.isRequired = true → ∃ v, val s = some v) → l.Solved t (mem l.id) val

/-- The right-hand side of the differential equation of the diagram: at `(t, x)` the derivative signals form the vector `d`. -/
def Rhs [Arith K] (cfg : Config K) (V : Vars) (mem : BlkId → Mem K) (t : K) (x d : List K) : Prop :=
  ∃ val, Solution cfg V mem t x val ∧
    Packed (fun s => (cfg.deriv s).bind val) (fun s => (cfg.deriv s).elim 0 V.size) V.scalars V.arrays d

/-- The step, with slopes given by the relation `R`, ends with `r`: the new vector and the proposed step size. -/
def StepProg.By (R : K → List K → List K → Prop) : StepProg K → List K × K → Prop
  | .ret v h, r => r = (v, h)
  | .call t v k, r => ∃ d, R t v d ∧ (k d).By R r

/-- The members of a block after a step that ends at `t` with the values `val`. -/
def Leaf.Stored [Arith K] (l : Leaf K) (t : K) (val : SigId → Option (Val K)) (mem mem' : Mem K) : Prop :=
  match l.kind with
  | .memory x _ => ∃ v, val x = some v ∧ mem' = { mem with value := v }
  | .delay life x _ _ _ => ∃ (k : Nat) (v : Val K), val x = some v ∧
      (∀ (j : Nat) (s : K), j < k → mem.ts[j]? = some s → ((t -. life) <=. s) = false) ∧ (∀ s : K, mem.ts[k]? = some s → ((t -. life) <=. s) = true) ∧
      k ≤ mem.ts.length ∧ mem' = { mem with ts := mem.ts.drop k ++ [t], xs := mem.xs.drop k ++ [v] }
  | .derivative x _ => ∃ v, val x = some v ∧ mem' = { mem with t := some t, x := some v, value := v, firstStep := false }
  | .integrator _ o => ∃ v, val o = some v ∧ mem' = { mem with value := v }
  | .trigInt _ _ o => ∃ v, val o = some v ∧ mem' = { mem with value := v }
  | .custom c => ∃ vs u, Shows val c.postReads vs ∧ c.post t mem.user vs = .ok u ∧ mem' = { mem with user := u }
  | _ => mem' = mem

/-- A step ends at `t` with the state `x`: the values of the signals, and the members of the blocks from then on. -/
structure Committed [Arith K] (cfg : Config K) (V : Vars) (mem : BlkId → Mem K) (t : K) (x : List K) (val : SigId → Option (Val K))
    (mem' : BlkId → Mem K) : Prop where
  solution : Solution cfg V mem t x val
  stored : ∀ l ∈ cfg.model.leaves, l.Stored t val (mem l.id) (mem' l.id)

/-- The course from time `s`, state `x`, members `mem` to the time `t`, with the given accepted steps: each starts with the state the one before
ended with and applies the step formula `st` to the right-hand side of the diagram.  It ends with the state `y`, the values `val` of the signals,
and the members `mem'`. -/
inductive Evolves [Arith K] (cfg : Config K) (V : Vars) (st : Stepper K) (t : K) :
    (BlkId → Mem K) → K → List K → List (K × K) → List K → (SigId → Option (Val K)) → (BlkId → Mem K) → Prop
  | last {mem mem' : BlkId → Mem K} {s u h : K} {x y : List K} {val : SigId → Option (Val K)} : (s <. t) = true → (u <. t) = false →
      (st s x u).By (Rhs cfg V mem) (y, h) → Committed cfg V mem t y val mem' → Evolves cfg V st t mem s x [(s, u)] y val mem'
  | step {mem mem1 mem' : BlkId → Mem K} {s u h : K} {x x1 y : List K} {val1 val : SigId → Option (Val K)} {steps : List (K × K)} :
      (s <. t) = true → (u <. t) = true →
      (st s x u).By (Rhs cfg V mem) (x1, h) → Committed cfg V mem u x1 val1 mem1 → Evolves cfg V st t mem1 u x1 steps y val mem' →
      Evolves cfg V st t mem s x ((s, u) :: steps) y val mem'

/-- Blocks that change their members only in `post_step` once they have been through one: all but `TriggeredIntegrator`s and user-written blocks
that do otherwise. -/
def Leaf.Calm (l : Leaf K) : Prop :=
  match l.kind with
  | .trigInt _ _ _ => False
  | .custom c => (∀ t u r, c.pre t u = .ok r → r.1 = u) ∧ ∀ t u v r, c.act t u v = .ok r → r.1 = u
  | _ => True

/-- Every block gets what it requires, in a finite number of rounds: required signals are inputs at all times, state signals, or outputs of blocks
with a smaller number; and so are the derivative signals.  Blocks compute with nothing but what they require. -/
structure Explicit (cfg : Config K) (V : Vars) : Prop where
  ranked : ∃ rank : BlkId → Nat, (∀ l ∈ cfg.model.leaves, ∀ s f, (s, f) ∈ l.links → f.isRequired = true →
      (∀ t, s ∈ (cfg.inputVals t).map Prod.fst) ∨ s ∈ V.scalars ++ V.arrays ∨ ∃ l' ∈ cfg.model.leaves, s ∈ l'.outs ∧ rank l'.id < rank l.id)
  derivs : ∀ s ∈ V.scalars ++ V.arrays, ∀ d, cfg.deriv s = some d →
      (∀ t, d ∈ (cfg.inputVals t).map Prod.fst) ∨ d ∈ V.scalars ++ V.arrays ∨ ∃ l' ∈ cfg.model.leaves, d ∈ l'.outs
  reads : ∀ l ∈ cfg.model.leaves, ∀ s ∈ l.reads, ∃ f, (s, f) ∈ l.links ∧ f.isRequired = true

/-- A simulation under way: a new simulator, `init` returned, then calls of `run` returned, with changes of signals (not of their types) by the
user in between. -/
inductive Ongoing [Arith K] (cfg : Config K) : Machine K → Prop
  | init {m : Machine K} (w : World K) (t0 t : K) : (∀ b, w.done b = false) → w.log = [] →
      Call.exec cfg (.init t) { w := w, s := { tPrev := t0 } } = .ok () m → Ongoing cfg m
  | run {m m' : Machine K} (fuel : Nat) (t minH maxH : K) : Ongoing cfg m → Call.exec cfg (.run fuel t minH maxH) m = .ok () m' → Ongoing cfg m'
  | user {m : Machine K} (sig : SigId → Cell K) : Ongoing cfg m → (∀ s, (sig s).ty = (m.w.sig s).ty) →
      Ongoing cfg { m with w := { m.w with sig := sig } }

end Pooya
