import Verif.Spec.Drivers
import Verif.Spec.Integ
import Verif.Spec.Simulated
import Verif.Spec.FastOrder
import Verif.Spec.RungeKutta
import Verif.Spec.Pack
import Verif.Spec.Quiet

/-! Configurations that differ only in matters that should not change the results: the order in which blocks were added and the
submodels they are grouped in, the iteration order of the sets of signals, and the kind of simulator. -/

namespace Pooya

variable {K : Type}

/-- The same leaf blocks, signals, inputs and stepper; block order, nesting, set iteration order and simulator kind may differ. -/
structure Config.Variant (c1 c2 : Config K) : Prop where
  dbg : c1.dbg = c2.dbg
  leaves : c1.model.leaves.Perm c2.model.leaves
  links : ∀ s, c1.Links s ↔ c2.Links s
  deriv : c1.deriv = c2.deriv
  inputs : c1.inputs = c2.inputs
  modelInput : c1.modelInput = c2.modelInput
  stepper : c1.stepper = c2.stepper

/-- The stepper treats all components of the state vector alike: a rearranged vector gives rearranged requests and results. -/
def Stepper.Equivariant (st : Stepper K) : Prop :=
  ∀ (idx : List Nat), idx.Perm (List.range idx.length) → ∀ (t0 t1 : K) (v v' : List K), Rearranged idx v v' →
    (st t0 v t1).Related (Rearranged idx) (st t0 v' t1)

/-- Models for which a processing order found once stays valid: the inputs always assign the same signals, `act` always assigns all the
outputs of a block, and `pre_step` assigns only state variables, of integrators. -/
structure Config.Steady [Arith K] (cfg : Config K) : Prop where
  inputs : ∀ t t', cfg.inputKeys t = cfg.inputKeys t'
  assigns : ∀ l ∈ cfg.model.leaves, l.Assigns
  preOuts : ∀ l ∈ cfg.model.leaves, ∀ s ∈ l.preOuts, l.state = some s ∧ (cfg.deriv s).isSome

/-- State variables are float signals, and the derivative of a signal has its type (`set_deriv_signal`, src/signal/float_signal.hpp:38-47). -/
structure Config.Typed (cfg : Config K) (w : World K) : Prop where
  float : ∀ s, (cfg.deriv s).isSome → (w.sig s).ty = .scalar ∨ (w.sig s).ty.isArray = true
  deriv : ∀ s d, cfg.deriv s = some d → (w.sig d).ty = (w.sig s).ty

/-- A well-formed configuration in a debug build. -/
structure Config.Sound (cfg : Config K) : Prop where
  dbg : cfg.dbg = true
  proper : cfg.model.Proper
  wired : Wired cfg.model.leaves
  drivers : cfg.SingleDrivers
  hash : ∀ l, (cfg.hash l).Perm l
  builder : ∀ l ∈ cfg.model.leaves, ¬ l.kind matches .builder
  equivariant : ∀ st, cfg.stepper = some st → st.Equivariant

/-- Two variants of a well-formed configuration. -/
structure Coupled [Arith K] (c1 c2 : Config K) : Prop where
  variant : c1.Variant c2
  sound1 : c1.Sound
  sound2 : c2.Sound
  steady : c1.strategy = .fast ∨ c2.strategy = .fast → c1.Steady

/-- The arguments of a call of `run`: fuel, time, and step-size limits. -/
structure RunArgs (K : Type) where
  fuel : Nat
  t : K
  minH : K
  maxH : K

/-- Some calls of `run`, one after the other; the first that throws ends the sequence. -/
def runs [Arith K] (cfg : Config K) : List (RunArgs K) → MM K Unit
  | [] => pure ()
  | a :: as => do run cfg a.fuel a.t a.minH a.maxH; runs cfg as

/-- `init`, then the calls of `run`. -/
def simulate [Arith K] (cfg : Config K) (t0 : K) (as : List (RunArgs K)) : MM K Unit := do simInit cfg t0; runs cfg as

/-- A new simulator for the diagram. -/
def fresh (w : World K) (t : K) : Machine K := { w := w, s := { tPrev := t } }

/-- The start of simulations of two variants: signals are typed, a simulator that reuses its order has state variables, and the members of blocks
are not changed by the ordering pass of a `FastSimulator`. -/
structure Startable (c1 c2 : Config K) (w : World K) : Prop where
  done : ∀ b, w.done b = false
  typed : c1.Typed w
  states : c1.strategy = .reuse ∨ c2.strategy = .reuse → 0 < stateSize c1 w
  quiet : c1.strategy = .fast ∨ c2.strategy = .fast → ∀ l ∈ c1.model.leaves, l.Quiet (w.mem l.id)

/-- The two simulators show the same: the same signals are assigned, with the same values, the same block members, the same time, and the
state vectors hold the same value for each state variable. -/
structure Agree (m1 m2 : Machine K) : Prop where
  view : SameView m1.w m2.w
  time : m1.s.tPrev = m2.s.tPrev
  states : (m1.s.sv = none ∧ m2.s.sv = none) ∨ ∃ (x1 x2 : List K) (val : SigId → Option (Val K)), m1.s.sv = some x1 ∧ m2.s.sv = some x2 ∧
    Packed val m1.w.size m1.s.scalarStates m1.s.arrayStates x1 ∧ Packed val m2.w.size m2.s.scalarStates m2.s.arrayStates x2

/-- Both simulations throw, or both return and agree. -/
def SameOutcome : EStateM.Result Err (Machine K) Unit → EStateM.Result Err (Machine K) Unit → Prop
  | .ok _ m1, .ok _ m2 => Agree m1 m2
  | .error _ _, .error _ _ => True
  | _, _ => False

end Pooya
