import Verif.Spec.Build
import Verif.Spec.Total

/-! Closed diagrams, described by the objects and the buses they are connected to. -/

namespace Pooya

variable {K : Type}

/-- The signal is on the input bus. -/
def Wire.Takes (p : Wire K) (i : SigId) : Prop := ∃ k t, (k, Signal.val i t) ∈ p.ibus

/-- The signal is on the output bus. -/
def Wire.Gives (p : Wire K) (i : SigId) : Prop := ∃ k t, (k, Signal.val i t) ∈ p.obus

/-- The output of the block depends on the signal at the same time.  (An integrator with a trigger needs the trigger.) -/
def Wire.Needs (p : Wire K) (i : SigId) : Prop :=
  match p.obj with
  | .memory _ | .integrator _ => False
  | .trigInt _ => ∃ k, (k, Signal.val i .bool) ∈ p.ibus
  | _ => p.Takes i

def Make.isState : Make K → Bool
  | .integrator _ | .trigInt _ => true
  | _ => false

/-- The function given to the constructor returns. -/
def Make.Answers (n : Nat) : Make K → Prop
  | .source _ f => ∀ t, ∃ v, f t = .ok v
  | .siso ty f => (∀ t v, v.Fits (ty.toTy n) → ∃ r, f t v = .ok r) ∧ ∀ t v, f t v ≠ .error (.exc .reassigned)
  | _ => True

/-- The classes whose functions get the buses. -/
def Make.OnBuses : Make K → Prop
  | .sources _ _ _ | .so _ _ _ _ | .func _ _ _ _ _ => True
  | _ => False

/-- The function of the block always returns and assigns all outputs with values of their types. -/
structure Leaf.Sane (ty : SigId → Ty) (l : Leaf K) : Prop where
  typed : l.Typed strict ty
  total : l.Total ty
  complete : l.Complete
  honest : l.Honest
  once : l.outs.Nodup

/-- A block with its buses: the arguments of the constructor have the right types, arrays have one size, functions return.  Functions that get the
buses use entries of the buses, and assign all outputs with values of their types. -/
def Wire.Sane (ty : SigId → Ty) (p : Wire K) : Prop :=
  Agrees ty p.ibus ∧ Agrees ty p.obus ∧
  ((∃ n, 0 < n ∧ p.obj.Static strict n ∧ p.obj.Answers n ∧ Sized n p.ibus ∧ Sized n p.obus) ∨
   (p.obj.OnBuses ∧ p.obj.Direct ∧ ∀ d d' l, p.connect true d = .ok (l, d') → l.Sane ty ∧ ∀ i, p.Gives i → i ∈ l.outs))

/-- A closed diagram in a debug build: each signal is the output of one block or assigned by the inputs, each input of a block is one of these, and
there is no algebraic loop (`rank`). -/
structure Config.Sealed (cfg : Config K) (ps : List (Wire K)) (ty : SigId → Ty) (rank : BlkId → Nat) : Prop where
  dbg : cfg.dbg = true
  assembled : cfg.Assembled ps
  proper : cfg.model.Proper
  hash : ∀ l, (cfg.hash l).Perm l
  sane : ∀ p ∈ ps, p.Sane ty
  once : ∀ p ∈ ps, ∀ q ∈ ps, ∀ i, p.Gives i → q.Gives i → p.id = q.id
  provided : ∀ p ∈ ps, ∀ i, p.Takes i → (∀ t, i ∈ cfg.inputKeys t) ∨ ∃ q ∈ ps, q.Gives i
  loops : ∀ p ∈ ps, ∀ i, p.Needs i → ∀ q ∈ ps, q.Gives i → q.obj.isState = true ∨ rank q.id < rank p.id
  inputs : ∀ f, cfg.inputs = some f → f.Typed strict ty ∧ ∀ t, (f t).2 = none
  modelInput : cfg.modelInput.Typed strict ty ∧ ∀ t, (cfg.modelInput t).2 = none
  inputOnce : ∀ t, (cfg.inputKeys t).Nodup
  inputFree : ∀ t, ∀ s ∈ cfg.inputKeys t, (∃ p ∈ ps, p.Takes s) ∧ ∀ p ∈ ps, ¬ p.Gives s
  stepper : ∀ st, cfg.stepper = some st → st.Dim
  stepped : (∃ p ∈ ps, p.obj.isState = true) → cfg.stepper.isSome = true
  reuse : cfg.strategy = .reuse → ∃ p ∈ ps, p.obj.isState = true

end Pooya
