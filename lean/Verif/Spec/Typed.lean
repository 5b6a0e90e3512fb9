import Verif.Spec.Variant
import Verif.Spec.Retry

/-! Static types of diagrams, and the states of simulators of well-typed diagrams.  The C++ types of the ports are checked by the compiler and by
`Signal<T>`; the sizes of arrays are not checked when blocks are connected, so they are stated here. -/

namespace Pooya

variable {K : Type}

/-- The value has the type of the signal, and for arrays the size. -/
def Val.Fits (v : Val K) (ty : Ty) : Prop := v.hasTag ty = true ∧ v.sizeOk ty = true

/-- The same C++ type; the sizes of arrays may differ. -/
def Ty.Same : Ty → Ty → Prop
  | .scalar, .scalar => True
  | .int, .int => True
  | .bool, .bool => True
  | .array _, .array _ => True
  | _, _ => False

/-- `ScalarSignal` or `ArraySignal`. -/
def Ty.Float : Ty → Prop
  | .scalar => True
  | .array _ => True
  | _ => False

/-- What is to be excluded: `overflow` allows signed overflow; with `sizes` the sizes of arrays have to agree wherever values are assigned. -/
structure Policy where
  overflow : Bool := false
  sizes : Bool := false

/-- The value can be assigned to a signal of the type. -/
def Val.Goes (pol : Policy) (v : Val K) (ty : Ty) : Prop := v.hasTag ty = true ∧ (pol.sizes = true → v.sizeOk ty = true)

/-- Values of signals of the first type can be assigned to signals of the second. -/
def Ty.Goes (pol : Policy) (a b : Ty) : Prop := a.Same b ∧ (pol.sizes = true → a.size = b.size)

/-- What a signal object holds: a value of its type, and always one if it is assigned. -/
structure Cell.Fine (c : Cell K) : Prop where
  full : c.assigned = true → c.value.isSome = true
  fits : ∀ v, c.value = some v → v.Fits c.ty

/-- Not undefined behaviour, except for signed overflow if that is allowed; and not a mismatch of sizes if sizes have to agree. -/
def Err.Fine (pol : Policy) : Err → Prop
  | .ub u => pol.overflow = true ∧ u = .intOverflow
  | .exc .sizeMismatch => pol.sizes = false
  | _ => True

/-- The results of user code for some signals: values of the types of the signals. -/
def FitAll (pol : Policy) (ty : SigId → Ty) : List SigId → List (Option (Val K)) → Prop
  | s :: ss, some v :: vs => v.Goes pol (ty s) ∧ FitAll pol ty ss vs
  | _ :: ss, none :: vs => FitAll pol ty ss vs
  | _, _ => True

/-- The values read from some signals. -/
def ReadAll (ty : SigId → Ty) (ss : List SigId) (vs : List (Val K)) : Prop := List.Forall₂ (fun s v => Val.Fits v (ty s)) ss vs

/-- User code returns something in `Q`, or throws without undefined behaviour. -/
def Yields {α : Type} (pol : Policy) (Q : α → Prop) : Except Err α → Prop
  | .ok a => Q a
  | .error e => e.Fine pol

/-- The ports of the block have types that its class works with.  Only the operations on two arrays need equal sizes. -/
def Leaf.Typed (pol : Policy) (ty : SigId → Ty) (l : Leaf K) : Prop :=
  match l.kind with
  | .const v out => v.Goes pol (ty out)
  | .source f out => ∀ t, Yields pol (fun v => v.Goes pol (ty out)) (f t)
  | .sources f outs => ∀ t, FitAll pol ty outs (f t).1 ∧ ∀ e, (f t).2 = some e → e.Fine pol
  | .gain (.scalar _) x out => (ty x).Float ∧ (ty x).Goes pol (ty out)
  | .gain (.int _) x out => pol.overflow = true ∧ ty x = .int ∧ ty out = .int
  | .gain _ _ _ => False
  | .add i ins out | .multiply i ins out => (ty out).Float ∧ ∃ T : Ty, i.Fits T ∧ T.Goes pol (ty out) ∧ ∀ s ∈ ins, ty s = T
  | .subtract x1 x2 out | .divide x1 x2 out => (ty out).Float ∧ ty x1 = ty x2 ∧ (ty x1).Goes pol (ty out)
  | .pipe x out => (ty x).Goes pol (ty out)
  | .memory x out => (ty x).Goes pol (ty out)
  | .delay _ x d i out => (ty out).Float ∧ (ty x).Goes pol (ty out) ∧ ty d = .scalar ∧ (ty i).Goes pol (ty out)
  | .derivative x out => (ty out).Float ∧ (ty x).Goes pol (ty out)
  | .integrator _ _ => True
  | .trigInt _ tr _ => ty tr = .bool
  | .siso f x out => ∀ t v, v.Fits (ty x) → Yields pol (fun r => r.Goes pol (ty out)) (f t v)
  | .so f reads out => ∀ t vs, ReadAll ty reads vs → Yields pol (fun r => r.Goes pol (ty out)) (f t vs)
  | .func f reads outs => ∀ t vs, ReadAll ty reads vs → FitAll pol ty outs (f t vs).1 ∧ ∀ e, (f t vs).2 = some e → e.Fine pol
  | .builder => True
  | .custom c => (∀ t u, Yields pol (fun r => FitAll pol ty c.preOuts r.2) (c.pre t u)) ∧
      (∀ t u vs, ReadAll ty c.reads vs → Yields pol (fun r => FitAll pol ty c.outs r.2) (c.act t u vs)) ∧
      (∀ t u vs, ReadAll ty c.postReads vs → Yields pol (fun _ => True) (c.post t u vs))

/-- The members of the block have the types of its ports, and those that belong together are set together. -/
def Leaf.Members (pol : Policy) (ty : SigId → Ty) (l : Leaf K) (m : Mem K) : Prop :=
  match l.kind with
  | .memory _ out | .integrator _ out | .trigInt _ _ out => m.value.Goes pol (ty out)
  | .derivative x out => m.value.Goes pol (ty out) ∧ (m.firstStep = false → m.t.isSome = true ∧ m.x.isSome = true) ∧ ∀ v, m.x = some v → v.Fits (ty x)
  | .delay _ x _ _ _ => (∀ v ∈ m.xs, v.Fits (ty x)) ∧ m.ts.length = m.xs.length
  | _ => True

def Leaf.isDelay (l : Leaf K) : Bool :=
  match l.kind with
  | .delay .. => true
  | _ => false

/-- The model has a `Delay` block. -/
def Config.Delays (cfg : Config K) : Prop := ∃ l ∈ cfg.model.leaves, l.isDelay = true

/-- Input code assigns values of the types of the signals. -/
def UserInput.Typed (pol : Policy) (ty : SigId → Ty) (f : UserInput K) : Prop :=
  ∀ t, (∀ q ∈ (f t).1, q.2.Goes pol (ty q.1)) ∧ ∀ e, (f t).2 = some e → e.Fine pol

/-- A well-typed configuration in a debug build. -/
structure Config.WellTyped (pol : Policy) (cfg : Config K) (ty : SigId → Ty) : Prop where
  dbg : cfg.dbg = true
  proper : cfg.model.Proper
  hash : ∀ l, (cfg.hash l).Perm l
  leaves : ∀ l ∈ cfg.model.leaves, l.Typed pol ty
  inputs : ∀ f, cfg.inputs = some f → f.Typed pol ty
  modelInput : cfg.modelInput.Typed pol ty
  deriv : ∀ s d, cfg.deriv s = some d → (ty s).Float ∧ ty d = ty s
  stepper : ∀ st, cfg.stepper = some st → st.Dim
  states : cfg.strategy = .reuse → ∀ w : World K, (∀ s, (w.sig s).ty = ty s) → 0 < stateSize cfg w

/-- All signals hold values of their types, and so do the members of the blocks. -/
structure World.Fine (pol : Policy) (cfg : Config K) (ty : SigId → Ty) (w : World K) : Prop where
  types : ∀ s, (w.sig s).ty = ty s
  cells : ∀ s, (w.sig s).Fine
  members : ∀ l ∈ cfg.model.leaves, l.Members pol ty (w.mem l.id)

/-- Calls the caller may make: `init` only once, `run` with a time that can be compared with the time reached (neither is NaN). -/
def Call.Admissible [Arith K] (m : Machine K) : Call K → Prop
  | .init _ => m.s.initialized = false
  | .run _ t _ _ => m.s.initialized = true → Comparable t m.s.tPrev

/-- States of a simulator of a well-typed diagram: any admissible calls, also failing ones if the model has no `Delay`, and changes of signals by
the user in between. -/
inductive Steered [Arith K] (pol : Policy) (cfg : Config K) (ty : SigId → Ty) : Machine K → Prop
  | new (w : World K) (t : K) : w.Fine pol cfg ty → Steered pol cfg ty { w := w, s := { tPrev := t } }
  | call {m : Machine K} (c : Call K) : Steered pol cfg ty m → c.Admissible m →
      (cfg.Delays → returns (c.exec cfg m) = true) → Steered pol cfg ty (stateOf (c.exec cfg m))
  | user {m : Machine K} (sig : SigId → Cell K) : Steered pol cfg ty m → (∀ s, (sig s).ty = ty s ∧ (sig s).Fine) →
      Steered pol cfg ty { m with w := { m.w with sig := sig } }

/-- The outcome of a call is not undefined behaviour. -/
def NoUb {σ α : Type} (pol : Policy) : EStateM.Result Err σ α → Prop
  | .ok _ _ => True
  | .error e _ => e.Fine pol

end Pooya
