import Verif.Spec.Typed
import Verif.Spec.Equations

/-! Diagrams in which nothing is missing, and calls with arguments the documentation allows: nothing should go wrong with them. -/

namespace Pooya

variable {K : Type}

/-- What well-posed diagrams exclude: signed overflow and mismatches of sizes. -/
def strict : Policy := { overflow := false, sizes := true }

/-- The user code of the block returns whenever it gets values of the types of its signals. -/
def Leaf.Total (ty : SigId → Ty) (l : Leaf K) : Prop :=
  match l.kind with
  | .source f _ => ∀ t, ∃ v, f t = .ok v
  | .sources f _ => ∀ t, (f t).2 = none
  | .siso f x _ => ∀ t v, v.Fits (ty x) → ∃ r, f t v = .ok r
  | .so f rs _ => ∀ t vs, ReadAll ty rs vs → ∃ r, f t vs = .ok r
  | .func f rs _ => ∀ t vs, ReadAll ty rs vs → (f t vs).2 = none
  | .custom c => (∀ t u, ∃ r, c.pre t u = .ok r) ∧ (∀ t u vs, ReadAll ty c.reads vs → ∃ r, c.act t u vs = .ok r) ∧
      ∀ t u vs, ReadAll ty c.postReads vs → ∃ r, c.post t u vs = .ok r
  | _ => True

/-- The signal always has a value before activation functions are called: the inputs assign it, or it is a state variable. -/
def Config.Source (cfg : Config K) (s : SigId) : Prop := (∀ t, s ∈ cfg.inputKeys t) ∨ (cfg.Links s ∧ (cfg.deriv s).isSome = true)

/-- The signal gets a value in every evaluation. -/
def Config.Provided (cfg : Config K) (s : SigId) : Prop := cfg.Source s ∨ ∃ l ∈ cfg.model.leaves, s ∈ l.outs

/-- A complete diagram in a debug build: well typed, every signal is driven from one place, the user code always returns and assigns all outputs,
blocks read only what they are linked to as required, all signals that are read are provided, without algebraic loops (`rank`). -/
structure Config.WellPosed (cfg : Config K) (ty : SigId → Ty) (rank : BlkId → Nat) : Prop where
  typed : cfg.WellTyped strict ty
  drivers : cfg.SingleDrivers
  honest : cfg.Honest
  integrated : cfg.Integrated
  builder : ∀ l ∈ cfg.model.leaves, ¬ l.kind matches .builder
  total : ∀ l ∈ cfg.model.leaves, l.Total ty
  complete : ∀ l ∈ cfg.model.leaves, l.Complete
  inputs : ∀ f, cfg.inputs = some f → ∀ t, (f t).2 = none
  modelInput : ∀ t, (cfg.modelInput t).2 = none
  reads : ∀ l ∈ cfg.model.leaves, ∀ s ∈ l.reads, l.Requires s
  ranked : ∀ l ∈ cfg.model.leaves, ∀ s, l.Requires s → cfg.Source s ∨ ∃ l' ∈ cfg.model.leaves, s ∈ l'.outs ∧ rank l'.id < rank l.id
  postReads : ∀ l ∈ cfg.model.leaves, ∀ s ∈ l.postReads, cfg.Provided s
  derivs : ∀ s d, cfg.Links s → cfg.deriv s = some d → cfg.Provided d
  sizes : ∀ s, (cfg.deriv s).isSome = true → 0 < (ty s).size
  stepper : (∃ s, (cfg.deriv s).isSome = true) → cfg.stepper.isSome = true

/-- What `Delay` needs of the arithmetic: comparisons of numbers are total and transitive. -/
structure OrderedArith (K : Type) [Arith K] : Prop where
  total : ∀ a b : K, (a <=. b) = true ∨ (b <=. a) = true
  irrefl : ∀ a : K, (a <. a) = false
  le_of_lt : ∀ a b : K, (a <. b) = true → (a <=. b) = true
  le_trans_lt : ∀ a b c : K, (a <=. b) = true → (b <. c) = true → (a <. c) = true

/-- Solver steps from `s` to `t` go forward: the method takes one step to the end, or adding a step to a time makes it larger.  (With rounding it need not;
`C57_exact`: without rounding it does.) -/
def Config.Forward [Arith K] (cfg : Config K) (s t minH maxH : K) : Prop :=
  (∀ st, cfg.stepper = some st → st ∈ [euler, rk4]) ∨
    ∀ a h : K, (s <=. a) = true → (a <. t) = true → (a <. (a +. fmax minH (fmin h maxH))) = true

/-- The time the call asks for. -/
def Call.time : Call K → K
  | .init t => t
  | .run _ t _ _ => t

/-- Calls the documentation allows: `init` once; `run` with a time that is not before the time reached, and with step sizes in order.  A model
with a `Delay` cannot repeat a step, and needs solver steps that go forward. -/
def Call.Fair [Arith K] (cfg : Config K) (m : Machine K) : Call K → Prop
  | .init _ => m.s.initialized = false
  | .run _ t minH maxH => m.s.initialized = true → (cfg.Delays → (m.s.tPrev <. t) = true) ∧
      (0 < m.s.nState → Comparable t m.s.tPrev ∧ (t <. m.s.tPrev) = false ∧ (Arith.lit 0 <. minH) = true ∧ (minH <. maxH) = true ∧
        (cfg.Delays → cfg.Forward m.s.tPrev t minH maxH))

/-- A new diagram and simulator: nothing has been processed or recorded. -/
structure World.New (cfg : Config K) (ty : SigId → Ty) (w : World K) : Prop where
  fine : w.Fine strict cfg ty
  done : ∀ b, w.done b = false
  record : ∀ l ∈ cfg.model.leaves, l.isDelay = true → (w.mem l.id).ts = []

/-- States of a simulator after fair calls that returned, and changes of signals by the user in between. -/
inductive Attended [Arith K] (cfg : Config K) (ty : SigId → Ty) : Machine K → Prop
  | new (w : World K) (t : K) : w.New cfg ty → Attended cfg ty { w := w, s := { tPrev := t } }
  | call {m m' : Machine K} (c : Call K) : Attended cfg ty m → c.Fair cfg m → c.exec cfg m = .ok () m' → Attended cfg ty m'
  | user {m : Machine K} (sig : SigId → Cell K) : Attended cfg ty m → (∀ s, (sig s).ty = ty s ∧ (sig s).Fine) →
      Attended cfg ty { m with w := { m.w with sig := sig } }

end Pooya
