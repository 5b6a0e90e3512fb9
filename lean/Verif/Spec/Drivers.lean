import Verif.Spec.Wiring
import Verif.Spec.Reach

/-! Diagrams in which every signal is driven from one place, and simulators that are initialised once. -/

namespace Pooya

variable {K : Type}

/-- The signals the user's input functions assign at time `t`, in order. -/
def Config.inputKeys (cfg : Config K) (t : K) : List SigId :=
  (match cfg.inputs with | some f => (f t).1.map Prod.fst | none => []) ++ (cfg.modelInput t).1.map Prod.fst

/-- The signal is linked to a block of the model. -/
def Config.Links (cfg : Config K) (s : SigId) : Prop := ∃ b ∈ cfg.model.all, ∃ f, (s, f) ∈ b.links

/-- Every signal has at most one driver: the inputs, a `pre_step` or state variable, or the activation function of one
block; and everything that is driven is linked to some block. -/
structure Config.SingleDrivers (cfg : Config K) : Prop where
  outs : ∀ l ∈ cfg.model.leaves, l.outs.Nodup
  preOuts : ∀ l ∈ cfg.model.leaves, l.preOuts.Nodup
  inputs : ∀ t, (cfg.inputKeys t).Nodup
  outOut : ∀ l ∈ cfg.model.leaves, ∀ l' ∈ cfg.model.leaves, ∀ s, s ∈ l.outs → s ∈ l'.outs → l.id = l'.id
  prePre : ∀ l ∈ cfg.model.leaves, ∀ l' ∈ cfg.model.leaves, ∀ s, s ∈ l.preOuts → s ∈ l'.preOuts → l.id = l'.id
  outPre : ∀ l ∈ cfg.model.leaves, ∀ l' ∈ cfg.model.leaves, ∀ s, s ∈ l.outs → s ∉ l'.preOuts
  outState : ∀ l ∈ cfg.model.leaves, ∀ s ∈ l.outs, cfg.deriv s = none
  outInput : ∀ l ∈ cfg.model.leaves, ∀ s ∈ l.outs, ∀ t, s ∉ cfg.inputKeys t
  preInput : ∀ l ∈ cfg.model.leaves, ∀ s ∈ l.preOuts, ∀ t, s ∉ cfg.inputKeys t
  stateInput : ∀ s, (cfg.deriv s).isSome → ∀ t, s ∉ cfg.inputKeys t
  outLink : ∀ l ∈ cfg.model.leaves, ∀ s ∈ l.outs, cfg.Links s
  preLink : ∀ l ∈ cfg.model.leaves, ∀ s ∈ l.preOuts, cfg.Links s
  inputLink : ∀ t, ∀ s ∈ cfg.inputKeys t, cfg.Links s

/-- No user code throws the re-assignment exception itself. -/
structure Config.Honest (cfg : Config K) : Prop where
  act : ∀ l ∈ cfg.model.leaves, l.Honest
  pre : ∀ l ∈ cfg.model.leaves, ∀ c, l.kind = .custom c → ∀ t u, c.pre t u ≠ .error (.exc .reassigned)
  post : ∀ l ∈ cfg.model.leaves, ∀ c, l.kind = .custom c → ∀ t u v, c.post t u v ≠ .error (.exc .reassigned)
  inputs : ∀ f, cfg.inputs = some f → ∀ t, (f t).2 ≠ some (.exc .reassigned)
  modelInput : ∀ t, (cfg.modelInput t).2 ≠ some (.exc .reassigned)

/-- The signals in `X` are not assigned. -/
def Free (X : SigId → Prop) (w : World K) : Prop := ∀ s, X s → (w.sig s).assigned = false

/-- The signals `process_model(t, pre, _)` may assign: inputs, outputs of `pre_step` if it is called, and outputs of
activation functions. -/
def Targets (cfg : Config K) (t : K) (pre : Bool) (s : SigId) : Prop :=
  s ∈ cfg.inputKeys t ∨ (pre = true ∧ ∃ l ∈ cfg.model.leaves, s ∈ l.preOuts) ∨ ∃ l ∈ cfg.model.leaves, s ∈ l.outs

/-- As `Reach`, but `init` is not called on a simulator that is initialised already, and user changes keep the types of
the signals. -/
inductive Once [Arith K] (cfg : Config K) : Machine K → Prop
  | new (w : World K) (t : K) : (∀ b, w.done b = false) → w.log = [] → Once cfg { w := w, s := { tPrev := t } }
  | call {m : Machine K} (c : Call K) : Once cfg m → (∀ t, c = .init t → m.s.initialized = false) →
      Once cfg (stateOf (c.exec cfg m))
  | user {m : Machine K} (sig : SigId → Cell K) : Once cfg m → (∀ s, (sig s).ty = (m.w.sig s).ty) →
      Once cfg { m with w := { m.w with sig := sig } }

theorem Once.reach [Arith K] {cfg : Config K} {m : Machine K} (h : Once cfg m) : Reach cfg m := by
  induction h with
  | new w t h1 h2 => exact .new w t h1 h2
  | call c _ _ ih => exact .call c ih
  | user sig _ _ ih => exact .user sig ih

end Pooya
