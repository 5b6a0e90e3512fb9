import Verif.Spec.Drivers
import Verif.Spec.Pack

/-! Specification of the blocks that own state variables. -/

namespace Pooya

variable {K : Type}

/-- The output of an integrator (its state variable). -/
def Leaf.state (l : Leaf K) : Option SigId :=
  match l.kind with
  | .integrator _ o => some o
  | .trigInt _ _ o => some o
  | _ => none

/-- A reset of the block is pending. -/
def Leaf.pending (l : Leaf K) (m : Mem K) : Bool :=
  match l.kind with
  | .trigInt _ _ _ => m.triggered
  | _ => false

/-- Zero, as a value of the type and size of `v`. -/
def Val.nought [Arith K] : Val K → Val K
  | .scalar _ => .scalar (Arith.lit 0)
  | .int _ => .int 0
  | .bool _ => .bool false
  | .array xs => .array (List.replicate xs.length (Arith.lit 0))

/-- The state with which the next step begins. -/
def Leaf.start [Arith K] (l : Leaf K) (m : Mem K) : Val K := if l.pending m then m.value.nought else m.value

/-- The state with which the next step begins, for each state signal. -/
def Config.startVal [Arith K] (cfg : Config K) (w : World K) (s : SigId) : Option (Val K) :=
  (cfg.model.leaves.find? (fun l => decide (l.state = some s))).map (fun l => l.start (w.mem l.id))

/-- The state kept by the integrator, for each state signal. -/
def Config.keptVal (cfg : Config K) (w : World K) (s : SigId) : Option (Val K) :=
  (cfg.model.leaves.find? (fun l => decide (l.state = some s))).map (fun l => (w.mem l.id).value)

/-- Every state variable is the output of an integrator of the model. -/
def Config.Integrated (cfg : Config K) : Prop :=
  ∀ s, cfg.Links s → (cfg.deriv s).isSome → ∃ l ∈ cfg.model.leaves, l.state = some s

end Pooya
