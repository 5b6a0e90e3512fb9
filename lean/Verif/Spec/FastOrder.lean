import Verif.Spec.Drivers

/-! Fixed processing orders. -/

namespace Pooya

variable {K : Type}

/-- Every block of the list requires only signals in `A` and outputs of blocks before it. -/
def FollowsFrom (A : SigId → Prop) : List (Leaf K) → Prop
  | [] => True
  | l :: ls => (∀ s, l.Requires s → A s) ∧ FollowsFrom (fun s => A s ∨ s ∈ l.outs) ls

/-- The signal is assigned from outside the activation functions: by the inputs or a `pre_step`. -/
def Config.External (cfg : Config K) (s : SigId) : Prop := (∃ t, s ∈ cfg.inputKeys t) ∨ ∃ l ∈ cfg.model.leaves, s ∈ l.preOuts

/-- The list is a valid processing order of the whole model. -/
structure Config.FastOrder (cfg : Config K) (ls : List (Leaf K)) : Prop where
  perm : ls.Perm cfg.model.leaves
  follows : FollowsFrom cfg.External ls

end Pooya
