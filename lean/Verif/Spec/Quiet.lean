import Verif.Model.Simulator

/-! Blocks that change their members only in `post_step`. -/

namespace Pooya

variable {K : Type}

/-- With the members `m`, neither `pre_step` nor `activation_function` of the block changes its members.  Not so for a
`TriggeredIntegrator`, for a `Derivative` before its first `post_step`, and for user-written blocks that do otherwise. -/
def Leaf.Quiet (l : Leaf K) (m : Mem K) : Prop :=
  match l.kind with
  | .trigInt _ _ _ => False
  | .derivative _ _ => m.firstStep = false
  | .custom c => (∀ t u r, c.pre t u = .ok r → r.1 = u) ∧ ∀ t u v r, c.act t u v = .ok r → r.1 = u
  | _ => True

end Pooya
