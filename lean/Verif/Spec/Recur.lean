import Verif.Spec.Pace

/-! The same again, later. -/

namespace Pooya

section
variable {K : Type}

/-- The functions the user wrote for the block do not notice that it is `c` later: they have the period `c`, or do not look at the clock at all. -/
def Leaf.Recurs [Add K] (c : K) (l : Leaf K) : Prop :=
  match l.kind with
  | .source f _ => ∀ t, f (t + c) = f t
  | .sources f _ => ∀ t, f (t + c) = f t
  | .siso f _ _ => ∀ t, f (t + c) = f t
  | .so f _ _ => ∀ t, f (t + c) = f t
  | .func f _ _ => ∀ t, f (t + c) = f t
  | .custom d => ∀ t, d.pre (t + c) = d.pre t ∧ d.act (t + c) = d.act t ∧ d.post (t + c) = d.post t
  | _ => True

/-- The times `vs` again and again, `n` times in all, each time `c` later. -/
def rounds [Add K] (c : K) (vs : List K) : Nat → List K
  | 0 => []
  | n + 1 => vs ++ (rounds c vs n).map (· + c)

end

end Pooya
