import Verif.Spec.Steps

/-! Accepted steps that end at given times. -/

namespace Pooya

/-- The steps go from `t` to each of the times in turn: each begins where the previous one ended, and none goes beyond one of the times. -/
inductive Meets {K : Type} [LT K] : K → List K → List (K × K) → Prop
  | nil {t : K} : Meets t [] []
  | cons {t u : K} {us : List K} {l l' : List (K × K)} : Tiles t u l → Meets u us l' → Meets t (u :: us) (l ++ l')

end Pooya
