import Verif.Spec.Reach

/-! Simulations as seen from outside. -/

namespace Pooya

variable {K : Type} [Arith K]

/-- A simulation that meets no error: `init` returns, then calls of `run` return, with arbitrary changes of signals by the user in
between.  The list contains the states after each of these calls, the newest first. -/
inductive Simulated (cfg : Config K) (m0 : Machine K) : List (Machine K) → Prop
  | init {m : Machine K} (t : K) : Call.exec cfg (.init t) m0 = .ok () m → Simulated cfg m0 [m]
  | run {m m' : Machine K} {ms : List (Machine K)} (sig : SigId → Cell K) (fuel : Nat) (t minH maxH : K) : Simulated cfg m0 (m :: ms) →
      Call.exec cfg (.run fuel t minH maxH) { m with w := { m.w with sig := sig } } = .ok () m' → Simulated cfg m0 (m' :: m :: ms)

/-- The diagram has no state variables: no signal linked to a block has a derivative signal. -/
def Stateless (cfg : Config K) : Prop := ∀ s ∈ linkedSigs cfg.model, cfg.deriv s = none

/-- The value a signal holds, if it was ever assigned. -/
def Machine.value (m : Machine K) (s : SigId) : Option (Val K) := (m.w.sig s).value

end Pooya
