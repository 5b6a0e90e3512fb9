import Verif.Model.Simulator

/-! The states of a simulator and its diagram that user code can bring about. -/

namespace Pooya

variable {K : Type} [Arith K]

/-- A call of the public interface of a simulator. -/
inductive Call (K : Type) where
  | init (t : K)
  | run (fuel : Nat) (t minH maxH : K)

def Call.exec (cfg : Config K) : Call K → MM K Unit
  | .init t => simInit cfg t
  | .run fuel t minH maxH => Pooya.run cfg fuel t minH maxH

/-- The state in which a call leaves the objects, whether it returns or throws. -/
def stateOf {σ α : Type} : EStateM.Result Err σ α → σ
  | .ok _ s => s
  | .error _ s => s

/-- The call returns normally. -/
def returns {σ α : Type} : EStateM.Result Err σ α → Bool
  | .ok _ _ => true
  | .error _ _ => false

theorem eq_of_returns {σ : Type} {r : EStateM.Result Err σ Unit} (h : returns r = true) : r = .ok () (stateOf r) := by
  cases r with
  | ok a s => rfl
  | error e s => cases h

/-- Reachable states: a new simulator on a new diagram (no block processed, nothing recorded), then any
calls, returning or throwing, with arbitrary changes of signals by the user in between. -/
inductive Reach (cfg : Config K) : Machine K → Prop
  | new (w : World K) (t : K) : (∀ b, w.done b = false) → w.log = [] → Reach cfg { w := w, s := { tPrev := t } }
  | call {m : Machine K} (c : Call K) : Reach cfg m → Reach cfg (stateOf (c.exec cfg m))
  | user {m : Machine K} (sig : SigId → Cell K) : Reach cfg m →
      Reach cfg { m with w := { m.w with sig := sig } }

/-- States at which an evaluation can start, also in the middle of calls: nothing but evaluations and the ordering steps
of `init` changes the `_processed` flags and the remembered orders; everything else may be arbitrary.
(`reach_mid`, `covers_mid`: the states between calls, and the effects of `run`.) -/
inductive Mid (cfg : Config K) : Machine K → Prop
  | new (w : World K) (t : K) : (∀ b, w.done b = false) → Mid cfg { w := w, s := { tPrev := t } }
  | other {m : Machine K} (m' : Machine K) : Mid cfg m → m'.w.done = m.w.done → m'.s.po = m.s.po → m'.s.fast = m.s.fast →
      Mid cfg m'
  | eval {m : Machine K} (t : K) : Mid cfg m → Mid cfg (stateOf (evalModel cfg t m))
  | order {m : Machine K} : cfg.strategy = .reuse → Mid cfg m → Mid cfg { m with s := { m.s with po := some cfg.model.all } }
  | fastOrder {m m' : Machine K} {r : List (List (Leaf K)) × Nat} (t : K) : cfg.strategy = .fast → Mid cfg m →
      levels cfg t m = .ok r m' →
      Mid cfg { m' with s := { m'.s with fast := m'.s.fast ++ r.1 } }
  | fastFail {m m' : Machine K} {e : Err} (t : K) : cfg.strategy = .fast → Mid cfg m →
      levels cfg t m = .error e m' → Mid cfg m'

/-- The block whose activation function a recorded call ran. -/
def Event.actOf : Event K → Option BlkId
  | .act b _ => some b
  | _ => none

end Pooya
