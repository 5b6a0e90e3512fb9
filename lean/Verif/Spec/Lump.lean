import Mathlib.Algebra.Field.Defs
import Verif.Spec.Passage

/-! Weighted sums of the states of a diagram. -/

namespace Pooya

variable {F : Type}

/-- A weighted sum of components of signals - each with its coefficient, the signal, and the position in the array, which is 0 for scalars - has the given value.
All the signals have values, and the arrays are long enough. -/
inductive Weighs [_root_.Field F] (val : SigId → Option (Val F)) : List (F × SigId × Nat) → F → Prop
  | nil : Weighs val [] 0
  | scalar {a x r : F} {s : SigId} {qs : List (F × SigId × Nat)} : val s = some (.scalar x) → Weighs val qs r → Weighs val ((a, s, 0) :: qs) (a * x + r)
  | array {a x r : F} {s : SigId} {i : Nat} {xs : List F} {qs : List (F × SigId × Nat)} : val s = some (.array xs) → xs[i]? = some x → Weighs val qs r →
      Weighs val ((a, s, i) :: qs) (a * x + r)

/-- The weighted sums obey a differential equation of their own: whenever the equations of the diagram hold, the sums of the derivatives are `f` of the time and of the sums
themselves. -/
def Config.Lumps [_root_.Field F] [Arith F] (cfg : Config F) (qss : List (List (F × SigId × Nat))) (f : F → List F → List F) : Prop :=
  ∀ (V : Vars) (mem : BlkId → Mem F) (t : F) (x : List F) (val : SigId → Option (Val F)) (q d : List F), Solution cfg V mem t x val →
    List.Forall₂ (Weighs val) qss q → List.Forall₂ (Weighs fun s => (cfg.deriv s).bind val) qss d → d = f t q

end Pooya
