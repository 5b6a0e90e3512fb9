import Verif.Model.Simulator
import Mathlib.Data.List.Forall2

/-! The state vector and the signals that hold it. -/

namespace Pooya

variable {K : Type}

/-- `x` is the concatenation of the values (`val`) of the scalar signals `ss`, one component each, and of the array signals `sa`, as many
components each as the size of the signal. -/
def Packed (val : SigId → Option (Val K)) (size : SigId → Nat) (ss sa : List SigId) (x : List K) : Prop :=
  ∃ (a : List K) (b : List (List K)), List.Forall₂ (fun s v => val s = some (.scalar v)) ss a ∧
    List.Forall₂ (fun s v => val s = some (.array v) ∧ v.length = size s) sa b ∧ x = a ++ b.flatten

/-- The values of the signals. -/
def World.val (w : World K) (s : SigId) : Option (Val K) := (w.sig s).value

/-- The sizes of the signals. -/
def World.size (w : World K) (s : SigId) : Nat := (w.sig s).ty.size

/-- The state signals of the simulator hold `x`. -/
def Machine.holds (m : Machine K) (x : List K) : Prop := Packed m.w.val m.w.size m.s.scalarStates m.s.arrayStates x

/-- The number of components of the signals. -/
def slots (size : SigId → Nat) (ss sa : List SigId) : Nat := ss.length + (sa.map size).sum

end Pooya
