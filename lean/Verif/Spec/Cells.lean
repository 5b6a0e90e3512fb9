import Verif.Model.Blocks

/-! What it means that a signal can be read or assigned, and that a block outputs a value. -/

namespace Pooya

variable {K : Type}

/-- Reading `s` yields `v`: it holds the value and, in debug builds, it is assigned. -/
def Holds (dbg : Bool) (w : World K) (s : SigId) (v : Val K) : Prop :=
  (w.sig s).value = some v ∧ (dbg = true → (w.sig s).assigned = true)

/-- `s` can be assigned `v`: it is of that type and, in debug builds, unassigned and (arrays) of that size. -/
def Takes (dbg : Bool) (w : World K) (s : SigId) (v : Val K) : Prop :=
  v.hasTag (w.sig s).ty = true ∧ (dbg = true → (w.sig s).assigned = false ∧ v.sizeOk (w.sig s).ty = true)

instance [DecidableEq K] (dbg : Bool) (w : World K) (s : SigId) (v : Val K) : Decidable (Holds dbg w s v) := by
  unfold Holds; infer_instance

instance (dbg : Bool) (w : World K) (s : SigId) (v : Val K) : Decidable (Takes dbg w s v) := by
  unfold Takes; infer_instance

/-- `w'` is `w` after signal `o` was assigned `v`: nothing else is different. -/
structure Put (w : World K) (o : SigId) (v : Val K) (w' : World K) : Prop where
  value : (w'.sig o).value = some v
  assigned : (w'.sig o).assigned = true
  ty : (w'.sig o).ty = (w.sig o).ty
  sig : ∀ s, s ≠ o → w'.sig s = w.sig s
  mem : w'.mem = w.mem
  done : w'.done = w.done

/-- The activation function of `l` returns, having assigned `v` to `o` and changed nothing else (except for the record
of the call). -/
def Outputs [Arith K] (dbg : Bool) (l : Leaf K) (t : K) (w : World K) (o : SigId) (v : Val K) : Prop :=
  ∃ w', l.act dbg t w = .ok () w' ∧ Put w o v w' ∧ w'.log = .act l.id t :: w.log

/-- The coefficients of an array value. -/
def arrayOf {n : Nat} (x : Fin n → K) : Val K := .array (List.ofFn x)

end Pooya
