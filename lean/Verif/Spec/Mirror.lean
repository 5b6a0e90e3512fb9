import Verif.Spec.Lifetime

/-! The relation between calls that follow pointers from block to block (`Lifetime.lean`) and calls on the tree of blocks (`Engine.lean`). -/

namespace Pooya

variable {K : Type} {α σ : Type}

/-- The state of the diagram: signals and block members are what the program has besides the hierarchy; the flags `_processed` are in the blocks. -/
def worldOf (s : Store (World K)) : World K := { s.ext with done := s.processed }

/-- Code of a leaf class, which works on the diagram. -/
def onWorld (y : M K α) : LM (World K) α := fun s =>
  match y (worldOf s) with
  | .ok a w => .ok a { s with ext := w, processed := w.done }
  | .error e w => .error e { s with ext := w, processed := w.done }

/-- The leaf object of block `b`. -/
def leafAt (leafOf : BlkId → Leaf K) (b : BlkId) : Leaf K := { leafOf b with id := b }

/-- `Leaf::process` without the flag: the test of readiness and the activation function. -/
def leafAct [Arith K] (dbg : Bool) (t : K) (leafOf : BlkId → Leaf K) (b : BlkId) : LM (World K) Bool :=
  onWorld do
    let w ← get
    if !(leafAt leafOf b).ready w then pure false
    else do
      (leafAt leafOf b).act dbg t
      pure true

/-- The flag a leaf has when it is marked as unprocessed: a `BusBlockBuilder` is never to be processed. -/
def leafFlag (leafOf : BlkId → Leaf K) (b : BlkId) : Bool := match (leafOf b).kind with | .builder => true | _ => false

/-- A visitor that is told the blocks. -/
def seen (blockOf : BlkId → Block K) (v : Visitor σ K) (b : BlkId) (level : Nat) : LM σ Bool := fun s =>
  let r := v (blockOf b) level s.ext
  .ok r.1 { s with ext := r.2 }

/-- The call builds and destroys nothing, and leaves the traceback as it was. -/
def Store.Same (s s' : Store σ) : Prop := s'.heap = s.heap ∧ s'.alive = s.alive ∧ s'.trace = s.trace

/-- The two calls end in the same way, with the same result and effect on the diagram. -/
def Mirrors (s : Store (World K)) (x : EStateM.Result Err (Store (World K)) α) (y : EStateM.Result Err (World K) α) : Prop :=
  match x, y with
  | .ok a s', .ok a' w => a = a' ∧ worldOf s' = w ∧ s.Same s'
  | .error e s', .error e' w => e = e' ∧ worldOf s' = w ∧ s.Same s'
  | _, _ => False

end Pooya
