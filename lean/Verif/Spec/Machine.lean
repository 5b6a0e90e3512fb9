import Verif.Spec.Passage

/-! Diagrams with `Memory` blocks as machines that go from state to state. -/

namespace Pooya

variable {K : Type}

/-- Some `Memory` blocks of a diagram, each given by the block, its input and its output, form a machine: whenever the equations of the diagram hold, their inputs
are the function `g` of the time and of their outputs, provided that the outputs are in the set `Ok`, which the machine does not leave. -/
structure Recurs [Arith K] (cfg : Config K) (ps : List (Wire K)) (qs : List (BlkId × SigId × SigId)) (Ok : List (Val K) → Prop) (g : K → List (Val K) → List (Val K)) : Prop where
  blocks : ∀ q ∈ qs, ∃ l ∈ cfg.model.leaves, l.id = q.1 ∧ l.kind = .memory q.2.1 q.2.2
  next : ∀ (V : Vars) (mem : BlkId → Mem K) (t : K) (x : List K) (val : SigId → Option (Val K)) (z : List (Val K)),
    (∀ s, s ∈ V.scalars ++ V.arrays ↔ ∃ p ∈ ps, p.obj.isState = true ∧ p.Gives s) → Solution cfg V mem t x val →
      Ok z → Shows val (qs.map fun q => q.2.2) z → Shows val (qs.map fun q => q.2.1) (g t z)
  stays : ∀ t z, Ok z → Ok (g t z)

/-- What the machine holds after the given times. -/
def after (g : K → List (Val K) → List (Val K)) (z : List (Val K)) : List K → List (Val K)
  | [] => z
  | t :: ts => after g (g t z) ts

/-- The signal `s` is the function `f` of time, in all solutions of the equations. -/
def Clocked [Arith K] (cfg : Config K) (ps : List (Wire K)) (s : SigId) (f : K → Val K) : Prop :=
  ∀ (V : Vars) (mem : BlkId → Mem K) (t : K) (x : List K) (val : SigId → Option (Val K)),
    (∀ s, s ∈ V.scalars ++ V.arrays ↔ ∃ p ∈ ps, p.obj.isState = true ∧ p.Gives s) → Solution cfg V mem t x val → val s = some (f t)

end Pooya
