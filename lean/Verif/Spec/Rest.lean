import Verif.Spec.Linear
import Verif.Spec.Sketch
import Mathlib.Algebra.Order.Field.Basic

/-! Diagrams at rest. -/

namespace Pooya

variable {F : Type} [_root_.Field F] [LE F]

/-- A block, with the members `mem` it has been made with, between signals with the values `r` that do not change from the time `t0` to the time `T`: what it outputs does not
change either.  A `Derivative` must have the input 0 (`quiet`: or there are no integrators in the diagram). -/
def Leaf.Still [Arith F] (t0 T : F) (quiet : Prop) (r : SigId → Option (Val F)) (mem : Mem F) (l : Leaf F) : Prop :=
  match l.kind with
  | .memory x o => r x = some mem.value ∧ r o = some mem.value
  | .delay _ x d i o => mem.ts = [] ∧ mem.xs = [] ∧ ∃ v e, ((∃ a, v = .scalar a) ∨ ∃ a, v = .array a) ∧ r x = some v ∧ r i = some v ∧ r o = some v ∧ r d = some (.scalar e)
  | .derivative x o => mem.firstStep = true ∧ ∃ v, r x = some v ∧ r o = some mem.value ∧ Both (fun _ _ => 0) v v mem.value ∧ (v = mem.value ∨ quiet)
  | .integrator x o => r o = some mem.value ∧ ∃ z, r x = some z ∧ z.IsZero
  | .trigInt _ _ _ => False
  | .custom _ => False
  | _ => ∀ t, t0 ≤ t → t ≤ T → l.Solved t mem r

/-- With the values `r` of the signals nothing moves from the time `t0` to the time `T`. -/
structure Config.Rests [Arith F] (cfg : Config F) (t0 T : F) (r : SigId → Option (Val F)) (mem : BlkId → Mem F) : Prop where
  input : ∀ t, t0 ≤ t → t ≤ T → ∀ p ∈ cfg.inputVals t, r p.1 = some p.2
  still : ∀ l ∈ cfg.model.leaves, l.Still t0 T (∀ l' ∈ cfg.model.leaves, l'.state = none) r (mem l.id)

/-- With the values `X` of the signals nothing moves in the drawing from the time `t0` to the time `T`: the equations of the blocks hold at all times, the integrators begin with these
values and have the input 0, the inputs `in` and `initial` of a `Delay` are its output. -/
structure Sketch.Rests (d : Sketch) (t0 T : ℝ) (X : SigId → ℝ) : Prop where
  meets : ∀ t, t0 ≤ t → t ≤ T → d.Meets t X
  integrators : ∀ p ∈ d.pieces, ∀ x0 x, p.part = .integrator x0 → p.ins = [x] → X p.out = x0 ∧ X x = 0
  delays : ∀ p ∈ d.pieces, ∀ life x e i, p.part = .delay life → p.ins = [x, e, i] → X x = X p.out ∧ X i = X p.out

/-- All numbers are results of rounding. -/
def Val.Rounded (rnd : F → F) : Val F → Prop
  | .scalar x => rnd x = x
  | .array xs => ∀ x ∈ xs, rnd x = x
  | _ => True

end Pooya
