import Verif.Spec.Sketch
import Mathlib.Analysis.Calculus.ContDiff.Defs

/-! Drawings whose blocks are smooth along a course of the signals. -/

namespace Pooya

open Set

/-- The function of the block has four continuous derivatives: a function of time on `[a, b]`, a function of time and a value at all points of the course.  There is
no `Delay`. -/
def Piece.Smooth (p : Piece) (a b : ℝ) (X : SigId → ℝ → ℝ) : Prop :=
  match p.part, p.ins with
  | .source f, _ => ContDiffOn ℝ 4 f (Icc a b)
  | .siso f, x :: _ | .func f, x :: _ => ∀ t ∈ Icc a b, ContDiffAt ℝ 4 (fun q : ℝ × ℝ => f q.1 q.2) (t, X x t)
  | .delay _, _ => False
  | _, _ => True

/-- All blocks, and the input function. -/
def Sketch.Smooth (d : Sketch) (a b : ℝ) (X : SigId → ℝ → ℝ) : Prop :=
  (∀ p ∈ d.pieces, p.Smooth a b X) ∧ ∀ u ∈ d.inputs, ContDiffOn ℝ 4 u.2 (Icc a b)

end Pooya
