import Verif.Model.Simulator

/-! Specification of the calls of block functions by a simulator, as lists of events, oldest first. -/

namespace Pooya

variable {K : Type} [Arith K]

/-- One evaluation of the diagram at `t`: the input callback; `pre_step` of all leaves in order, if `pre`; activation functions, none
of a leaf that is not in the diagram and no two of the same leaf; `post_step` of all leaves in order, if `post`. -/
def Round (L : List (Leaf K)) (t : K) (pre post : Bool) (es : List (Event K)) : Prop :=
  ∃ acts : List (Leaf K), (∀ l ∈ acts, l ∈ L) ∧ (acts.map Leaf.id).Nodup ∧
    es = [.input t] ++ (if pre then L.map (fun l => .pre l.id t) else []) ++ acts.map (fun l => .act l.id t) ++
      (if post then L.map (fun l => .post l.id t) else [])

/-- The calls during the solver steps of a run to `t`: each trial begins with the input callback and `pre_step` of all leaves, followed by
evaluations without `pre_step` and `post_step`; each accepted step that ends before `t` is followed by an evaluation with `post_step`. -/
inductive StepCalls (L : List (Leaf K)) (t : K) : List (Event K) → Prop
  | done : StepCalls L t []
  | reject {t1 t2 : K} {stages : List (List (Event K))} {rest : List (Event K)} : (∀ s ∈ stages, ∃ u, Round L u false false s) →
      StepCalls L t rest →
      StepCalls L t ([.input t1] ++ L.map (fun l => .pre l.id t1) ++ [.trial t1 t2] ++ stages.flatten ++ rest)
  | accept {t1 t2 : K} {stages : List (List (Event K))} {mid rest : List (Event K)} : (∀ s ∈ stages, ∃ u, Round L u false false s) →
      (if (t2 <. t) = true then Round L t2 false true mid else mid = []) → StepCalls L t rest →
      StepCalls L t ([.input t1] ++ L.map (fun l => .pre l.id t1) ++ [.trial t1 t2] ++ stages.flatten ++ [.accept t1 t2] ++ mid ++ rest)

end Pooya
