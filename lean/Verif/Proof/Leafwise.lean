import Verif.Proof.Monad
import Verif.Model.Engine

/-! `pre_step` and `post_step` of a hierarchy call those of its leaves, in order. -/

namespace Pooya

variable {K : Type} [Arith K]

/-- `pre_step` of the leaves in order. -/
def preAll (dbg : Bool) (t : K) : List (Leaf K) → M K Unit
  | [] => pure ()
  | l :: ls => do l.pre dbg t; preAll dbg t ls

/-- `post_step` of the leaves in order. -/
def postAll (dbg : Bool) (t : K) : List (Leaf K) → M K Unit
  | [] => pure ()
  | l :: ls => do l.post dbg t; postAll dbg t ls

theorem preAll_append (dbg : Bool) (t : K) (l1 l2 : List (Leaf K)) :
    preAll dbg t (l1 ++ l2) = (do preAll dbg t l1; preAll dbg t l2) := by
  induction l1 with
  | nil => simp only [List.nil_append, preAll, pure_bind]
  | cons l ls ih => simp only [List.cons_append, preAll, ih, bind_assoc]

theorem postAll_append (dbg : Bool) (t : K) (l1 l2 : List (Leaf K)) :
    postAll dbg t (l1 ++ l2) = (do postAll dbg t l1; postAll dbg t l2) := by
  induction l1 with
  | nil => simp only [List.nil_append, postAll, pure_bind]
  | cons l ls ih => simp only [List.cons_append, postAll, ih, bind_assoc]

theorem preStep_eq (dbg : Bool) (t : K) (b : Block K) : b.preStep dbg t = preAll dbg t b.leaves := by
  refine Block.rec (motive_1 := fun b => b.preStep dbg t = preAll dbg t b.leaves)
    (motive_2 := fun bs => preStepL dbg t bs = preAll dbg t (leavesL bs)) ?_ ?_ ?_ ?_ b
  · intro l
    simp only [Block.preStep, Block.leaves, preAll]
    exact (bind_pure (l.pre dbg t)).symm
  · intro i ls kids ih; simpa only [Block.preStep, Block.leaves] using ih
  · simp only [preStepL, leavesL, preAll]
  · intro b bs h1 h2; simp only [preStepL, leavesL, preAll_append, h1, h2]

theorem postStep_eq (dbg : Bool) (t : K) (b : Block K) : b.postStep dbg t = postAll dbg t b.leaves := by
  refine Block.rec (motive_1 := fun b => b.postStep dbg t = postAll dbg t b.leaves)
    (motive_2 := fun bs => postStepL dbg t bs = postAll dbg t (leavesL bs)) ?_ ?_ ?_ ?_ b
  · intro l
    simp only [Block.postStep, Block.leaves, postAll]
    exact (bind_pure (l.post dbg t)).symm
  · intro i ls kids ih; simpa only [Block.postStep, Block.leaves] using ih
  · simp only [postStepL, leavesL, postAll]
  · intro b bs h1 h2; simp only [postStepL, leavesL, postAll_append, h1, h2]

end Pooya
