import Mathlib.Algebra.Module.Defs
import Mathlib.Algebra.Order.Field.Basic
import Mathlib.Data.Rat.Cast.Defs
import Mathlib.Algebra.BigOperators.Group.List.Basic
import Verif.Model.Stepper

/-! Explicit Runge-Kutta methods and their order conditions, independent of the steppers. -/

namespace Pooya

/-- A Butcher tableau: for every stage the node `c` and the row of `a`; then the weights `b`. -/
structure Tableau where
  stages : List (ℚ × List ℚ)
  b : List ℚ

namespace Tableau

variable {K V : Type} [Field K] [AddCommGroup V] [Module K V]

/-- `Σ a_j k_j` -/
def comb (K : Type) {V : Type} [Field K] [AddCommGroup V] [Module K V] (a : List ℚ) (ks : List V) : V :=
  (List.zipWith (fun (q : ℚ) k => (q : K) • k) a ks).sum

/-- The slopes `k_i = f (t + c_i h) (v + h Σ a_ij k_j)`, given the slopes found so far. -/
def slopes (f : K → V → V) (t : K) (v : V) (h : K) : List (ℚ × List ℚ) → List V → List V
  | [], ks => ks
  | (c, a) :: st, ks => slopes f t v h st (ks ++ [f (t + (c : K) * h) (v + h • comb K a ks)])

/-- `v + h Σ b_i k_i` -/
def step (T : Tableau) (f : K → V → V) (t : K) (v : V) (h : K) : V :=
  v + h • comb K T.b (slopes f t v h T.stages [])

def euler : Tableau := ⟨[(0, [])], [1]⟩

/-- The classical method of order 4. -/
def rk4 : Tableau := ⟨[(0, []), (1/2, [1/2]), (1/2, [0, 1/2]), (1, [0, 0, 1])], [1/6, 1/3, 1/3, 1/6]⟩

/-- Fehlberg's stages. -/
def fehlbergStages : List (ℚ × List ℚ) :=
  [(0, []), (1/4, [1/4]), (3/8, [3/32, 9/32]), (12/13, [1932/2197, -7200/2197, 7296/2197]),
   (1, [439/216, -8, 3680/513, -845/4104]), (1/2, [-8/27, 2, -3544/2565, 1859/4104, -11/40])]

/-- Fehlberg's method of order 4. -/
def fehlberg4 : Tableau := ⟨fehlbergStages, [25/216, 0, 1408/2565, 2197/4104, -1/5]⟩

/-- Fehlberg's method of order 5, used as error estimator. -/
def fehlberg5 : Tableau := ⟨fehlbergStages, [16/135, 0, 6656/12825, 28561/56430, -9/50, 2/55]⟩

end Tableau

/-- Rooted trees: the single node, or the first tree with the second grafted on its root. -/
inductive RTree where
  | one
  | graft (t u : RTree)
deriving DecidableEq

namespace RTree

/-- Number of nodes. -/
def order : RTree → Nat
  | one => 1
  | graft t u => t.order + u.order

/-- Density `γ`: the number of nodes times the densities of the subtrees. -/
def density : RTree → ℚ
  | one => 1
  | graft t u => t.density / t.order * u.density * (t.order + u.order)

/-- Elementary weight of the tree at each stage of a tableau. -/
def weights (T : Tableau) : RTree → List ℚ
  | one => T.stages.map (fun _ => 1)
  | graft t u => List.zipWith (fun x st => x * (List.zipWith (· * ·) st.2 (u.weights T)).sum) (t.weights T) T.stages

end RTree

/-- The tableau satisfies Butcher's order condition for the tree. -/
def Tableau.Cond (T : Tableau) (τ : RTree) : Prop :=
  (List.zipWith (· * ·) T.b (τ.weights T)).sum = 1 / τ.density

/-- All order conditions up to order `p`, and each node is the sum of its row. -/
def Tableau.HasOrder (T : Tableau) (p : Nat) : Prop :=
  (∀ st ∈ T.stages, st.2.sum = st.1) ∧ ∀ τ : RTree, τ.order ≤ p → T.Cond τ

/-- All calls of the right-hand side a step can make, whatever the right-hand side returns, satisfy `P`. -/
def StepProg.AllCalls {K : Type} (P : K → List K → Prop) : StepProg K → Prop
  | .ret _ _ => True
  | .call t v k => P t v ∧ ∀ r, (k r).AllCalls P

/-- As `AllCalls`, with right-hand sides that return vectors of length `n`; the result has length `n`. -/
def StepProg.Dim {K : Type} (n : Nat) : StepProg K → Prop
  | .ret v _ => v.length = n
  | .call _ v k => v.length = n ∧ ∀ r, r.length = n → (k r).Dim n

/-- The step function keeps the length of the state vector. -/
def Stepper.Dim {K : Type} (st : Stepper K) : Prop := ∀ t1 t2 x, (st t1 x t2).Dim x.length

/-- A function on lists given by a function on vectors. -/
def onLists {K : Type} {n : Nat} [Zero K] (f : K → (Fin n → K) → Fin n → K) (t : K) (x : List K) : List K :=
  List.ofFn (f t (fun i => x.getD i 0))

/-- Two step computations that call the right-hand side at the same times, with related states, and end with
related results and the same proposed step size, as long as the right-hand sides return related slopes. -/
def StepProg.Related {K : Type} (R : List K → List K → Prop) : StepProg K → StepProg K → Prop
  | .ret v h, .ret v' h' => R v v' ∧ h = h'
  | .call t v k, .call t' v' k' => t = t' ∧ R v v' ∧ ∀ r r', R r r' → (k r).Related R (k' r')
  | _, _ => False

/-- `v'` consists of the components of `v` with the indices `idx`, in this order. -/
def Rearranged {K : Type} (idx : List Nat) (v v' : List K) : Prop :=
  v.length = idx.length ∧ ∀ j : Nat, v'[j]? = idx[j]?.bind (fun i => v[i]?)

end Pooya
