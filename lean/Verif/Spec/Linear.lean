import Verif.Spec.Passage
import Verif.Model.Field
import Mathlib.Algebra.Module.Pi
import Mathlib.Algebra.Module.Submodule.Defs
import Mathlib.Algebra.Module.Submodule.Lattice

/-! Linear relations between several simulations of one diagram.  `I` numbers the simulations, a family `I → F` has one number for each of them, and a linear
relation is a subspace of the families. -/

namespace Pooya

section
variable {F I : Type} [_root_.Field F]

/-- The families of numbers that are the same in all simulations. -/
def diag (F I : Type) [_root_.Field F] : Submodule F (I → F) where
  carrier := { x | ∀ i j, x i = x j }
  zero_mem' := fun _ _ => rfl
  add_mem' := fun ha hb i j => by simp only [Pi.add_apply, ha i j, hb i j]
  smul_mem' := fun k x hx i j => by simp only [Pi.smul_apply, hx i j]

/-- The values of a signal in the simulations are related: numbers, or arrays of one size with each coefficient related.  If `M` contains the families that are the
same in all simulations, a value of any type may be the same in all simulations. -/
def Lin (M : Submodule F (I → F)) (v : I → Val F) : Prop :=
  (∃ x ∈ M, v = fun i => .scalar (x i)) ∨ (∃ (n : Nat) (x : Fin n → I → F), (∀ j, x j ∈ M) ∧ v = fun i => .array (List.ofFn fun j => x j i)) ∨
    (diag F I ≤ M ∧ ∃ w, v = fun _ => w)

/-- The signal has values in all simulations, and they are related. -/
def On (M : SigId → Submodule F (I → F)) (val : I → SigId → Option (Val F)) (s : SigId) : Prop := ∃ v, (∀ i, val i s = some (v i)) ∧ Lin (M s) v

def Val.IsZero : Val F → Prop
  | .scalar x => x = 0
  | .array xs => ∀ x ∈ xs, x = 0
  | _ => False

/-- The block keeps the relations `M` between simulations whose times differ by the constants `c`: its output is a linear function of the inputs that are not the
same in all simulations, with coefficients that depend on the inputs that are, and on the difference of times. -/
def Leaf.Linear (c : I → F) (M : SigId → Submodule F (I → F)) (l : Leaf F) : Prop :=
  match l.kind with
  | .const v o => diag F I ≤ M o ∨ v.IsZero
  | .source f o => ∀ t u, (∀ i, f (t + c i) = .ok (u i)) → Lin (M o) u
  | .sources f os => (∀ t i j, f (t + c i) = f (t + c j)) ∧ ∀ o ∈ os, diag F I ≤ M o
  | .gain _ x o | .pipe x o | .memory x o | .derivative x o => M x ≤ M o
  | .integrator x o => M x ≤ M o
  | .add v xs o => (diag F I ≤ M o ∨ v.IsZero) ∧ ∀ x ∈ xs, M x ≤ M o
  | .subtract x y o => M x ≤ M o ∧ M y ≤ M o
  | .multiply _ xs o => ((∀ x ∈ xs, M x ≤ diag F I) ∧ diag F I ≤ M o) ∨
      ∃ pre x post, xs = pre ++ x :: post ∧ (∀ y ∈ pre ++ post, M y ≤ diag F I) ∧ M x ≤ M o
  | .divide x y o => M x ≤ M o ∧ M y ≤ diag F I
  | .delay _ x d i o => M x ≤ M o ∧ M i ≤ M o ∧ M d ≤ diag F I
  | .siso f x o => (∀ t i j v, f (t + c i) v = f (t + c j) v) ∧ M x ≤ diag F I ∧ diag F I ≤ M o
  | .so f xs o => (∀ t i j vs, f (t + c i) vs = f (t + c j) vs) ∧ (∀ x ∈ xs, M x ≤ diag F I) ∧ diag F I ≤ M o
  | .func f xs os => (∀ t i j vs, f (t + c i) vs = f (t + c j) vs) ∧ (∀ x ∈ xs, M x ≤ diag F I) ∧ ∀ o ∈ os, diag F I ≤ M o
  | .builder => True
  | .trigInt _ _ _ | .custom _ => False

/-- What the block holds in the simulations is related: the values as the output is, the times shifted by `c`. -/
def Leaf.Held (c : I → F) (M : SigId → Submodule F (I → F)) (l : Leaf F) (mem : I → Mem F) : Prop :=
  match l.kind with
  | .memory _ o | .integrator _ o => Lin (M o) fun i => (mem i).value
  | .derivative x o => Lin (M o) (fun i => (mem i).value) ∧ ((∀ i, (mem i).firstStep = true) ∨
      (∀ i, (mem i).firstStep = false) ∧ ∃ t v, (∀ i, (mem i).t = some (t + c i)) ∧ (∀ i, (mem i).x = some (v i)) ∧ Lin (M x) v)
  | .delay _ _ _ _ o => ∃ (ts : List F) (xs : List (I → Val F)), (∀ i, (mem i).ts = ts.map (· + c i)) ∧ (∀ i, (mem i).xs = xs.map (· i)) ∧ ∀ v ∈ xs, Lin (M o) v
  | _ => True

/-- The values the inputs give to a signal are related. -/
def Fed (c : I → F) (M : SigId → Submodule F (I → F)) (cfg : I → Config F) (s : SigId) : Prop :=
  ∀ t, ∃ v, (∀ i, (s, v i) ∈ (cfg i).inputVals (t + c i)) ∧ Lin (M s) v

end

end Pooya
