import Verif.Spec.Passage

/-! A diagram as part of another one by its values: every signal stands for a signal of the other diagram, or for one coefficient of an array signal of it. -/

namespace Pooya

variable {K : Type}

/-- The value itself, or a coefficient of an array. -/
def Val.coef : Option Nat → Val K → Option (Val K)
  | none, v => some v
  | some i, .array xs => xs[i]?.map .scalar
  | some _, _ => none

/-- For each signal of the one diagram the signal of the other one it stands for, and which coefficient of it. -/
abbrev Lens := SigId → SigId × Option Nat

/-- The values of the one diagram, as found in the values of the other one. -/
def Lens.see (η : Lens) (val : SigId → Option (Val K)) (s : SigId) : Option (Val K) := (val (η s).1).bind (Val.coef (η s).2)

/-- The block `l` does to its signals what `l'` does to the coefficients they stand for: a block of the same class with the same parameters, those that are
values being the same coefficient too.  A gain and the time of a delay apply to all coefficients. -/
def Leaf.Views (η : Lens) (l l' : Leaf K) : Prop :=
  match l.kind, l'.kind with
  | .const v o, .const v' o' => ∃ i, η o = (o', i) ∧ v'.coef i = some v
  | .gain k x o, .gain k' x' o' => k = k' ∧ ∃ i, η x = (x', i) ∧ η o = (o', i)
  | .add v xs o, .add v' xs' o' => ∃ i, xs.map η = xs'.map (·, i) ∧ η o = (o', i) ∧ v'.coef i = some v
  | .multiply v xs o, .multiply v' xs' o' => ∃ i, xs.map η = xs'.map (·, i) ∧ η o = (o', i) ∧ v'.coef i = some v
  | .subtract x y o, .subtract x' y' o' => ∃ i, η x = (x', i) ∧ η y = (y', i) ∧ η o = (o', i)
  | .divide x y o, .divide x' y' o' => ∃ i, η x = (x', i) ∧ η y = (y', i) ∧ η o = (o', i)
  | .pipe x o, .pipe x' o' => ∃ i, η x = (x', i) ∧ η o = (o', i)
  | .memory x o, .memory x' o' => ∃ i, η x = (x', i) ∧ η o = (o', i)
  | .delay life x d y o, .delay life' x' d' y' o' => life = life' ∧ ∃ i, η x = (x', i) ∧ η d = (d', none) ∧ η y = (y', i) ∧ η o = (o', i)
  | .derivative x o, .derivative x' o' => ∃ i, η x = (x', i) ∧ η o = (o', i)
  | .integrator x o, .integrator x' o' => ∃ i, η x = (x', i) ∧ η o = (o', i)
  | _, _ => False

/-- The members of a block hold the coefficient of what those of the other block hold. -/
def Leaf.Holds (η : Lens) (l : Leaf K) (μ μ' : Mem K) : Prop :=
  match l.kind with
  | .memory _ o | .integrator _ o => μ'.value.coef (η o).2 = some μ.value
  | .delay _ _ _ _ o => μ.ts = μ'.ts ∧ List.Forall₂ (fun v v' => v'.coef (η o).2 = some v) μ.xs μ'.xs
  | .derivative _ o => μ'.value.coef (η o).2 = some μ.value ∧ μ.firstStep = μ'.firstStep ∧
      (μ.firstStep = false → μ.t = μ'.t ∧ ∃ v v', μ.x = some v ∧ μ'.x = some v' ∧ v'.coef (η o).2 = some v)
  | _ => True

/-- Whenever the inputs of the other diagram have their values and all its equations hold, the equation of the block holds for the values found in it. -/
def Leaf.Ensues [Arith K] (η : Lens) (cfg' : Config K) (l : Leaf K) : Prop :=
  ∀ (mem : BlkId → Mem K) (t : K) (val : SigId → Option (Val K)), (∀ q ∈ cfg'.inputVals t, val q.1 = some q.2) → (∀ l' ∈ cfg'.model.leaves, l'.Solved t (mem l'.id) val) →
    (∀ s ∈ l.reads, ∃ v, η.see val s = some v) → ∀ μ, l.Solved t μ (η.see val)

/-- The first diagram is found in the second one: every block does what the block `β` says does to coefficients; or it has neither memory nor state, and its
equation follows from those of the second diagram.  The inputs have the values found in the second one. -/
structure Config.Found [Arith K] (η : Lens) (β : BlkId → BlkId) (cfg cfg' : Config K) : Prop where
  block : ∀ l ∈ cfg.model.leaves, (∃ l' ∈ cfg'.model.leaves, l'.id = β l.id ∧ l.Views η l') ∨ (l.Algebraic ∧ l.Calm ∧ l.state = none ∧ l.Ensues η cfg')
  input : ∀ t, ∀ q ∈ cfg.inputVals t, ∃ q' ∈ cfg'.inputVals t, q'.1 = (η q.1).1 ∧ q'.2.coef (η q.1).2 = some q.2

end Pooya
