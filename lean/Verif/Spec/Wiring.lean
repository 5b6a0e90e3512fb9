import Verif.Model.Engine

/-!
Static conditions on a diagram and abstract schedules, used to state the scheduling properties
independently of the simulators' loops.
-/

namespace Pooya

variable {K : Type}

/-- The ids of all objects of a hierarchy. -/
def Block.ids (b : Block K) : List BlkId := b.all.map Block.id

/-- Every object of the hierarchy is a different one. -/
def Block.Proper (b : Block K) : Prop := b.ids.Nodup

/-- Signal `s` is linked to the leaf as required. -/
def Leaf.Requires (l : Leaf K) (s : SigId) : Prop := ∃ f, (s, f) ∈ l.links ∧ f.isRequired = true

/-- A proper diagram: distinct leaf objects, every signal assigned by activation functions is assigned
by one leaf only, and activation functions read only signals the leaf is linked to as required. -/
structure Wired (L : List (Leaf K)) : Prop where
  ids : (L.map Leaf.id).Nodup
  driver : ∀ l ∈ L, ∀ l' ∈ L, ∀ s, s ∈ l.outs → s ∈ l'.outs → l.id = l'.id
  reads : ∀ l ∈ L, ∀ s ∈ l.reads, l.Requires s

/-- The signals that blocks that have not run yet will assign are not assigned yet. -/
def Undriven (L : List (Leaf K)) (w : World K) : Prop :=
  ∀ l ∈ L, w.done l.id = false → ∀ s ∈ l.outs, (w.sig s).assigned = false

/-- The block has not run and everything it requires is assigned. -/
def Enabled (l : Leaf K) (w : World K) : Prop :=
  w.done l.id = false ∧ ∀ s, l.Requires s → (w.sig s).assigned = true

/-- The same visible state: the same signals assigned, to the same values; the same block members; the
same leaves done.  Values of unassigned signals and flags of submodels do not matter. -/
structure Same (L : List (Leaf K)) (w1 w2 : World K) : Prop where
  ty : ∀ s, (w1.sig s).ty = (w2.sig s).ty
  assigned : ∀ s, (w1.sig s).assigned = (w2.sig s).assigned
  value : ∀ s, (w1.sig s).assigned = true → (w1.sig s).value = (w2.sig s).value
  mem : ∀ b, w1.mem b = w2.mem b
  done : ∀ l ∈ L, w1.done l.id = w2.done l.id

/-- The same signals assigned, to the same values, and the same block members. -/
def SameView (w1 w2 : World K) : Prop := Same [] w1 w2

/-- `Steps dbg t I w ls w'`: starting in `w` the leaves `ls` run successfully in this order, each only
when enabled, ending in `w'`; flags of objects other than the leaves (ids outside `I`) may change. -/
inductive Steps [Arith K] (dbg : Bool) (t : K) (I : BlkId → Prop) : World K → List (Leaf K) → World K → Prop
  | nil (w : World K) : Steps dbg t I w [] w
  | act {l : Leaf K} {w w1 w' : World K} {ls : List (Leaf K)} : Enabled l w → l.act dbg t w = .ok () w1 →
      Steps dbg t I { w1 with done := upd w1.done l.id true } ls w' → Steps dbg t I w (l :: ls) w'
  | flag {i : BlkId} {d : Bool} {w w' : World K} {ls : List (Leaf K)} : ¬ I i →
      Steps dbg t I { w with done := upd w.done i d } ls w' → Steps dbg t I w ls w'

/-- No leaf can run. -/
def Stuck (L : List (Leaf K)) (w : World K) : Prop := ∀ l ∈ L, ¬ Enabled l w

/-- `l ∈ L` is enabled in `w` and its activation function fails. -/
def FailsAt [Arith K] (dbg : Bool) (t : K) (L : List (Leaf K)) (w : World K) (e : Err) (w' : World K) : Prop :=
  ∃ l ∈ L, Enabled l w ∧ l.act dbg t w = .error e w'

/-- Whenever the activation function returns it has assigned all outputs of the block. -/
def Leaf.Assigns [Arith K] (l : Leaf K) : Prop :=
  ∀ dbg t w w', l.act dbg t w = .ok () w' → ∀ s ∈ l.outs, (w'.sig s).assigned = true

/-- The user code of the block never throws the re-assignment exception itself. -/
def Leaf.Honest (l : Leaf K) : Prop :=
  match l.kind with
  | .source f _ => ∀ t, f t ≠ .error (.exc .reassigned)
  | .sources f _ => ∀ t, (f t).2 ≠ some (.exc .reassigned)
  | .siso f _ _ => ∀ t v, f t v ≠ .error (.exc .reassigned)
  | .so f _ _ => ∀ t v, f t v ≠ .error (.exc .reassigned)
  | .func f _ _ => ∀ t v, (f t v).2 ≠ some (.exc .reassigned)
  | .custom c => ∀ t u v, c.act t u v ≠ .error (.exc .reassigned)
  | _ => True

theorem ready_iff (l : Leaf K) (w : World K) :
    l.ready w = true ↔ ∀ s, l.Requires s → (w.sig s).assigned = true := by
  simp only [Leaf.ready, List.all_eq_true, Leaf.Requires]
  constructor
  · rintro h s ⟨f, hf, hr⟩
    have := h (s, f) hf
    simpa [hr] using this
  · intro h p hp
    by_cases hr : p.2.isRequired = true
    · simp [h p.1 ⟨p.2, hp, hr⟩]
    · simp [hr]

end Pooya
