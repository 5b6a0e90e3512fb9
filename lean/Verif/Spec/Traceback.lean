import Verif.Spec.Lifetime
import Mathlib.Data.List.Forall2

/-! What the traceback contains. -/

namespace Pooya

variable {σ : Type}

/-- The state a call leaves, by returning or otherwise. -/
def EStateM.Result.left {α : Type} : EStateM.Result Err (Store σ) α → Store σ
  | .ok _ s => s
  | .error _ s => s

/-- The traceback after the call is that before it. -/
def Balanced {α : Type} (x : LM σ α) : Prop := ∀ s, (EStateM.Result.left (x s)).trace = s.trace ∧ ∀ s', x s ≠ .error (.ub .outOfBounds) s'

def LOp.Balanced : LOp σ → Prop
  | .visit _ cb _ _ => ∀ b l, Pooya.Balanced (cb b l)
  | .step _ _ f => ∀ b, Pooya.Balanced (f b)
  | .process _ act => ∀ b, Pooya.Balanced (act b)
  | _ => True

/-- The entry of the traceback for a function at the given place of the source, called on block `b`. -/
def Entry (h : Heap) (place : String × Int) (b : BlkId) (t : TraceInfo) : Prop :=
  ∃ n v, fullName h n b = some v ∧ t = ⟨place.1, place.2, str "block: " ++ v.name⟩

/-- The entries for the calls that lead from `b` down to `x`, innermost first: those of `x` at the places `own x`, and one for each submodel passed,
at the place `up`. -/
inductive Route (h : Heap) (own : BlkId → List (String × Int)) (up : String × Int) : BlkId → BlkId → List TraceInfo → Prop
  | here {x : BlkId} {l : List TraceInfo} : List.Forall₂ (fun p t => Entry h p x t) (own x) l → Route h own up x x l
  | down {b c x : BlkId} {l : List TraceInfo} {t : TraceInfo} : c ∈ h.kids b → Route h own up c x l → Entry h up b t → Route h own up b x (l ++ [t])

/-- Where `visit` of a block leaves entries. -/
def visitPlaces (h : Heap) (b : BlkId) : List (String × Int) :=
  if (h.node b).isSub then [("block.hpp", 103), ("submodel.cpp", 60)] else [("block.hpp", 103)]

/-- A callback that neither builds nor destroys blocks and leaves the traceback alone. -/
def Quietly {α : Type} (x : LM σ α) : Prop := ∀ s a s', x s = .ok a s' → s'.heap = s.heap ∧ s'.alive = s.alive ∧ s'.trace = s.trace

/-- The exception came from the callback `cb`, called on block `x` when the traceback was `l ++ tr`. -/
def RaisedBy {α : Type} (cb : BlkId → LM σ α) (e : Exc) (x : BlkId) (l tr : List TraceInfo) (thrown : List TraceInfo) : Prop :=
  ∃ s s', cb x s = .error (.exc e) s' ∧ s.trace = l ++ tr ∧ s'.thrown = thrown

end Pooya
