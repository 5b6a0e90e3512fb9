import Verif.Model.Ownership
import Mathlib.Logic.Relation

/-! Who refers to a signal. -/

namespace Pooya

/-- A signal object contains a `shared_ptr` to another. -/
def Own.Keeps (s : Own) (x y : SigId) : Prop := s.live x = true ∧ y ∈ (s.obj x).members

/-- A handle contains a `shared_ptr` to the signal. -/
def Own.Named (s : Own) (y : SigId) : Prop := ∃ i, i < s.top ∧ y ∈ (s.ref i).targets

/-- The program has access to the signal. -/
def Own.Accessible (s : Own) (y : SigId) : Prop := ∃ x, s.Named x ∧ Relation.ReflTransGen s.Keeps x y

/-- `y` is the derivative signal of `x`. -/
def Own.DerivOf (s : Own) (x y : SigId) : Prop := s.live x = true ∧ (s.obj x).deriv = some y

/-- The number of `shared_ptr`s to the signal. -/
def Own.refs (s : Own) (x : SigId) : Nat :=
  ((List.range s.top).flatMap fun i : Nat => (s.ref i).targets).count x +
  ((List.range s.next).flatMap fun y : Nat => if s.live y then (s.obj y).members else []).count x

/-- The handles that a call uses exist and are not null, and their classes are those the compiler asks for. -/
def OOp.Valid (s : Own) : OOp → Prop
  | .value _ => True
  | .bus l => ∀ i ∈ l, i < s.top ∧ (s.ref i).ptr.isSome
  | .clone i | .plain i | .drop i => i < s.top
  | .cast i _ => i < s.top ∧ (s.ref i).ptr.isSome
  | .entry i _ => i < s.top ∧ (s.ref i).cls = some .bus ∧ (s.ref i).typed.isSome
  | .reset i j cls => i < s.top ∧ (s.ref i).cls = some cls ∧ j < s.top ∧ (s.ref j).ptr.isSome
  | .deriv i j => i < s.top ∧ ((s.ref i).cls = some .scalar ∨ (s.ref i).cls = some .array) ∧ (s.ref i).typed.isSome ∧ j < s.top ∧ (s.ref j).ptr.isSome

/-- The class of a signal object (`none` for buses) is the one that a class of handles is for. -/
inductive OfClass : HandleTy → Option Ty → Prop
  | scalar : OfClass .scalar (some .scalar)
  | int : OfClass .int (some .int)
  | bool : OfClass .bool (some .bool)
  | array (n : Nat) : OfClass .array (some (.array n))
  | bus : OfClass .bus none

/-- The states programs can reach; they may catch exceptions. -/
inductive Own.Reached : Own → Prop
  | empty : Own.Reached .empty
  | step {s s' : Own} (op : OOp) : s.Reached → op.Valid s → (op.exec s = .ok () s' ∨ ∃ e, op.exec s = .error (.exc e) s') → s'.Reached

/-- The states programs can reach from the given one. -/
inductive Own.Later (s : Own) : Own → Prop
  | now : Own.Later s s
  | step {s1 s2 : Own} (op : OOp) : s.Later s1 → op.Valid s1 → (op.exec s1 = .ok () s2 ∨ ∃ e, op.exec s1 = .error (.exc e) s2) → s.Later s2

end Pooya
