import Verif.Model.Base

/-
Model of the value signals, src/signal/{value_signal,scalar_signal,int_signal,bool_signal,
array_signal,float_signal,signal}.hpp, and of the state shared by all simulated objects.
-/

namespace Pooya

/-- Identity of a signal object (the `SignalImpl` pointer). -/
abbrev SigId := Nat
/-- Identity of a block object (the `Block` pointer). -/
abbrev BlkId := Nat

/-- Dynamic type of a value signal; arrays carry `_size` (src/signal/float_signal.hpp:51). -/
inductive Ty where
  | scalar
  | int
  | bool
  | array (n : Nat)
deriving DecidableEq, Repr

/-- `FloatSignalImplT::_size` (src/signal/float_signal.hpp:51; scalars pass 1, scalar_signal.hpp:37). -/
def Ty.size : Ty → Nat
  | .scalar => 1
  | .int => 1
  | .bool => 1
  | .array n => n

/-- Values held by signals. -/
inductive Val (K : Type) where
  | scalar (x : K)
  | int (n : Int)
  | bool (b : Bool)
  | array (xs : List K)
deriving DecidableEq, Repr

/-- The value has the C++ type the signal stores (sizes of arrays are not part of the type). -/
def Val.hasTag {K : Type} : Val K → Ty → Bool
  | .scalar _, .scalar => true
  | .int _, .int => true
  | .bool _, .bool => true
  | .array _, .array _ => true
  | _, _ => false

/-- The debug-only size check of `ArraySignalImpl::set_value` (src/signal/array_signal.hpp:61). -/
def Val.sizeOk {K : Type} : Val K → Ty → Bool
  | .array xs, .array n => xs.length == n
  | _, _ => true

/-- A value signal object: `_assigned` (src/signal/value_signal.hpp:36) and the typed value member.
`value = none` is the indeterminate value before the first write. -/
structure Cell (K : Type) where
  ty : Ty
  assigned : Bool := false
  value : Option (Val K) := none

/-- A freshly created signal (`create_new`, e.g. src/signal/scalar_signal.hpp:39). -/
def Cell.fresh {K : Type} (ty : Ty) : Cell K := { ty := ty }

/-- The data members of leaf blocks that persist between evaluations. One flat record; every
block class uses only its own members. -/
structure Mem (K : Type) where
  /-- `_value` of `MemoryT` (memory.hpp:71) and `IntegratorBaseT` (integrator_base.hpp:81) -/
  value : Val K
  /-- `_triggered` of `TriggeredIntegratorT` (triggered_integrator.hpp:86) -/
  triggered : Bool := false
  /-- `_first_step` of `DerivativeT` (derivative.hpp:71) -/
  firstStep : Bool := true
  /-- `_t` of `DerivativeT` (derivative.hpp:72), indeterminate at first -/
  t : Option K := none
  /-- `_x` of `DerivativeT` (derivative.hpp:73) -/
  x : Option (Val K) := none
  /-- `_t` of `DelayT` (delay.hpp:119) -/
  ts : List K := []
  /-- `_x` of `DelayT` (delay.hpp:120) -/
  xs : List (Val K) := []
  /-- members of a user-written leaf -/
  user : List (Val K) := []
deriving DecidableEq

/-- Calls into user-visible hooks and printed warnings, as an observer would record them. -/
inductive Event (K : Type) where
  /-- the input callback was called -/
  | input (t : K)
  | pre (b : BlkId) (t : K)
  | act (b : BlkId) (t : K)
  | post (b : BlkId) (t : K)
  /-- the stepper was asked to step from `t1` to `t2` -/
  | trial (t1 t2 : K)
  /-- that step was accepted -/
  | accept (t1 t2 : K)
  /-- "Repeated simulation step" (simulator_base.cpp:170) -/
  | warnRepeated (t : K)
  /-- "A stepper is provided but no state variable is defined!" (simulator_base.cpp:107) -/
  | warnStepper
deriving DecidableEq, Repr

/-- All mutable objects of the diagram: signals, block members, `Block::_processed` flags
(src/block/block.hpp:125), and the record of observable calls (newest first). -/
structure World (K : Type) where
  sig : SigId → Cell K
  mem : BlkId → Mem K
  done : BlkId → Bool
  log : List (Event K)

/-- Point update of a map from identities. -/
def upd {α : Type} (f : Nat → α) (i : Nat) (a : α) : Nat → α := fun j => if j = i then a else f j

/-- Effects on the diagram: state is kept when an exception is thrown. -/
abbrev M (K : Type) := EStateM Err (World K)

variable {K : Type}

def throwE {σ α : Type} (e : Err) : EStateM Err σ α := fun w => .error e w

/-- Run pure user code that may throw. -/
def liftE {σ α : Type} : Except Err α → EStateM Err σ α
  | .ok a => fun w => .ok a w
  | .error e => fun w => .error e w

/-- `pooya_debug_verify` (src/helper/verify.hpp:29-39): nothing in release builds. -/
def debugVerify {σ : Type} (dbg cond : Bool) (e : Exc) : EStateM Err σ Unit :=
  fun w => if dbg && !cond then .error (.exc e) w else .ok () w

/-- `get_value` of the four value signal classes (scalar_signal.hpp:41-46, int_signal.hpp:44-49,
bool_signal.hpp:41-46, array_signal.hpp:45-52).  The array check `_array_value.rows() == _size` is
omitted: the constructor establishes it and debug builds preserve it (array_signal.hpp:38,61). -/
def getv (dbg : Bool) (s : SigId) : M K (Val K) := fun w =>
  if dbg && !(w.sig s).assigned then .error (.exc .unassigned) w
  else match (w.sig s).value with
    | none => .error (.ub .uninitRead) w
    | some v => .ok v w

/-- `set_value` of the four value signal classes (scalar_signal.hpp:48-54, int_signal.hpp:51-57,
bool_signal.hpp:48-54, array_signal.hpp:56-66). -/
def setv (dbg : Bool) (s : SigId) (v : Val K) : M K Unit := fun w =>
  if !v.hasTag (w.sig s).ty then .error (.ub .typeConfusion) w
  else if dbg && (w.sig s).assigned then .error (.exc .reassigned) w
  else if dbg && !v.sizeOk (w.sig s).ty then .error (.exc .sizeMismatch) w
  else .ok () { w with sig := upd w.sig s { w.sig s with assigned := true, value := some v } }

/-- `ValueSignalImpl::clear` (src/signal/value_signal.hpp:32). -/
def clearv (s : SigId) : M K Unit := fun w =>
  .ok () { w with sig := upd w.sig s { w.sig s with assigned := false } }

/-- `ValueSignalImpl::assigned` (src/signal/value_signal.hpp:33). -/
def assigned (s : SigId) : M K Bool := fun w => .ok (w.sig s).assigned w

def getMem (b : BlkId) : M K (Mem K) := fun w => .ok (w.mem b) w

def setMem (b : BlkId) (m : Mem K) : M K Unit := fun w => .ok () { w with mem := upd w.mem b m }

def getDone (b : BlkId) : M K Bool := fun w => .ok (w.done b) w

def setDone (b : BlkId) (d : Bool) : M K Unit := fun w => .ok () { w with done := upd w.done b d }

def emit (e : Event K) : M K Unit := fun w => .ok () { w with log := e :: w.log }

/-- Read a signal through a `ScalarSignal` handle (`operator double`, scalar_signal.hpp:76). -/
def getScalar (dbg : Bool) (s : SigId) : M K K := do
  match ← getv dbg s with
  | .scalar x => pure x
  | _ => throwE (.ub .typeConfusion)

/-- Read a signal through a `BoolSignal` handle (`operator bool`, bool_signal.hpp:76). -/
def getBool (dbg : Bool) (s : SigId) : M K Bool := do
  match ← getv dbg s with
  | .bool b => pure b
  | _ => throwE (.ub .typeConfusion)

/-- Read several signals in order. -/
def getAll (dbg : Bool) : List SigId → M K (List (Val K))
  | [] => pure []
  | s :: ss => do
    let v ← getv dbg s
    let vs ← getAll dbg ss
    pure (v :: vs)

/-- Assign the given values to the given signals in order; `none` means the user code does not
assign that signal. -/
def setAll (dbg : Bool) : List SigId → List (Option (Val K)) → M K Unit
  | s :: ss, some v :: vs => do setv dbg s v; setAll dbg ss vs
  | _ :: ss, none :: vs => setAll dbg ss vs
  | _, _ => pure ()

end Pooya
