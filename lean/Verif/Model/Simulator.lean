import Verif.Model.Engine
import Verif.Model.Stepper

/- Model of src/solver/{simulator_base,simulator,fast_simulator}.{hpp,cpp}. -/

namespace Pooya

/-- `Simulator` with `reuse_order = false`, with `reuse_order = true`, and `FastSimulator`. -/
inductive Strategy where
  | plain | reuse | fast
deriving DecidableEq, Repr

/-- User input code (`InputCallback`, src/solver/simulator_base.hpp:39, or an overridden `input_cb`,
src/block/block.hpp:64): a function of time that assigns signals in order and then may throw.
Simplification: it does not read the diagram. -/
abbrev UserInput (K : Type) := K → List (SigId × Val K) × Option Err

/-- The fixed part of a simulator object and its surroundings. -/
structure Config (K : Type) where
  /-- POOYA_DEBUG -/
  dbg : Bool
  /-- `_model` (src/solver/simulator_base.hpp:49) -/
  model : Block K
  /-- `_deriv_sig` of the float signals (src/signal/float_signal.hpp:49) -/
  deriv : SigId → Option SigId
  /-- `_inputs_cb` (src/solver/simulator_base.hpp:51) -/
  inputs : Option (UserInput K)
  /-- `_model.input_cb` -/
  modelInput : UserInput K
  /-- `_stepper` (src/solver/simulator_base.hpp:60) -/
  stepper : Option (Stepper K)
  strategy : Strategy
  /-- iteration order of the `std::unordered_set`s (src/solver/simulator_base.cpp:39-43) as a function
  of the inserted elements -/
  hash : List SigId → List SigId

/-- The mutable members of the simulator object (src/solver/simulator_base.hpp:50-61,
simulator.hpp:42-45, fast_simulator.hpp). `sv` is `_state_variables` (`none`: resized but never
written); `_state_variables_orig` and `_state_variable_derivs` are always written before they are
read and are passed as values; `po` is `*_current_po` (`none`: null pointer). -/
structure Sim (K : Type) where
  tPrev : K
  initialized : Bool := false
  valueSigs : List SigId := []
  scalarStates : List SigId := []
  arrayStates : List SigId := []
  nState : Nat := 0
  sv : Option (List K) := some []
  po : Option (List (Block K)) := none
  fast : List (List (Leaf K)) := []

/-- The diagram and the simulator. -/
structure Machine (K : Type) where
  w : World K
  s : Sim K

abbrev MM (K : Type) := EStateM Err (Machine K)

variable {K : Type}

/-- Run an effect on the diagram. -/
def inW {α : Type} (x : M K α) : MM K α := fun m =>
  match x m.w with
  | .ok a w => .ok a { m with w := w }
  | .error e w => .error e { m with w := w }

/-- Update the simulator members. -/
def setSim (f : Sim K → Sim K) : MM K Unit := fun m => .ok () { m with s := f m.s }

def getSim : MM K (Sim K) := fun m => .ok m.s m

/-- `_state_variables.size()`. -/
def Sim.svSize (s : Sim K) : Nat :=
  match s.sv with
  | some v => v.length
  | none => s.nState

/-- Insertion of a sequence of elements in a set, in order of first appearance. -/
def distinct : List SigId → List SigId → List SigId
  | acc, [] => acc
  | acc, s :: ss => if s ∈ acc then distinct acc ss else distinct (acc ++ [s]) ss

/-- `for (auto& sig : value_signals_) sig->clear();` -/
def clearAll : List SigId → M K Unit
  | [] => pure ()
  | s :: ss => do clearv s; clearAll ss

/-- The assignments of a user input function. -/
def applyInput (dbg : Bool) : List (SigId × Val K) → Option Err → M K Unit
  | [], e => throwOpt e
  | (s, v) :: rest, e => do setv dbg s v; applyInput dbg rest e

/-- `if (_inputs_cb) _inputs_cb(_model, t); _model.input_cb(t);` (src/solver/simulator.cpp:35-39 and
the same lines elsewhere). -/
def callInputs (cfg : Config K) (t : K) : M K Unit := do
  emit (.input t)
  match cfg.inputs with
  | some f => applyInput cfg.dbg (f t).1 (f t).2
  | none => pure ()
  applyInput cfg.dbg (cfg.modelInput t).1 (cfg.modelInput t).2

def Ty.isArray : Ty → Bool
  | .array _ => true
  | _ => false

section
variable [Arith K]

/-- The part of `process_model` that runs the activation functions: `Simulator`
(src/solver/simulator.cpp:43-87) and `FastSimulator` (src/solver/fast_simulator.cpp:37-38). -/
def evalModel (cfg : Config K) (t : K) : MM K Unit :=
  match cfg.strategy with
  | .plain => do
      inW cfg.model.mark
      inW (plainLoop cfg.dbg t cfg.model (cfg.model.leaves.length + 1))
  | .reuse => do
      inW cfg.model.mark
      let s ← getSim
      match s.po with
      | none => throwE (.ub .nullDeref)
      | some po =>
        let po' ← inW (reuseEval cfg.dbg t po)
        setSim (fun s => { s with po := some po' })
  | .fast => do
      let s ← getSim
      inW (actAll cfg.dbg t s.fast.flatten)

/-- `process_model(t, call_pre_step, call_post_step)`: `Simulator` (src/solver/simulator.cpp:31-121)
and `FastSimulator` (src/solver/fast_simulator.cpp:25-41).  The debug-only listing of unprocessed
blocks (simulator.cpp:89-118) only prints; it is in `Report.lean`. -/
def processModel (cfg : Config K) (t : K) (pre post : Bool) : MM K Unit := do
  inW (callInputs cfg t)
  if pre then inW (cfg.model.preStep cfg.dbg t) else pure ()
  evalModel cfg t
  if post then inW (cfg.model.postStep cfg.dbg t) else pure ()

/-- Signals linked to any block of the model, in order of first appearance
(src/solver/simulator_base.cpp:45-51). -/
def linkedSigs (b : Block K) : List SigId :=
  distinct [] (b.all.flatMap (fun b => b.links.map Prod.fst))

/-- Scalar state signals (src/solver/simulator_base.cpp:53-62). -/
def scalarStatesOf (cfg : Config K) (w : World K) : List SigId :=
  (linkedSigs cfg.model).filter (fun s => decide ((w.sig s).ty = .scalar) && (cfg.deriv s).isSome)

/-- Array state signals (src/solver/simulator_base.cpp:64-73). -/
def arrayStatesOf (cfg : Config K) (w : World K) : List SigId :=
  (linkedSigs cfg.model).filter (fun s => (w.sig s).ty.isArray && (cfg.deriv s).isSome)

/-- `state_variables_size` (src/solver/simulator_base.cpp:37,60,71). -/
def stateSize (cfg : Config K) (w : World K) : Nat :=
  (scalarStatesOf cfg w).length + ((arrayStatesOf cfg w).map (fun s => (w.sig s).ty.size)).sum

/-- `SimulatorBase::init` (src/solver/simulator_base.cpp:33-117).  `Array::resize` keeps the contents
if the size does not change. -/
def baseInit (cfg : Config K) (t0 : K) : MM K Unit := do
  let m ← get
  let n := stateSize cfg m.w
  setSim (fun s => { s with
    valueSigs := s.valueSigs ++ cfg.hash (linkedSigs cfg.model)
    scalarStates := s.scalarStates ++ cfg.hash (scalarStatesOf cfg m.w)
    arrayStates := s.arrayStates ++ cfg.hash (arrayStatesOf cfg m.w)
    nState := n
    sv := if n = s.svSize then s.sv else if n = 0 then some [] else none
    tPrev := t0 })
  if decide (n = 0) && cfg.stepper.isSome then inW (emit .warnStepper) else pure ()
  let s ← getSim
  inW (clearAll s.valueSigs)
  setSim (fun s => { s with initialized := true })

/-- The ordering pass of `FastSimulator::init` (src/solver/fast_simulator.cpp:76-110) returns the levels found and `num_blocks_added`; if an activation
function throws, the levels found so far stay in `_processing_order`. -/
def levels (cfg : Config K) (t0 : K) : MM K (List (List (Leaf K)) × Nat) := fun m =>
  match fastOrder cfg.dbg t0 cfg.model.leaves (cfg.model.leaves.length + 1) m.w with
  | .ok r w => .ok r { m with w := w }
  | .error e w =>
    .error e { w := w, s := { m.s with fast := m.s.fast ++ fastFound cfg.dbg t0 cfg.model.leaves (cfg.model.leaves.length + 1) m.w } }

/-- `init(t0)`: `Simulator::init` (src/solver/simulator.cpp:123-157), `FastSimulator::init`
(src/solver/fast_simulator.cpp:43-120).  Simplification: if `Simulator::init` is called again in a release
build the old processing order is replaced instead of extended. -/
def simInit (cfg : Config K) (t0 : K) : MM K Unit := do
  baseInit cfg t0
  match cfg.strategy with
  | .plain => processModel cfg t0 true true
  | .reuse => do
      let s ← getSim
      if 0 < s.svSize then
        debugVerify cfg.dbg s.po.isNone .debugVerify
        setSim (fun s => { s with po := some cfg.model.all })
      else pure ()
      processModel cfg t0 true true
  | .fast => do
      let s ← getSim
      debugVerify cfg.dbg s.fast.isEmpty .debugVerify
      inW (callInputs cfg t0)
      inW (cfg.model.preStep cfg.dbg t0)
      let r ← levels cfg t0
      setSim (fun s => { s with fast := s.fast ++ r.1 })
      if r.2 ≠ cfg.model.leaves.length then throwE (.exc .notFast) else pure ()
      inW (clearAll s.valueSigs)
      processModel cfg t0 true true

/-- The scalar loop of `reset_with_state_variables` (src/solver/simulator_base.cpp:253-258); returns
the unread part of the data. -/
def writeScalars (dbg : Bool) : List SigId → List K → M K (List K)
  | [], d => pure d
  | s :: ss, x :: d => do
    setv dbg s (.scalar x)
    writeScalars dbg ss d
  | _ :: _, [] => throwE (.ub .outOfBounds)

/-- The array loop of `reset_with_state_variables` (src/solver/simulator_base.cpp:260-264). -/
def writeArrays (dbg : Bool) : List SigId → List K → M K Unit
  | [], _ => pure ()
  | s :: ss, d => do
    let w ← get
    let n := (w.sig s).ty.size
    if d.length < n then throwE (.ub .outOfBounds)
    else
      setv dbg s (.array (d.take n))
      writeArrays dbg ss (d.drop n)

/-- `reset_with_state_variables` (src/solver/simulator_base.cpp:246-266). -/
def resetWith (cfg : Config K) (x : List K) : MM K Unit := do
  let s ← getSim
  inW (clearAll s.valueSigs)
  let d ← inW (writeScalars cfg.dbg s.scalarStates x)
  inW (writeArrays cfg.dbg s.arrayStates d)

/-- Read scalar signals (src/solver/simulator_base.cpp:273-277). -/
def readScalars (dbg : Bool) : List SigId → M K (List K)
  | [] => pure []
  | s :: ss => do
    let x ← getScalar dbg s
    let xs ← readScalars dbg ss
    pure (x :: xs)

/-- Read array signals through `Eigen::Map` of the signal's size (src/solver/simulator_base.cpp:279-283);
a value of another size is undefined behaviour. -/
def readArrays (dbg : Bool) : List SigId → M K (List K)
  | [] => pure []
  | s :: ss => do
    let w ← get
    let v ← getv dbg s
    match v with
    | .array a =>
      if a.length = (w.sig s).ty.size then
        let xs ← readArrays dbg ss
        pure (a ++ xs)
      else throwE (.ub .eigenSize)
    | _ => throwE (.ub .typeConfusion)

/-- `get_state_variables` (src/solver/simulator_base.cpp:268-285).  The target buffer has
`_state_variables.size()` elements; any other total is treated as an out-of-bounds access. -/
def getStates (cfg : Config K) : MM K (List K) := do
  let s ← getSim
  let a ← inW (readScalars cfg.dbg s.scalarStates)
  let b ← inW (readArrays cfg.dbg s.arrayStates)
  if (a ++ b).length = s.svSize then pure (a ++ b) else throwE (.ub .outOfBounds)

/-- `sig->deriv_signal()`, null if there is none. -/
def derivsOf (cfg : Config K) : List SigId → Option (List SigId)
  | [] => some []
  | s :: ss =>
    match cfg.deriv s, derivsOf cfg ss with
    | some d, some ds => some (d :: ds)
    | _, _ => none

/-- Collecting the derivatives (src/solver/simulator_base.cpp:130-145). -/
def getDerivs (cfg : Config K) : MM K (List K) := do
  let s ← getSim
  match derivsOf cfg s.scalarStates, derivsOf cfg s.arrayStates with
  | some ds, some da => do
    let a ← inW (readScalars cfg.dbg ds)
    let b ← inW (readArrays cfg.dbg da)
    if (a ++ b).length = s.nState then pure (a ++ b) else throwE (.ub .outOfBounds)
  | _, _ => throwE (.ub .nullDeref)

/-- `minor_solver_step_cb` (src/solver/simulator_base.cpp:123-146). -/
def minorCb (cfg : Config K) (t : K) (x : List K) : MM K (List K) := do
  resetWith cfg x
  processModel cfg t false false
  getDerivs cfg

/-- Start of a solver step or of a repeated step (src/solver/simulator_base.cpp:175-185, 200-210):
clear, inputs, pre_step, read the states. -/
def beginStep (cfg : Config K) (t : K) : MM K (List K) := do
  let s ← getSim
  inW (clearAll s.valueSigs)
  inW (callInputs cfg t)
  inW (cfg.model.preStep cfg.dbg t)
  getStates cfg

/-- The `while (t1 < t)` loop of `run` (src/solver/simulator_base.cpp:194-236). -/
def subLoop (cfg : Config K) (t minH maxH : K) : Nat → K → K → Bool → MM K Unit
  | 0, _, _, _ => throwE .fuel
  | n + 1, t1, t2, force =>
    if !(t1 <. t) then pure ()
    else do
      let orig ← beginStep cfg t1
      inW (emit (.trial t1 t2))
      match cfg.stepper with
      | none => throwE (.ub .nullDeref)
      | some st =>
        let r ← (st t1 orig t2).exec (minorCb cfg)
        setSim (fun s => { s with sv := some r.1 })
        let h := t2 -. t1
        let newH := r.2
        let newH' := fmax minH (fmin newH maxH)
        if force || h <=. newH || h <=. minH then
          inW (emit (.accept t1 t2))
          if t2 <. t then
            resetWith cfg r.1
            processModel cfg t2 false true
          else pure ()
          subLoop cfg t minH maxH n t2 (fmin (t2 +. newH') t) false
        else
          subLoop cfg t minH maxH n t1 (t1 +. newH') (newH <=. minH)

/-- The part of `run` before the final evaluation, for a model with state variables
(src/solver/simulator_base.cpp:155-238). -/
def advance (cfg : Config K) (fuel : Nat) (t minH maxH : K) : MM K Unit := do
  let s ← getSim
  if t <. s.tPrev then throwE (.exc .backInTime)
  else if t ==. s.tPrev then do
    inW (emit (.warnRepeated t))
    let x ← beginStep cfg t
    setSim (fun s => { s with sv := some x })
  else do
    debugVerify cfg.dbg cfg.stepper.isSome .debugVerify
    debugVerify cfg.dbg (Arith.lit 0 <. minH) .debugVerify
    debugVerify cfg.dbg (minH <. maxH) .debugVerify
    subLoop cfg t minH maxH fuel s.tPrev t false

/-- The last lines of `run` (src/solver/simulator_base.cpp:240-243). -/
def finish (cfg : Config K) (t : K) : MM K Unit := do
  let s ← getSim
  match s.sv with
  | none => throwE (.ub .uninitRead)
  | some x => do
    resetWith cfg x
    processModel cfg t (decide (x.length = 0)) true
    setSim (fun s => { s with tPrev := t })

/-- `SimulatorBase::run` (src/solver/simulator_base.cpp:119-244); `fuel` bounds the number of trial
steps. -/
def run (cfg : Config K) (fuel : Nat) (t minH maxH : K) : MM K Unit := do
  let s ← getSim
  if !s.initialized then simInit cfg t
  else do
    if 0 < s.svSize then advance cfg fuel t minH maxH else pure ()
    finish cfg t

end
end Pooya
