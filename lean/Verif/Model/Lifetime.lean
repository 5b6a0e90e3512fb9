import Verif.Model.Topology

/-
Model of what destroying blocks means for the blocks that are left, and of the traceback that debug builds keep
(src/helper/trace.hpp): the functions of src/block/block.{hpp,cpp}, src/block/submodel.{hpp,cpp} and src/block/leaf.cpp that
follow the pointers `_parent` and `_blocks`.

Simplifications: the identity of a destroyed block is not used again for a new one; what leaf classes do in `process`,
`pre_step` and `post_step` and what a visitor does are parameters; texts of warnings are computed (this follows pointers) but
not kept; running out of memory and of stack is not modelled.
-/

namespace Pooya

variable {σ : Type}

/-- `PooyaTraceInfo` (src/helper/trace.hpp:39-44). -/
structure TraceInfo where
  file : String := ""
  line : Int := -1
  msg : Str := []
deriving DecidableEq, Repr

/-- All blocks, which of them have not been destroyed, their `_processed` flags (src/block/block.hpp:125), the global
`pooya_trace_info` (src/helper/trace.hpp:46; the last element first), and the traceback in the message of the last exception;
whatever else there is in the program. -/
structure Store (σ : Type) where
  heap : Heap
  alive : BlkId → Bool
  processed : BlkId → Bool
  trace : List TraceInfo
  thrown : List TraceInfo
  ext : σ

def Store.empty (x : σ) : Store σ := ⟨Heap.empty, fun _ => false, fun _ => false, [], [], x⟩

abbrev LM (σ : Type) := EStateM Err (Store σ)

/-- Following a pointer or reference to a block: its members are only there until it is destroyed. -/
def deref (b : BlkId) : LM σ Node := fun s => if s.alive b then .ok (s.heap.node b) s else .error (.ub .dangling) s

/-- `pooya_throw_exception` (src/helper/util.cpp:28-41): in debug builds the message ends with the traceback
(src/helper/trace.cpp:29-42), innermost entry first. -/
def throwP {α : Type} (dbg : Bool) (e : Exc) : LM σ α := fun s => .error (.exc e) (if dbg then { s with thrown := s.trace } else s)

/-- `PooyaTracer::update` (src/helper/trace.hpp:53-63). -/
def traceUpdate (dbg : Bool) (file : String) (line : Int) (msg : Str) : LM σ Unit := fun s =>
  match s.trace with
  | [] => throwP dbg .debugVerify s
  | e :: r => .ok () { s with trace := { file := file, line := line, msg := if msg ≠ [] then msg else e.msg } :: r }

/-- `~PooyaTracer` (src/helper/trace.hpp:65): `pop_back` of an empty vector is undefined. -/
def tracePop {α : Type} : EStateM.Result Err (Store σ) α → EStateM.Result Err (Store σ) α
  | .ok a s => match s.trace with | [] => .error (.ub .outOfBounds) s | _ :: r => .ok a { s with trace := r }
  | .error e s => match s.trace with | [] => .error (.ub .outOfBounds) s | _ :: r => .error e { s with trace := r }

/-- A block of code that begins with `pooya_trace(msg)` (src/helper/trace.hpp:68-71): a tracer object is constructed, `update` is
called with the text, the code follows; the tracer is destroyed when the code is left, by an exception or otherwise.
In release builds nothing but the code remains; `msg` is not evaluated (line 32). -/
def traced {α : Type} (dbg : Bool) (file : String) (line : Int) (msg : LM σ Str) (body : LM σ α) : LM σ α := fun s =>
  if dbg then
    tracePop ((do let m ← msg; traceUpdate dbg file line m; body : LM σ α) { s with trace := {} :: s.trace })
  else body s

/-- `Block::full_name` (src/block/block.cpp:91-94); `n` bounds the depth of the recursion. -/
def fullNameP : Nat → BlkId → LM σ ValidName
  | 0, _ => throw .fuel
  | n + 1, b => do
    let nd ← deref b
    match nd.parent with
    | none => pure (ValidName.empty.slash ⟨nd.name⟩)
    | some p => do
      let v ← fullNameP n p
      pure (v.slash ⟨nd.name⟩)

/-- The text `"block: " + full_name().str()`. -/
def blockMsg (n : Nat) (b : BlkId) : LM σ Str := do
  let v ← fullNameP n b
  pure (str "block: " ++ v.name)

/-- `Submodel::link_block` (src/block/submodel.cpp:112-125) called on `p` with argument `b`.  The text of the warning is computed in
all builds. -/
def linkBlockP (dbg : Bool) (n : Nat) (p b : BlkId) : LM σ Bool :=
  traced dbg "submodel.cpp" 114 (blockMsg n p) do
    let nb ← deref b
    if nb.parent ≠ some p then do
      let _ ← fullNameP n b
      pure false
    else do
      let np ← deref p
      if b ∈ np.kids then pure true
      else do
        modify fun s => { s with heap := { s.heap with node := upd s.heap.node p { s.heap.node p with kids := s.heap.kids p ++ [b] } } }
        pure true

/-- `Block::Block` (src/block/block.cpp:28-32). -/
def newBlockP (dbg : Bool) (n : Nat) (isSub : Bool) (parent : Option BlkId) (name : Str) : LM σ BlkId := do
  let s ← get
  let b := s.heap.next
  set { s with heap := ⟨upd s.heap.node b ⟨emend name, isSub, parent, []⟩, b + 1⟩, alive := upd s.alive b true, processed := upd s.processed b false }
  match parent with
  | none => pure b
  | some p => do
    let _ ← linkBlockP dbg n p b
    pure b

/-- `Block::set_parent` (src/block/block.cpp:34-46) called on `b` with argument `p`. -/
def setParentP (dbg : Bool) (n : Nat) (b p : BlkId) : LM σ Bool := do
  let nb ← deref b
  if nb.parent ≠ none ∧ nb.parent ≠ some p then do
    let _ ← fullNameP n b
    pure false
  else do
    modify fun s => { s with heap := { s.heap with node := upd s.heap.node b { s.heap.node b with parent := some p } } }
    let _ ← linkBlockP dbg n p b
    pure true

/-- `NamedObject::rename` (src/shared/named_object.hpp:79). -/
def renameP (b : BlkId) (name : Str) : LM σ Unit := do
  let _ ← deref b
  modify fun s => { s with heap := renameBlock s.heap b name }

/-- `~Block` (src/block/block.hpp:60): the default destructor; neither the parent nor the children are told. -/
def destroyP (b : BlkId) : LM σ Unit := do
  let _ ← deref b
  modify fun s => { s with alive := upd s.alive b false }

/-- A loop over `_blocks` that ends early when the body yields `false`. -/
def forKids (f : BlkId → LM σ Bool) : List BlkId → LM σ Bool
  | [] => pure true
  | c :: cs => do
    let r ← f c
    if r then forKids f cs else pure false

/-- `visit` (src/block/block.hpp:101-105, src/block/submodel.cpp:58-83) and `const_visit` (which differ in `const` and the lines). -/
def visitP (dbg : Bool) (cb : BlkId → Nat → LM σ Bool) : Nat → BlkId → Nat → Nat → LM σ Bool
  | 0, _, _, _ => throw .fuel
  | n + 1, b, level, maxLevel => do
    let nd ← deref b
    let base : LM σ Bool := traced dbg "block.hpp" 103 (blockMsg n b) (if level > maxLevel then pure true else cb b level)
    if nd.isSub then
      traced dbg "submodel.cpp" 60 (blockMsg n b) do
        if level > maxLevel then pure true
        else do
          let r ← base
          if !r then pure false
          else if level < maxLevel then do
            let nd ← deref b
            forKids (fun c => visitP dbg cb n c (level + 1) maxLevel) nd.kids
          else pure true
    else base

/-- `_mark_unprocessed` (src/block/block.cpp:120-123, src/block/submodel.cpp:26-35), with `flag` the value the class of a leaf sets: `false`, except
for `BusBlockBuilder` (src/block/extra/bus_block_builder.cpp:67-70). -/
def markP (dbg : Bool) (flag : BlkId → Bool) : Nat → BlkId → LM σ Unit
  | 0, _ => throw .fuel
  | n + 1, b => do
    let nd ← deref b
    if nd.isSub then
      traced dbg "submodel.cpp" 28 (blockMsg n b) do
        let nd ← deref b
        modify fun s => { s with processed := upd s.processed b false }
        let _ ← forKids (fun c => do markP dbg flag n c; pure true) nd.kids
        pure ()
    else modify fun s => { s with processed := upd s.processed b (flag b) }

/-- `pre_step` or `post_step` (src/block/submodel.hpp:38-54), with `f` the function of the leaves. -/
def stepP (dbg : Bool) (line : Int) (f : BlkId → LM σ Unit) : Nat → BlkId → LM σ Unit
  | 0, _ => throw .fuel
  | n + 1, b => do
    let nd ← deref b
    if nd.isSub then
      traced dbg "submodel.hpp" line (blockMsg n b) do
        let nd ← deref b
        let _ ← forKids (fun c => do stepP dbg line f n c; pure true) nd.kids
        pure ()
    else f b

/-- `processed()` of a block (src/block/block.hpp:69). -/
def processedP (b : BlkId) : LM σ Bool := do
  let _ ← deref b
  let s ← get
  pure (s.processed b)

/-- The loop over the blocks in `Submodel::process` (src/block/submodel.cpp:45-52). -/
def processKids (p : BlkId) (f : BlkId → LM σ Nat) : List BlkId → LM σ Nat
  | [] => pure 0
  | c :: cs => do
    let k ← f c
    let d ← processedP c
    if !d then modify fun s => { s with processed := upd s.processed p false }
    let r ← processKids p f cs
    pure (k + r)

/-- `process` (src/block/submodel.cpp:37-56 with `go_deep`, src/block/leaf.cpp:23-35), with `act` the test of readiness followed by the
activation function of the leaves; it yields whether the leaf was ready. -/
def processP (dbg : Bool) (act : BlkId → LM σ Bool) : Nat → BlkId → LM σ Nat
  | 0, _ => throw .fuel
  | n + 1, b => do
    let nd ← deref b
    if nd.isSub then
      traced dbg "submodel.cpp" 39 (blockMsg n b) do
        let d ← processedP b
        if d then pure 0
        else do
          modify fun s => { s with processed := upd s.processed b true }
          let nd ← deref b
          processKids b (processP dbg act n) nd.kids
    else
      traced dbg "leaf.cpp" 25 (blockMsg n b) do
        let d ← processedP b
        if d then pure 0
        else do
          let r ← act b
          if !r then pure 0
          else do
            modify fun s => { s with processed := upd s.processed b true }
            pure 1

/-- `while (_model.process(t)) {}` (src/solver/simulator.cpp:84-86). -/
def plainLoopP (p : LM σ Nat) : Nat → LM σ Unit
  | 0 => throw .fuel
  | k + 1 => do
    let r ← p
    if r = 0 then pure () else plainLoopP p k

/-- Calls on the blocks of a program. -/
inductive LOp (σ : Type) where
  | new (isSub : Bool) (parent : Option BlkId) (name : Str)
  | setParent (b p : BlkId)
  | linkBlock (p b : BlkId)
  | rename (b : BlkId) (name : Str)
  | fullName (b : BlkId)
  | visit (b : BlkId) (cb : BlkId → Nat → LM σ Bool) (level maxLevel : Nat)
  | mark (b : BlkId) (flag : BlkId → Bool)
  | step (line : Int) (b : BlkId) (f : BlkId → LM σ Unit)
  | process (b : BlkId) (act : BlkId → LM σ Bool)
  | destroy (b : BlkId)

/-- Execution of a call in a debug or release build; `n` bounds the depth of recursions. -/
def LOp.exec (dbg : Bool) (n : Nat) : LOp σ → LM σ Unit
  | .new k p name => do let _ ← newBlockP dbg n k p name; pure ()
  | .setParent b p => do let _ ← setParentP dbg n b p; pure ()
  | .linkBlock p b => do let _ ← linkBlockP dbg n p b; pure ()
  | .rename b name => renameP b name
  | .fullName b => do let _ ← fullNameP n b; pure ()
  | .visit b cb level maxLevel => do let _ ← visitP dbg cb n b level maxLevel; pure ()
  | .mark b flag => markP dbg flag n b
  | .step line b f => stepP dbg line f n b
  | .process b act => do let _ ← processP dbg act n b; pure ()
  | .destroy b => destroyP b

end Pooya
