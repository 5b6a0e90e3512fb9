import Verif.Model.Bus

/-
Model of who keeps signals alive: the reference counts of the `std::shared_ptr`s in src/signal/signal.hpp (`Signal::_ptr`,
`SignalT::_typed_ptr`), src/signal/bus.hpp (`BusImpl::_signals`) and src/signal/float_signal.hpp (`_deriv_sig`).

Handles (objects of class `Signal`, `ScalarSignal`, ..., `Bus`) may be variables of the program or members of blocks, simulators
and histories; only their construction, `reset` and destruction matter here.

Simplifications: handles and signals are numbered and numbers are not used again; temporaries (the `Ptr` that `create_new`
returns, copies in initializer lists, the copy that is undone when a constructor throws) are left out, as each is created and
destroyed in one call while another handle refers to the same signal; names and values are left out.
-/

namespace Pooya

/-- A signal object (`SignalImpl` and derived classes): its type - `none` for a `BusImpl` -, the signals of the entries
(src/signal/bus.hpp:141) and the derivative signal (src/signal/float_signal.hpp:49-50). -/
structure SObj where
  ty : Option Ty
  entries : List SigId := []
  deriv : Option SigId := none

/-- The `shared_ptr`s in a signal object. -/
def SObj.members (o : SObj) : List SigId := o.entries ++ o.deriv.toList

/-- `dynamic_cast<typename Types<T>::SignalImpl*>` is not null (src/signal/trait.hpp). -/
def HandleTy.takes : HandleTy → Option Ty → Bool
  | .scalar, some .scalar => true
  | .int, some .int => true
  | .bool, some .bool => true
  | .array, some (.array _) => true
  | .bus, none => true
  | _, _ => false

/-- A handle: its class (`none` for `Signal`), `_ptr` (src/signal/signal.hpp:64) and `_typed_ptr` (src/signal/signal.hpp:98;
null for the class `Signal`, which has no such member). -/
structure Ref where
  cls : Option HandleTy := none
  ptr : Option SigId := none
  typed : Option SigId := none

/-- The `shared_ptr`s in a handle, in the order in which they are destroyed. -/
def Ref.targets (r : Ref) : List SigId := r.typed.toList ++ r.ptr.toList

/-- All signals, their reference counts, which of them have not been destroyed; all handles. -/
structure Own where
  obj : SigId → SObj
  rc : SigId → Nat
  live : SigId → Bool
  next : Nat
  ref : Nat → Ref
  top : Nat

def Own.empty : Own := ⟨fun _ => ⟨none, [], none⟩, fun _ => 0, fun _ => false, 0, fun _ => {}, 0⟩

abbrev OM := EStateM Err Own

/-- Dereferencing a `shared_ptr`. -/
def follow : Option SigId → OM SigId
  | none => throw (.ub .nullDeref)
  | some x => fun s => if s.live x then .ok x s else .error (.ub .dangling) s

/-- Copying a `shared_ptr`, or `shared_from_this` (src/signal/signal.hpp:54). -/
def grab : Option SigId → OM Unit
  | none => pure ()
  | some x => fun s => if s.live x then .ok () { s with rc := upd s.rc x (s.rc x + 1) } else .error (.ub .dangling) s

/-- Destroying `shared_ptr`s one after the other: each lowers the count of its signal; at zero the signal is destroyed, and so are
the `shared_ptr`s in it (`~SignalImpl`, src/signal/signal.hpp:36).  `n` bounds the number of `shared_ptr`s destroyed. -/
def letGo : Nat → List SigId → OM Unit
  | _, [] => pure ()
  | 0, _ :: _ => throw .fuel
  | n + 1, x :: l => fun s =>
    if s.live x = false ∨ s.rc x = 0 then .error (.ub .dangling) s
    else if s.rc x = 1 then letGo n ((s.obj x).members ++ l) { s with rc := upd s.rc x 0, live := upd s.live x false }
    else letGo n l { s with rc := upd s.rc x (s.rc x - 1) }

/-- The sum of all counts. -/
def Own.total (s : Own) : Nat := ((List.range s.next).map s.rc).sum

/-- Destroying `shared_ptr`s; there cannot be more of them than the sum of the counts. -/
def destroyPtrs (l : List SigId) : OM Unit := fun s => letGo s.total l s

/-- Assigning the pointers of handle `i`. -/
def putRef (i : Nat) (r : Ref) : OM Unit := fun s => .ok () { s with ref := upd s.ref i r }

/-- A further handle. -/
def newRef (r : Ref) : OM Unit := fun s => .ok () { s with ref := upd s.ref s.top r, top := s.top + 1 }

/-- A new signal object with a handle of class `cls` to it: `create_new` and the constructors of `SignalT` and its subclasses
(src/signal/scalar_signal.hpp:39,68 and siblings, src/signal/signal.hpp:73-77). -/
def newSignal (cls : HandleTy) (o : SObj) : OM Unit := fun s =>
  .ok () { s with obj := upd s.obj s.next o, rc := upd s.rc s.next 2, live := upd s.live s.next true, next := s.next + 1,
                  ref := upd s.ref s.top ⟨some cls, some s.next, some s.next⟩, top := s.top + 1 }

/-- The class of handles for signals of a type. -/
def Ty.cls : Ty → HandleTy
  | .scalar => .scalar
  | .int => .int
  | .bool => .bool
  | .array _ => .array

/-- The loop of the constructor of `BusImpl` (src/signal/bus.hpp:59-74) over the signals that the handles refer to. -/
def takeEntries : List Nat → OM (List SigId)
  | [] => pure []
  | i :: is => do
    let x ← follow ((← get).ref i).ptr
    grab (some x)
    let xs ← takeEntries is
    pure (x :: xs)

/-- `Bus({...})` (src/signal/bus.hpp:151-156). -/
def newBusO (l : List Nat) : OM Unit := do
  let xs ← takeEntries l
  newSignal .bus ⟨none, xs, none⟩

/-- The copy constructors of `Signal` (src/signal/signal.hpp:56) and of the subclasses of `SignalT` (src/signal/scalar_signal.hpp:66 and
siblings, which copy both pointers). -/
def cloneRef (i : Nat) : OM Unit := do
  let r := (← get).ref i
  grab r.ptr
  grab r.typed
  newRef r

/-- `Signal(handle)` for a handle of a subclass: the first pointer is copied (src/signal/signal.hpp:56). -/
def plainRef (i : Nat) : OM Unit := do
  let r := (← get).ref i
  grab r.ptr
  newRef ⟨none, r.ptr, none⟩

/-- `SignalT(const Signal&)` (src/signal/signal.hpp:79-83,100-104). -/
def castRef (i : Nat) (cls : HandleTy) : OM Unit := do
  let x ← follow ((← get).ref i).ptr
  if cls.takes ((← get).obj x).ty then do
    grab (some x)
    grab (some x)
    newRef ⟨some cls, some x, some x⟩
  else throw (.exc .invalidType)

/-- `Bus::at` with an index (src/signal/bus.hpp:83-87,163). -/
def entryRef (i k : Nat) : OM Unit := do
  let x ← follow ((← get).ref i).typed
  match ((← get).obj x).entries[k]? with
  | none => throw (.exc .outOfRange)
  | some y => do
    grab (some y)
    newRef ⟨none, some y, none⟩

/-- `SignalT::reset` (src/signal/signal.hpp:85-90) called on handle `i` of class `cls` with handle `j`. -/
def resetRef (i j : Nat) (cls : HandleTy) : OM Unit := do
  let y ← follow ((← get).ref j).ptr
  if cls.takes ((← get).obj y).ty then do
    grab (some y)
    let r := (← get).ref i
    putRef i { r with ptr := some y }
    destroyPtrs r.ptr.toList
    grab (some y)
    let r := (← get).ref i
    putRef i { r with typed := some y }
    destroyPtrs r.typed.toList
  else do
    let r := (← get).ref i
    putRef i { r with ptr := none }
    destroyPtrs r.ptr.toList
    throw (.exc .invalidType)

/-- The assignment of `_deriv_sig` in `set_deriv_signal` (src/signal/float_signal.hpp:42). -/
def putDeriv (x y : SigId) : OM Unit := do
  grab (some y)
  let o := (← get).obj x
  modify fun s => { s with obj := upd s.obj x { s.obj x with deriv := some y } }
  destroyPtrs o.deriv.toList

/-- `set_deriv_signal` (src/signal/float_signal.hpp:39-44), called through handle `i` with handle `j`: the sizes are compared after
the assignment.  The method exists for scalars and arrays only. -/
def derivRef (i j : Nat) : OM Unit := do
  let x ← follow ((← get).ref i).typed
  let y ← follow ((← get).ref j).ptr
  match ((← get).obj x).ty, ((← get).obj y).ty with
  | some .scalar, some .scalar => putDeriv x y
  | some (.array n), some (.array m) => do
    putDeriv x y
    if n = m then pure () else throw (.exc .sizeMismatch)
  | _, _ => throw (.exc .invalidType)

/-- The destructor of a handle. -/
def dropRef (i : Nat) : OM Unit := do
  let r := (← get).ref i
  putRef i {}
  destroyPtrs r.targets

/-- What programs do with handles. -/
inductive OOp where
  | value (t : Ty)
  | bus (l : List Nat)
  | clone (i : Nat)
  | plain (i : Nat)
  | cast (i : Nat) (cls : HandleTy)
  | entry (i k : Nat)
  | reset (i j : Nat) (cls : HandleTy)
  | deriv (i j : Nat)
  | drop (i : Nat)

def OOp.exec : OOp → OM Unit
  | .value t => newSignal t.cls ⟨some t, [], none⟩
  | .bus l => newBusO l
  | .clone i => cloneRef i
  | .plain i => plainRef i
  | .cast i cls => castRef i cls
  | .entry i k => entryRef i k
  | .reset i j cls => resetRef i j cls
  | .deriv i j => derivRef i j
  | .drop i => dropRef i

end Pooya
