import Verif.Model.Bus
import Verif.Model.Blocks

/-
Model of `connect`: src/block/block.cpp:48-118, src/block/{singlei,singleo,integrator_base}.hpp and the
`connect` overrides in src/block/extra.
-/

namespace Pooya

/-- Derivative links of float signals, `_deriv_sig` (src/signal/float_signal.hpp:49). -/
abbrev Derivs := SigId → Option SigId

/-- The members of a block that `connect` changes. -/
structure Conn where
  connected : Bool := false
  ibus : Entries := []
  obus : Entries := []
  links : List (SigId × Flags) := []

/-- State of a connection attempt: the block and the derivative links of all signals. -/
structure CState where
  c : Conn
  d : Derivs

abbrev CM := EStateM Err CState

/-- `Block::find_linked_signal` followed by an update of the flags (src/block/block.cpp:102-105,
113-118): applies `f` to the first entry for `s`; `none` if there is none. -/
def updLink (s : SigId) (f : Flags → Flags) : List (SigId × Flags) → Option (List (SigId × Flags))
  | [] => none
  | (k, g) :: rest =>
    if k = s then some ((k, f g) :: rest) else (updLink s f rest).map ((k, g) :: ·)

/-- `Block::link_signal` (src/block/block.cpp:96-111) on the list of links; buses are ignored. -/
def linkSignal (ls : List (SigId × Flags)) (s : Signal) (types : Flags) : List (SigId × Flags) :=
  match s with
  | .val i _ =>
    match updLink i (fun g => g ||| types) ls with
    | some ls' => ls'
    | none => ls ++ [(i, types)]
  | .bus _ _ => ls

/-- The loops over the two buses (src/block/block.cpp:66-80). -/
def linkEntries (types : Flags) : List (SigId × Flags) → Entries → List (SigId × Flags)
  | ls, [] => ls
  | ls, (_, s) :: rest => linkEntries types (linkSignal ls s types) rest

/-- `Block::connect` (src/block/block.cpp:48-89); `none` for a port number means `NoIOLimit`. -/
def blockConnect (nIn nOut : Option Nat) (ibus obus : Entries) : CM Unit := fun st =>
  if st.c.connected then .error (.exc .reconnect) st
  else if nIn.any (fun n => ibus.length != n) then .error (.exc .iports) st
  else if nOut.any (fun n => obus.length != n) then .error (.exc .oports) st
  else
    let l1 := linkEntries (Flags.input ||| Flags.required) st.c.links ibus
    let l2 := linkEntries Flags.output l1 obus
    .ok () { st with c := { connected := true, ibus := ibus, obus := obus, links := l2 } }

/-- Look up a key: position or label. -/
inductive Key where
  | idx (i : Nat)
  | label (l : Str)

def Key.at (k : Key) (es : Entries) : Except Err Signal :=
  match k with
  | .idx i => busAtIdx es i
  | .label l => busAt es l

/-- `Block::input(key)` (src/block/block.hpp:75-90). -/
def inputAt (k : Key) : CM Signal := do
  let st ← get
  let s ← liftE (k.at st.c.ibus)
  set { st with c := { st.c with links := linkSignal st.c.links s (Flags.input ||| Flags.required) } }
  pure s

/-- `Block::output(key)` (src/block/block.hpp:92-96). -/
def outputAt (k : Key) : CM Signal := do
  let st ← get
  let s ← liftE (k.at st.c.obus)
  set { st with c := { st.c with links := linkSignal st.c.links s Flags.output } }
  pure s

/-- `_s_xxx.reset(sig)` for a handle of type `ty` (src/signal/signal.hpp:85-90); returns the identity
of the signal the handle is now bound to. -/
def bindHandle (ty : HandleTy) (s : Signal) : CM SigId :=
  if ty.accepts s then pure s.id else throwE (.exc .invalidType)

/-- `if (auto* ptr = find_linked_signal(sig)) ptr->second = f(ptr->second)`. -/
def adjustLink (s : SigId) (f : Flags → Flags) : CM Unit := fun st =>
  .ok () { st with c := { st.c with links := (updLink s f st.c.links).getD st.c.links } }

/-- The value types blocks are instantiated with. -/
inductive VTy where
  | double | int | bool | array
deriving DecidableEq, Repr

def VTy.handle : VTy → HandleTy
  | .double => .scalar
  | .int => .int
  | .bool => .bool
  | .array => .array

/-- `SingleInputT::connect` after the call of the base class (src/block/singlei.hpp:45). -/
def bindIn (ty : VTy) : CM SigId := do
  let s ← inputAt (.idx 0)
  bindHandle ty.handle s

/-- `SingleOutputT::connect` after the call of the base class (src/block/singleo.hpp:46). -/
def bindOut (ty : VTy) : CM SigId := do
  let s ← outputAt (.idx 0)
  bindHandle ty.handle s

/-- `s_out->set_deriv_signal(s_in)` (src/block/integrator_base.hpp:52). -/
def connDeriv (out : SigId) (outTy : Ty) (d : Signal) : CM Unit := fun st =>
  let r := setDeriv outTy (st.d out) d
  let st' := { st with d := upd st.d out r.2 }
  match r.1 with
  | .ok () => .ok () st'
  | .error e => .error e st'

/-- The leaf classes with the arguments that matter for `connect`. -/
inductive Cls where
  | sio (ty : VTy)          -- SingleInputOutputT: Gain, Pipe, Derivative, SISOFunction
  | memory (ty : VTy)
  | so (ty : VTy) (nIn : Option Nat)  -- SingleOutputT: Const (0), Source, SOFunction
  | fold (ty : VTy)         -- Add, Multiply
  | binary (ty : VTy)       -- Subtract, Divide
  | integrator (ty : VTy)
  | trigInt (ty : VTy)
  | delay (ty : VTy)
  | plain (nIn nOut : Option Nat)  -- Function, Sources, user-written leaves

/-- Signals the handles of a connected block are bound to. -/
structure Bound where
  ins : List SigId := []
  out : Option SigId := none
deriving DecidableEq, Repr

def tyOf : Signal → Ty
  | .val _ ty => ty
  | .bus _ _ => .scalar

/-- `connect` of each leaf class, on a fresh or already connected block. -/
def Cls.connect (dbg : Bool) (c : Cls) (ibus obus : Entries) : CM Bound :=
  match c with
  | .sio ty => do                       -- singleio.hpp: SingleOutputT<T, SingleInputT<T>>
    blockConnect (some 1) (some 1) ibus obus
    let i ← bindIn ty
    let o ← bindOut ty
    pure ⟨[i], some o⟩
  | .memory ty => do                    -- memory.hpp:42-56
    blockConnect (some 1) (some 1) ibus obus
    let i ← bindIn ty
    let o ← bindOut ty
    adjustLink i (fun g => g &&& ~~~Flags.required)
    pure ⟨[i], some o⟩
  | .so ty nIn => do                    -- singleo.hpp:40-48
    blockConnect nIn (some 1) ibus obus
    let o ← bindOut ty
    pure ⟨[], some o⟩
  | .fold ty => do                      -- add.hpp:42-58, multiply.hpp:43-59
    blockConnect none (some 1) ibus obus
    let o ← bindOut ty
    debugVerify dbg (decide (1 ≤ ibus.length)) .debugVerify
    debugVerify dbg (ibus.all (fun p => ty.handle.accepts p.2)) .debugVerify
    pure ⟨ibus.map (fun p => p.2.id), some o⟩
  | .binary ty => do                    -- subtract.hpp:39-52, divide.hpp:39-52
    blockConnect (some 2) (some 1) ibus obus
    let o ← bindOut ty
    let a ← inputAt (.idx 0)
    let a ← bindHandle ty.handle a
    let b ← inputAt (.idx 1)
    let b ← bindHandle ty.handle b
    pure ⟨[a, b], some o⟩
  | .integrator ty => do                -- integrator_base.hpp:43-64
    blockConnect (some 1) (some 1) ibus obus
    let os ← outputAt (.idx 0)
    let o ← bindHandle ty.handle os
    let i ← inputAt (.idx 0)
    connDeriv o (tyOf os) i
    adjustLink i.id (fun g => g &&& ~~~Flags.required)
    adjustLink o (fun g => g ||| Flags.required)
    pure ⟨[i.id], some o⟩
  | .trigInt ty => do                   -- triggered_integrator.hpp:44-55
    blockConnect (some 2) (some 1) ibus obus
    let os ← outputAt (.idx 0)
    let o ← bindHandle ty.handle os
    let i ← inputAt (.idx 0)
    connDeriv o (tyOf os) i
    adjustLink i.id (fun g => g &&& ~~~Flags.required)
    adjustLink o (fun g => g ||| Flags.required)
    let tr ← inputAt (.label (str "trigger"))
    let tr ← bindHandle .bool tr
    pure ⟨[i.id, tr], some o⟩
  | .delay ty => do                     -- delay.hpp:43-57
    blockConnect (some 3) (some 1) ibus obus
    let o ← bindOut ty
    let x ← inputAt (.label (str "in"))
    let x ← bindHandle ty.handle x
    let d ← inputAt (.label (str "delay"))
    let d ← bindHandle .scalar d
    let i ← inputAt (.label (str "initial"))
    let i ← bindHandle ty.handle i
    pure ⟨[x, d, i], some o⟩
  | .plain nIn nOut => do               -- block.cpp:48-89
    blockConnect nIn nOut ibus obus
    pure ⟨[], none⟩

end Pooya
