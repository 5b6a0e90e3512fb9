import Verif.Model.Connect

/- Model of src/block/extra/{bus_block_builder,bus_pipe,bus_memory}.{hpp,cpp}. -/

namespace Pooya

/-- A block created by `block_builder`. -/
structure Built (K : Type) where
  /-- argument of `rename` -/
  name : Str
  /-- value type of the `Pipe`/`Memory` instance -/
  ty : VTy
  /-- signals it is connected to -/
  sin : SigId
  sout : SigId
  /-- initial value (`BusMemory` only) -/
  init : Option (Val K)
deriving DecidableEq

/-- Value type of a value signal (`dynamic_cast` chains, bus_pipe.cpp:37-58, bus_memory.cpp:63-85). -/
def Ty.vty : Ty → VTy
  | .scalar => .double
  | .int => .int
  | .bool => .bool
  | .array _ => .array

/-- A builder callback: full label, input signal, output signal; extra state `σ` (the remaining
initial values). -/
abbrev Builder (K σ : Type) := Str → Signal → Signal → σ → Except Err (Built K × σ)

/-- `BusBlockBuilder::visit_bus` (src/block/extra/bus_block_builder.cpp:41-65) over the entries of a
bus with prefix `path`; `ibus`, `obus` are the block's own buses, `acc` the blocks built so far. -/
def visitBus {K σ : Type} (excl : List Str) (ibus obus : Entries) (build : Builder K σ) :
    Str → Entries → List (Built K) × σ → Except Err (List (Built K) × σ)
  | _, [], r => .ok r
  | path, (label, .bus _ es) :: rest, r => do
    let p := path ++ label ++ [46]
    let r1 ← (if p ∈ excl then .ok r else visitBus excl ibus obus build p es r)
    visitBus excl ibus obus build path rest r1
  | path, (label, .val _ _) :: rest, r => do
    let p := path ++ label
    let r1 ← (if p ∈ excl then .ok r else do
      let si ← busAt ibus p
      let so ← busAt obus p
      let b ← build p si so r.2
      .ok (r.1 ++ [b.1], b.2))
    visitBus excl ibus obus build path rest r1

/-- Connection of a `Pipe`/`Memory` of value type `ty` to two single-signal buses: both signals must
have that type (src/block/extra/bus_pipe.cpp:65, bus_memory.cpp:97; singlei.hpp:45, singleo.hpp:46). -/
def connectOne (ty : VTy) (si so : Signal) : Except Err Unit :=
  if ty.handle.accepts si then
    if ty.handle.accepts so then .ok () else .error (.exc .invalidType)
  else .error (.exc .invalidType)

/-- `BusPipe::block_builder` (src/block/extra/bus_pipe.cpp:33-67). -/
def pipeBuilder {K : Type} : Builder K Unit := fun label si so _ =>
  match si with
  | .bus _ _ => .error (.exc .nonValue)
  | .val i ty => do
    connectOne ty.vty si so
    .ok (⟨label, ty.vty, i, so.id, none⟩, ())

/-- `BusPipe` (`BusBlockBuilder::connect`, src/block/extra/bus_block_builder.cpp:27-39): the blocks
created. -/
def busPipe {K : Type} (excl : List Str) (ibus obus : Entries) : Except Err (List (Built K)) := do
  let r ← (if ([] : Str) ∈ excl then .ok ([], ()) else visitBus excl ibus obus pipeBuilder [] ibus ([], ()))
  .ok r.1

/-- `std::map<std::string, Value>` as an association list with unique keys. -/
abbrev InitValues (K : Type) := List (Str × Val K)

def lookupInit {K : Type} (iv : InitValues K) (l : Str) : Option (Val K) :=
  match iv with
  | [] => none
  | (k, v) :: rest => if k = l then some v else lookupInit rest l

/-- `std::get<T>(variant)` (src/block/extra/bus_memory.cpp:65-83). -/
def Val.isVTy {K : Type} : Val K → VTy → Bool
  | .scalar _, .double => true
  | .int _, .int => true
  | .bool _, .bool => true
  | .array _, .array => true
  | _, _ => false

/-- The default initial value (src/block/extra/bus_memory.cpp:65-83). -/
def Ty.zero {K : Type} [Arith K] : Ty → Val K
  | .scalar => .scalar (Arith.lit 0)
  | .int => .int 0
  | .bool => .bool false
  | .array n => .array (List.replicate n (Arith.lit 0))

/-- `BusMemory::block_builder` (src/block/extra/bus_memory.cpp:57-99). -/
def memoryBuilder {K : Type} [Arith K] : Builder K (InitValues K) := fun label si so iv =>
  match si with
  | .bus _ _ => .error (.exc .nonValue)
  | .val i ty => do
    let v ← (match lookupInit iv label with
      | none => .ok ty.zero
      | some v => if v.isVTy ty.vty then .ok v else .error (.exc .badVariant))
    connectOne ty.vty si so
    .ok (⟨label, ty.vty, i, so.id, some v⟩, iv.filter (fun p => p.1 ≠ label))

/-- `BusMemory::connect` (src/block/extra/bus_memory.cpp:33-55). -/
def busMemory {K : Type} [Arith K] (dbg : Bool) (excl : List Str) (iv : InitValues K) (ibus obus : Entries) :
    Except Err (List (Built K)) := do
  let r ← (if ([] : Str) ∈ excl then .ok ([], iv) else visitBus excl ibus obus memoryBuilder [] ibus ([], iv))
  if dbg && !r.2.isEmpty then .error (.exc .unusedInit) else .ok r.1

end Pooya
