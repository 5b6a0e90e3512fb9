import Verif.Model.Connect
import Verif.Model.Engine

/-
Model of assembling a diagram: objects of the leaf classes are constructed and `connect` is called on each of them.  The members of the
objects that change during a simulation are in `Mem`.
-/

namespace Pooya

/-- A leaf object as its constructor makes it: its class, for templates the type of the values, and the constructor arguments.

* The functions of `Sources`, `SOFunction` and `Function` get the buses and look up signals in them (function.hpp:46, so_function.hpp:47,
  sources.hpp:44); `reads` and `outs` are the keys they use.  The lookups happen in each activation; here they are made once, because the
  buses do not change.  Code whose lookups fail is not modelled.
* A user-written leaf class calls `input(key)` and `output(key)` in its `connect` and keeps the signals it gets.
* `BusBlockBuilder` is not included (see `BusBlocks.lean`). -/
inductive Make (K : Type) where
  | const (ty : VTy) (v : Val K)
  | source (ty : VTy) (f : K → Except Err (Val K))
  | sources (nOut : Option Nat) (f : K → List (Option (Val K)) × Option Err) (outs : List Key)
  | gain (ty : VTy) (k : Val K)
  | add (ty : VTy) (init : Val K)
  | multiply (ty : VTy) (init : Val K)
  | subtract (ty : VTy)
  | divide (ty : VTy)
  | pipe (ty : VTy)
  | memory (ty : VTy)
  | delay (ty : VTy) (lifespan : K)
  | derivative (ty : VTy)
  | integrator (ty : VTy)
  | trigInt (ty : VTy)
  | siso (ty : VTy) (f : K → Val K → Except Err (Val K))
  | so (ty : VTy) (nIn : Option Nat) (f : K → List (Val K) → Except Err (Val K)) (reads : List Key)
  | func (nIn nOut : Option Nat) (f : K → List (Val K) → List (Option (Val K)) × Option Err) (reads outs : List Key)
  | custom (nIn nOut : Option Nat) (ins outs : List Key) (c : List SigId → List SigId → Custom K)

variable {K : Type}

/-- The base class whose `connect` is used (the class declarations in src/block/extra). -/
def Make.cls : Make K → Cls
  | .const ty _ => .so ty (some 0)                                  -- const.hpp:38
  | .source ty _ => .so ty none                                     -- source.hpp:39
  | .sources nOut _ _ => .plain (some 0) nOut                       -- sources.hpp:37
  | .gain ty _ | .pipe ty | .derivative ty | .siso ty _ => .sio ty
  | .add ty _ | .multiply ty _ => .fold ty
  | .subtract ty | .divide ty => .binary ty
  | .memory ty => .memory ty
  | .delay ty _ => .delay ty
  | .integrator ty => .integrator ty
  | .trigInt ty => .trigInt ty
  | .so ty nIn _ _ => .so ty nIn
  | .func nIn nOut _ _ _ => .plain nIn nOut
  | .custom nIn nOut _ _ _ => .plain nIn nOut

/-- A value signal found with `bus.at(key)` or `bus[key]`. -/
def lookupVal (es : Entries) (k : Key) : Except Err SigId :=
  match k.at es with
  | .ok (.val i _) => .ok i
  | .ok (.bus _ _) => .error (.exc .invalidType)
  | .error e => .error e

def lookupVals (es : Entries) : List Key → Except Err (List SigId)
  | [] => .ok []
  | k :: ks =>
    match lookupVal es k with
    | .error e => .error e
    | .ok i =>
      match lookupVals es ks with
      | .error e => .error e
      | .ok is => .ok (i :: is)

/-- `input(key)` and a handle for it, for several keys (src/block/block.hpp:86-90). -/
def inputsAt : List Key → CM (List SigId)
  | [] => pure []
  | k :: ks => do
    let s ← inputAt k
    match s with
    | .bus _ _ => throwE (.exc .invalidType)
    | .val i _ => do
      let is ← inputsAt ks
      pure (i :: is)

/-- `output(key)` and a handle for it, for several keys (src/block/block.hpp:92-96). -/
def outputsAt : List Key → CM (List SigId)
  | [] => pure []
  | k :: ks => do
    let s ← outputAt k
    match s with
    | .bus _ _ => throwE (.exc .invalidType)
    | .val i _ => do
      let is ← outputsAt ks
      pure (i :: is)

/-- The object after `connect`, for the signals its handles are bound to.  The last case does not occur. -/
def Make.kind (ibus obus : Entries) : Make K → Bound → Except Err (Kind K)
  | .const _ v, ⟨[], some o⟩ => .ok (.const v o)
  | .source _ f, ⟨[], some o⟩ => .ok (.source f o)
  | .gain _ k, ⟨[x], some o⟩ => .ok (.gain k x o)
  | .add _ v, ⟨xs, some o⟩ => .ok (.add v xs o)
  | .multiply _ v, ⟨xs, some o⟩ => .ok (.multiply v xs o)
  | .subtract _, ⟨[x, y], some o⟩ => .ok (.subtract x y o)
  | .divide _, ⟨[x, y], some o⟩ => .ok (.divide x y o)
  | .pipe _, ⟨[x], some o⟩ => .ok (.pipe x o)
  | .memory _, ⟨[x], some o⟩ => .ok (.memory x o)
  | .delay _ ls, ⟨[x, d, i], some o⟩ => .ok (.delay ls x d i o)
  | .derivative _, ⟨[x], some o⟩ => .ok (.derivative x o)
  | .integrator _, ⟨[x], some o⟩ => .ok (.integrator x o)
  | .trigInt _, ⟨[x, tr], some o⟩ => .ok (.trigInt x tr o)
  | .siso _ f, ⟨[x], some o⟩ => .ok (.siso f x o)
  | .so _ _ f rs, ⟨[], some o⟩ =>
    match lookupVals ibus rs with
    | .ok is => .ok (.so f is o)
    | .error e => .error e
  | .sources _ f os, ⟨[], none⟩ =>
    match lookupVals obus os with
    | .ok o => .ok (.sources f o)
    | .error e => .error e
  | .func _ _ f rs os, ⟨[], none⟩ =>
    match lookupVals ibus rs, lookupVals obus os with
    | .ok is, .ok o => .ok (.func f is o)
    | .error e, _ => .error e
    | _, .error e => .error e
  | _, _ => .error (.ub .nullDeref)

/-- `connect(ibus, obus)` of an object. -/
def Make.connect (dbg : Bool) (mk : Make K) (ibus obus : Entries) : CM (Kind K) := do
  let b ← mk.cls.connect dbg ibus obus
  match mk with
  | .custom _ _ ins outs c => do
    let is ← inputsAt ins
    let os ← outputsAt outs
    pure (.custom (c is os))
  | _ => liftE (mk.kind ibus obus b)

/-- A block object and the call `connect(ibus, obus)` on it. -/
structure Wire (K : Type) where
  id : BlkId
  obj : Make K
  ibus : Entries
  obus : Entries

/-- The call of `connect` on a new object. -/
def Wire.connect (dbg : Bool) (p : Wire K) (d : Derivs) : Except Err (Leaf K × Derivs) :=
  match p.obj.connect dbg p.ibus p.obus ⟨{}, d⟩ with
  | .ok k st => .ok ({ id := p.id, links := st.c.links, kind := k }, st.d)
  | .error e _ => .error e

/-- Several calls in a row; the first exception ends it. -/
def connectAll (dbg : Bool) : List (Wire K) → Derivs → Except Err (List (Leaf K) × Derivs)
  | [], d => .ok ([], d)
  | p :: ps, d =>
    match p.connect dbg d with
    | .error e => .error e
    | .ok (l, d1) =>
      match connectAll dbg ps d1 with
      | .error e => .error e
      | .ok (ls, d2) => .ok (l :: ls, d2)

end Pooya
