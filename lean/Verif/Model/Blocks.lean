import Verif.Model.Signal

/-
Model of the leaf block classes: src/block/{leaf,integrator_base}.hpp and src/block/extra/*.hpp.
`initial_value.hpp` is not modelled (the class does not compile when instantiated).
-/

namespace Pooya

/-- `uint32_t` link flags (src/block/block.hpp:49-58). -/
abbrev Flags := BitVec 32

namespace Flags
/-- src/block/block.hpp:51 -/
def input : Flags := 1#32
/-- src/block/block.hpp:52 -/
def output : Flags := 2#32
/-- src/block/block.hpp:53 -/
def internal : Flags := 4#32
/-- src/block/block.hpp:54 -/
def required : Flags := 8#32
/-- `sig.second & SignalLinkType::Required` as a condition (src/block/leaf.cpp:41). -/
def isRequired (f : Flags) : Bool := f &&& required != 0#32
end Flags

section
variable {K : Type} [Arith K]

/-- Coefficient-wise binary operation of two floating-point values; Eigen requires equal sizes. -/
def Val.lift2 (f : K → K → K) : Val K → Val K → Except Err (Val K)
  | .scalar a, .scalar b => .ok (.scalar (f a b))
  | .array a, .array b =>
      if a.length = b.length then .ok (.array (List.zipWith f a b)) else .error (.ub .eigenSize)
  | _, _ => .error (.ub .typeConfusion)

/-- The value range of C++ `int` (32 bits). -/
def int32 (n : Int) : Bool := decide (-2147483648 ≤ n) && decide (n ≤ 2147483647)

/-- `_k * value` of `GainT` for its three instantiations Gain, GainI, GainA
(src/block/extra/gain.hpp:42,51-59). -/
def Val.gain : Val K → Val K → Except Err (Val K)
  | .scalar k, .scalar a => .ok (.scalar (k *. a))
  | .int k, .int a => if int32 (k * a) then .ok (.int (k * a)) else .error (.ub .intOverflow)
  | .scalar k, .array a => .ok (.array (a.map (fun x => k *. x)))
  | _, _ => .error (.ub .typeConfusion)

/-- `_value = 0` / `_value.setZero()` (src/block/extra/triggered_integrator.hpp:62-69). -/
def Val.zeroLike : Val K → Val K
  | .scalar _ => .scalar (Arith.lit 0)
  | .int _ => .int 0
  | .bool _ => .bool false
  | .array xs => .array (xs.map (fun _ => Arith.lit 0))

end

/-- A user-written leaf class (as in samples/test09): it reads and writes the given signals and owns
the memory `Mem.user`.  The three functions are arbitrary. -/
structure Custom (K : Type) where
  /-- signals written by `pre_step` -/
  preOuts : List SigId
  pre : K → List (Val K) → Except Err (List (Val K) × List (Option (Val K)))
  /-- signals read and written by `activation_function` -/
  reads : List SigId
  outs : List SigId
  act : K → List (Val K) → List (Val K) → Except Err (List (Val K) × List (Option (Val K)))
  /-- signals read by `post_step` -/
  postReads : List SigId
  post : K → List (Val K) → List (Val K) → Except Err (List (Val K))

/-- The leaf classes, with the constructor arguments they keep and the signals their handles are
bound to by `connect`. Data that changes during simulation is in `Mem`. -/
inductive Kind (K : Type) where
  /-- `ConstT` (const.hpp) -/
  | const (v : Val K) (out : SigId)
  /-- `SourceT` (source.hpp) -/
  | source (f : K → Except Err (Val K)) (out : SigId)
  /-- `Sources` (sources.hpp): assigns some of the output bus' signals, then may throw -/
  | sources (f : K → List (Option (Val K)) × Option Err) (outs : List SigId)
  /-- `GainT` (gain.hpp) -/
  | gain (k : Val K) (x out : SigId)
  /-- `AddT` (add.hpp); one entry per element of the input bus -/
  | add (init : Val K) (ins : List SigId) (out : SigId)
  /-- `MultiplyT` (multiply.hpp) -/
  | multiply (init : Val K) (ins : List SigId) (out : SigId)
  /-- `SubtractT` (subtract.hpp) -/
  | subtract (x1 x2 out : SigId)
  /-- `DivideT` (divide.hpp) -/
  | divide (x1 x2 out : SigId)
  /-- `PipeT` (pipe.hpp) -/
  | pipe (x out : SigId)
  /-- `MemoryT` (memory.hpp) -/
  | memory (x out : SigId)
  /-- `DelayT` (delay.hpp) -/
  | delay (lifespan : K) (x delay initial out : SigId)
  /-- `DerivativeT` (derivative.hpp); `y0` is the constructor argument, see `Mem.value` for `_y` -/
  | derivative (x out : SigId)
  /-- `IntegratorT` (integrator.hpp, integrator_base.hpp) -/
  | integrator (x out : SigId)
  /-- `TriggeredIntegratorT` (triggered_integrator.hpp) -/
  | trigInt (x trigger out : SigId)
  /-- `SISOFunctionT` (siso_function.hpp) -/
  | siso (f : K → Val K → Except Err (Val K)) (x out : SigId)
  /-- `SOFunctionT` (so_function.hpp): the user function may read any signal it can reach -/
  | so (f : K → List (Val K) → Except Err (Val K)) (reads : List SigId) (out : SigId)
  /-- `Function` (function.hpp): reads signals, assigns some outputs, then may throw -/
  | func (f : K → List (Val K) → List (Option (Val K)) × Option Err) (reads outs : List SigId)
  /-- `BusBlockBuilder` (bus_block_builder.hpp:35): the leaf itself, which does nothing -/
  | builder
  /-- a user-written leaf class -/
  | custom (c : Custom K)

/-- A leaf block object: identity, `_linked_signals` (block.hpp:120) and class-specific part. -/
structure Leaf (K : Type) where
  id : BlkId
  links : List (SigId × Flags)
  kind : Kind K

variable {K : Type} [Arith K]

/-- Continue with `k`, or with the exception of the user code. -/
def throwOpt {σ : Type} : Option Err → EStateM Err σ Unit
  | none => pure ()
  | some e => throwE e

/-- `_ret = _initial; for (sig : _ibus) _ret op= value` (add.hpp:63-67, multiply.hpp:64-68). -/
def foldIns (dbg : Bool) (op : Val K → Val K → Except Err (Val K)) : Val K → List SigId → M K (Val K)
  | acc, [] => pure acc
  | acc, s :: ss => do
    let v ← getv dbg s
    let acc' ← liftE (op acc v)
    foldIns dbg op acc' ss

/-- `for (v : _t) { if (v >= t) break; k++; }` (delay.hpp:65-73 and 103-111): number of leading
records strictly before `t`. -/
def countBefore (t : K) (ts : List K) : Nat := (ts.takeWhile (fun v => !(t <=. v))).length

/-- A vector element accessed with `operator[]`; out of range is undefined behaviour. -/
def vecAt {σ α : Type} (l : List α) (i : Nat) : EStateM Err σ α :=
  match l[i]? with
  | some a => pure a
  | none => throwE (.ub .outOfBounds)

/-- `(_x[k] - _x[k-1]) * (t - _t[k-1]) / (_t[k] - _t[k-1]) + _x[k-1]` (delay.hpp:113), coefficient-wise;
`a = _x[k]`, `b = _x[k-1]`, `t1 = _t[k]`, `t0 = _t[k-1]`. -/
def interp1 (t t0 t1 : K) (a b : K) : K := (((a -. b) *. (t -. t0)) /. (t1 -. t0)) +. b

/-- `DelayT::activation_function` (src/block/extra/delay.hpp:83-115). -/
def delayAct (dbg : Bool) (b : BlkId) (t : K) (sDelay sInit out : SigId) : M K Unit := do
  let m ← getMem b
  match m.ts with
  | [] =>
    let v ← getv dbg sInit
    setv dbg out v
  | t0 :: rest =>
    let d ← getScalar dbg sDelay
    let q := t -. d
    if q <=. t0 then
      let v ← getv dbg sInit
      setv dbg out v
    else if (rest.getLastD t0) <=. q then
      match m.xs.getLast? with
      | some v => setv dbg out v
      | none => throwE (.ub .outOfBounds)
    else
      let k := countBefore q m.ts
      if k = 0 then throwE (.ub .outOfBounds)
      else
        let xk ← vecAt m.xs k
        let xk1 ← vecAt m.xs (k - 1)
        let tk1 ← vecAt m.ts (k - 1)
        let tk ← vecAt m.ts k
        let v ← liftE (Val.lift2 (interp1 q tk1 tk) xk xk1)
        setv dbg out v

/-- `DelayT::post_step` (src/block/extra/delay.hpp:59-81). The time is pushed before the input is
read. -/
def delayPost (dbg : Bool) (b : BlkId) (t lifespan : K) (sx : SigId) : M K Unit := do
  let m ← getMem b
  let k := countBefore (t -. lifespan) m.ts
  if m.xs.length < k then throwE (.ub .outOfBounds)
  else
    let ts := m.ts.drop k
    let xs := m.xs.drop k
    setMem b { m with ts := ts, xs := xs }
    debugVerify dbg (match ts.getLast? with | none => true | some l => l <. t) .debugVerify
    setMem b { m with ts := ts ++ [t], xs := xs }
    let v ← getv dbg sx
    setMem b { m with ts := ts ++ [t], xs := xs ++ [v] }

/-- `DerivativeT::activation_function` (src/block/extra/derivative.hpp:51-68); `_y` is `Mem.value`. -/
def derivAct (dbg : Bool) (b : BlkId) (t : K) (sx out : SigId) : M K Unit := do
  let m ← getMem b
  if m.firstStep then
    setMem b { m with t := some t }
    let v ← getv dbg sx
    setMem b { m with t := some t, x := some v }
    setv dbg out m.value
  else
    match m.t with
    | none => throwE (.ub .uninitRead)
    | some t0 =>
      if t0 ==. t then setv dbg out m.value
      else
        let v ← getv dbg sx
        match m.x with
        | none => throwE (.ub .uninitRead)
        | some x0 =>
          let d ← liftE (Val.lift2 (fun a b => (a -. b) /. (t -. t0)) v x0)
          setv dbg out d

/-- `DerivativeT::post_step` (src/block/extra/derivative.hpp:42-49). -/
def derivPost (dbg : Bool) (b : BlkId) (t : K) (sx : SigId) : M K Unit := do
  let m ← getMem b
  setMem b { m with t := some t }
  let v ← getv dbg sx
  setMem b { m with t := some t, x := some v, value := v, firstStep := false }

/-- `IntegratorBaseT::pre_step` (src/block/integrator_base.hpp:66-71). -/
def integPre (dbg : Bool) (b : BlkId) (out : SigId) : M K Unit := do
  let a ← assigned out
  debugVerify dbg (!a) .debugVerify
  let m ← getMem b
  setv dbg out m.value

/-- `IntegratorBaseT::post_step` (src/block/integrator_base.hpp:73-78). -/
def integPost (dbg : Bool) (b : BlkId) (out : SigId) : M K Unit := do
  let a ← assigned out
  debugVerify dbg a .debugVerify
  let v ← getv dbg out
  let m ← getMem b
  setMem b { m with value := v }

/-- `activation_function(t)` of each leaf class (file and line in each branch). -/
def Leaf.actBody (dbg : Bool) (l : Leaf K) (t : K) : M K Unit :=
  match l.kind with
  | .const v out => setv dbg out v                                  -- const.hpp:42-46
  | .source f out => do                                             -- source.hpp:43-47
      let v ← liftE (f t)
      setv dbg out v
  | .sources f outs => do                                           -- sources.hpp:41-45
      let r := f t
      setAll dbg outs r.1
      throwOpt r.2
  | .gain k x out => do                                             -- gain.hpp:39-43
      let v ← getv dbg x
      let r ← liftE (Val.gain k v)
      setv dbg out r
  | .add init ins out => do                                         -- add.hpp:60-69
      let r ← foldIns dbg (Val.lift2 (· +. ·)) init ins
      setv dbg out r
  | .multiply init ins out => do                                    -- multiply.hpp:61-70
      let r ← foldIns dbg (Val.lift2 (· *. ·)) init ins
      setv dbg out r
  | .subtract x1 x2 out => do                                       -- subtract.hpp:54-58
      let a ← getv dbg x1
      let b ← getv dbg x2
      let r ← liftE (Val.lift2 (· -. ·) a b)
      setv dbg out r
  | .divide x1 x2 out => do                                         -- divide.hpp:54-58
      let a ← getv dbg x1
      let b ← getv dbg x2
      let r ← liftE (Val.lift2 (· /. ·) a b)
      setv dbg out r
  | .pipe x out => do                                               -- pipe.hpp:39-43
      let v ← getv dbg x
      setv dbg out v
  | .memory _ out => do                                             -- memory.hpp:64-68
      let m ← getMem l.id
      setv dbg out m.value
  | .delay _ _ d i out => delayAct dbg l.id t d i out
  | .derivative x out => derivAct dbg l.id t x out
  | .integrator _ _ => pure ()                                      -- leaf.hpp:41
  | .trigInt _ tr _ => do                                           -- triggered_integrator.hpp:75-82
      let m ← getMem l.id
      if m.triggered then pure ()
      else
        let b ← getBool dbg tr
        setMem l.id { m with triggered := b }
  | .siso f x out => do                                             -- siso_function.hpp:43-47
      let v ← getv dbg x
      let r ← liftE (f t v)
      setv dbg out r
  | .so f reads out => do                                           -- so_function.hpp:44-48
      let vs ← getAll dbg reads
      let r ← liftE (f t vs)
      setv dbg out r
  | .func f reads outs => do                                        -- function.hpp:43-47
      let vs ← getAll dbg reads
      let r := f t vs
      setAll dbg outs r.1
      throwOpt r.2
  | .builder => pure ()                                             -- leaf.hpp:41
  | .custom c => do
      let m ← getMem l.id
      let vs ← getAll dbg c.reads
      let r ← liftE (c.act t m.user vs)
      setMem l.id { m with user := r.1 }
      setAll dbg c.outs r.2

/-- `activation_function(t)`, preceded by the ghost record of the call. -/
def Leaf.act (dbg : Bool) (l : Leaf K) (t : K) : M K Unit := do
  emit (.act l.id t)
  l.actBody dbg t

/-- `pre_step(t)` of each leaf class. -/
def Leaf.preBody (dbg : Bool) (l : Leaf K) (t : K) : M K Unit :=
  match l.kind with
  | .integrator _ out => integPre dbg l.id out
  | .trigInt _ _ out => do                                          -- triggered_integrator.hpp:57-73
      let m ← getMem l.id
      if m.triggered then
        setMem l.id { m with value := m.value.zeroLike, triggered := false }
      else pure ()
      integPre dbg l.id out
  | .custom c => do
      let m ← getMem l.id
      let r ← liftE (c.pre t m.user)
      setMem l.id { m with user := r.1 }
      setAll dbg c.preOuts r.2
  | _ => pure ()                                                    -- block.hpp:65

/-- `pre_step(t)`, preceded by the ghost record of the call. -/
def Leaf.pre (dbg : Bool) (l : Leaf K) (t : K) : M K Unit := do
  emit (.pre l.id t)
  l.preBody dbg t

/-- `post_step(t)` of each leaf class. -/
def Leaf.postBody (dbg : Bool) (l : Leaf K) (t : K) : M K Unit :=
  match l.kind with
  | .memory x _ => do                                               -- memory.hpp:58-62
      let v ← getv dbg x
      let m ← getMem l.id
      setMem l.id { m with value := v }
  | .delay ls x _ _ _ => delayPost dbg l.id t ls x
  | .derivative x _ => derivPost dbg l.id t x
  | .integrator _ out => integPost dbg l.id out
  | .trigInt _ _ out => integPost dbg l.id out
  | .custom c => do
      let m ← getMem l.id
      let vs ← getAll dbg c.postReads
      let u ← liftE (c.post t m.user vs)
      setMem l.id { m with user := u }
  | _ => pure ()                                                    -- block.hpp:66

/-- `post_step(t)`, preceded by the ghost record of the call. -/
def Leaf.post (dbg : Bool) (l : Leaf K) (t : K) : M K Unit := do
  emit (.post l.id t)
  l.postBody dbg t

/-- Signals an activation function may read. -/
def Kind.reads : Kind K → List SigId
  | .const _ _ | .source _ _ | .sources _ _ | .memory _ _ | .integrator _ _ | .builder => []
  | .gain _ x _ | .pipe x _ | .siso _ x _ | .derivative x _ => [x]
  | .add _ ins _ | .multiply _ ins _ => ins
  | .subtract a b _ | .divide a b _ => [a, b]
  | .delay _ _ d i _ => [d, i]
  | .trigInt _ tr _ => [tr]
  | .so _ rs _ => rs
  | .func _ rs _ => rs
  | .custom c => c.reads

/-- Signals an activation function may assign. -/
def Kind.outs : Kind K → List SigId
  | .const _ o | .source _ o | .gain _ _ o | .add _ _ o | .multiply _ _ o | .subtract _ _ o
  | .divide _ _ o | .pipe _ o | .memory _ o | .delay _ _ _ _ o | .derivative _ o | .siso _ _ o
  | .so _ _ o => [o]
  | .sources _ os | .func _ _ os => os
  | .integrator _ _ | .trigInt _ _ _ | .builder => []
  | .custom c => c.outs

/-- Signals a `pre_step` may assign. -/
def Kind.preOuts : Kind K → List SigId
  | .integrator _ o | .trigInt _ _ o => [o]
  | .custom c => c.preOuts
  | _ => []

/-- Signals a `post_step` may read. -/
def Kind.postReads : Kind K → List SigId
  | .memory x _ | .delay _ x _ _ _ | .derivative x _ => [x]
  | .integrator _ o | .trigInt _ _ o => [o]
  | .custom c => c.postReads
  | _ => []

def Leaf.reads (l : Leaf K) : List SigId := l.kind.reads
def Leaf.outs (l : Leaf K) : List SigId := l.kind.outs
def Leaf.preOuts (l : Leaf K) : List SigId := l.kind.preOuts
def Leaf.postReads (l : Leaf K) : List SigId := l.kind.postReads

end Pooya
