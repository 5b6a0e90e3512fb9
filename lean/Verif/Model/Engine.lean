import Verif.Model.Blocks

/-
Model of the evaluation of a block hierarchy: src/block/{leaf,submodel}.cpp,
src/solver/simulator.cpp and src/solver/fast_simulator.cpp.

The hierarchy is a finite tree of objects; `Topology.lean` models how it is built.
-/

namespace Pooya

/-- A block hierarchy: leaves and submodels (`Submodel::_blocks`, src/block/submodel.hpp:63).
`links` are the `_linked_signals` of the submodel itself, which matter only for clearing. -/
inductive Block (K : Type) where
  | leaf (l : Leaf K)
  | sub (id : BlkId) (links : List (SigId × Flags)) (kids : List (Block K))

variable {K : Type}

def Block.id : Block K → BlkId
  | .leaf l => l.id
  | .sub i _ _ => i

def Block.links : Block K → List (SigId × Flags)
  | .leaf l => l.links
  | .sub _ ls _ => ls

mutual
/-- All leaves, in the order of `visit` (`dynamic_cast<Leaf*>`, src/solver/fast_simulator.cpp:63-68). -/
def Block.leaves : Block K → List (Leaf K)
  | .leaf l => [l]
  | .sub _ _ kids => leavesL kids
def leavesL : List (Block K) → List (Leaf K)
  | [] => []
  | b :: bs => b.leaves ++ leavesL bs
end

mutual
/-- All blocks in the order of `Submodel::visit` with a callback that always returns true
(src/block/submodel.cpp:58-83). -/
def Block.all : Block K → List (Block K)
  | .leaf l => [.leaf l]
  | .sub i ls kids => .sub i ls kids :: allL kids
def allL : List (Block K) → List (Block K)
  | [] => []
  | b :: bs => b.all ++ allL bs
end

/-- A stateful visitor callback (`VisitorCallback`, src/block/block.hpp:41). -/
abbrev Visitor (σ : Type) (K : Type) := Block K → Nat → σ → Bool × σ

mutual
/-- `Block::visit` (src/block/block.hpp:101-105) and `Submodel::visit` (src/block/submodel.cpp:58-83);
`const_visit` (85-110) is identical.  Levels are natural numbers (no wrap-around at 2^32). -/
def Block.visit {σ : Type} (cb : Visitor σ K) (level maxLevel : Nat) : Block K → σ → Bool × σ
  | .leaf l, s => if maxLevel < level then (true, s) else cb (.leaf l) level s
  | .sub i ls kids, s =>
    if maxLevel < level then (true, s)
    else
      let r := cb (.sub i ls kids) level s
      if !r.1 then (false, r.2)
      else if level < maxLevel then visitL cb (level + 1) maxLevel kids r.2
      else (true, r.2)
/-- The loop over `_blocks` (src/block/submodel.cpp:73-79). -/
def visitL {σ : Type} (cb : Visitor σ K) (level maxLevel : Nat) : List (Block K) → σ → Bool × σ
  | [], s => (true, s)
  | b :: bs, s =>
    let r := b.visit cb level maxLevel s
    if !r.1 then (false, r.2) else visitL cb level maxLevel bs r.2
end

/-- `Leaf::ready_to_process` (src/block/leaf.cpp:37-47). -/
def Leaf.ready (l : Leaf K) (w : World K) : Bool :=
  l.links.all (fun p => !p.2.isRequired || (w.sig p.1).assigned)

mutual
/-- `_mark_unprocessed`: `Block` (src/block/block.cpp:120-123), `Submodel`
(src/block/submodel.cpp:26-35), `BusBlockBuilder` (bus_block_builder.cpp:67-70: sets it to true). -/
def Block.mark : Block K → M K Unit
  | .leaf l => setDone l.id (match l.kind with | .builder => true | _ => false)
  | .sub i _ kids => do
    setDone i false
    markL kids
def markL : List (Block K) → M K Unit
  | [] => pure ()
  | b :: bs => do b.mark; markL bs
end

section
variable [Arith K]

/-- `Leaf::process` (src/block/leaf.cpp:23-35). -/
def Leaf.process (dbg : Bool) (l : Leaf K) (t : K) : M K Nat := do
  let d ← getDone l.id
  let w ← get
  if d || !l.ready w then pure 0
  else
    l.act dbg t
    setDone l.id true
    pure 1

mutual
/-- `Leaf::process` / `Submodel::process` with `go_deep = true` (src/block/submodel.cpp:37-56). -/
def Block.process (dbg : Bool) (t : K) : Block K → M K Nat
  | .leaf l => l.process dbg t
  | .sub i _ kids => do
    let d ← getDone i
    if d then pure 0
    else
      setDone i true
      processL dbg t i kids
/-- The loop over `_blocks` (src/block/submodel.cpp:45-52). -/
def processL (dbg : Bool) (t : K) (i : BlkId) : List (Block K) → M K Nat
  | [] => pure 0
  | b :: bs => do
    let n ← b.process dbg t
    let d ← getDone b.id
    if !d then setDone i false else pure ()
    let m ← processL dbg t i bs
    pure (n + m)
end

/-- `process(t, false)`: a submodel only sets its flag (src/block/submodel.cpp:41-44). -/
def Block.processShallow (dbg : Bool) (t : K) : Block K → M K Nat
  | .leaf l => l.process dbg t
  | .sub i _ _ => do
    setDone i true
    pure 0

mutual
/-- `pre_step`: leaf classes and `Submodel::pre_step` (src/block/submodel.hpp:38-45). -/
def Block.preStep (dbg : Bool) (t : K) : Block K → M K Unit
  | .leaf l => l.pre dbg t
  | .sub _ _ kids => preStepL dbg t kids
def preStepL (dbg : Bool) (t : K) : List (Block K) → M K Unit
  | [] => pure ()
  | b :: bs => do b.preStep dbg t; preStepL dbg t bs
end

mutual
/-- `post_step`: leaf classes and `Submodel::post_step` (src/block/submodel.hpp:47-54). -/
def Block.postStep (dbg : Bool) (t : K) : Block K → M K Unit
  | .leaf l => l.post dbg t
  | .sub _ _ kids => postStepL dbg t kids
def postStepL (dbg : Bool) (t : K) : List (Block K) → M K Unit
  | [] => pure ()
  | b :: bs => do b.postStep dbg t; postStepL dbg t bs
end

/-- `while (_model.process(t)) {}` (src/solver/simulator.cpp:84-86). -/
def plainLoop (dbg : Bool) (t : K) (b : Block K) : Nat → M K Unit
  | 0 => throwE .fuel
  | n + 1 => do
    let k ← b.process dbg t
    if k = 0 then pure () else plainLoop dbg t b n

/-- One sweep over `*_current_po` (src/solver/simulator.cpp:53-65): the blocks processed in this
sweep, in order (appended to `*_new_po`). -/
def reuseSweep (dbg : Bool) (t : K) : List (Block K) → M K (List (Block K))
  | [] => pure []
  | b :: bs => do
    let d ← getDone b.id
    if d then reuseSweep dbg t bs
    else
      let _ ← b.processShallow dbg t
      let d' ← getDone b.id
      let rest ← reuseSweep dbg t bs
      pure (if d' then b :: rest else rest)

/-- `do { ... } while (any_processed);` (src/solver/simulator.cpp:49-66): all blocks processed, in
order. -/
def reuseLoop (dbg : Bool) (t : K) (po : List (Block K)) : Nat → M K (List (Block K))
  | 0 => throwE .fuel
  | n + 1 => do
    let new ← reuseSweep dbg t po
    if new.isEmpty then pure []
    else
      let rest ← reuseLoop dbg t po n
      pure (new ++ rest)

/-- The reuse branch of `Simulator::process_model` (src/solver/simulator.cpp:45-81), returning the
new processing order.  The two checks on vector capacities (lines 77-78) are omitted. -/
def reuseEval (dbg : Bool) (t : K) (po : List (Block K)) : M K (List (Block K)) := do
  let new ← reuseLoop dbg t po (po.length + 1)
  let w ← get
  let left := po.filter (fun b => !w.done b.id)
  debugVerify dbg (po.length == (new ++ left).length) .debugVerify
  pure (new ++ left)

/-- `for (auto* leaf : list) leaf->activation_function(t)` (src/solver/fast_simulator.cpp:37-38). -/
def actAll (dbg : Bool) (t : K) : List (Leaf K) → M K Unit
  | [] => pure ()
  | l :: ls => do l.act dbg t; actAll dbg t ls

/-- Number of blocks that can be added to the current level (src/solver/fast_simulator.cpp:80-84). -/
def fastCount (w : World K) (ls : List (Leaf K)) : Nat :=
  (ls.filter (fun l => !w.done l.id && l.ready w)).length

/-- The inner loop of the ordering pass (src/solver/fast_simulator.cpp:91-103); `k` is
`num_blocks_to_add - list.size()`. -/
def fastLevel (dbg : Bool) (t : K) : Nat → List (Leaf K) → M K (List (Leaf K))
  | _, [] => pure []
  | k, l :: ls => do
    if k = 0 then pure []
    else
      let d ← getDone l.id
      let w ← get
      if d || !l.ready w then fastLevel dbg t k ls
      else
        let _ ← l.process dbg t
        let d' ← getDone l.id
        if d' then
          let rest ← fastLevel dbg t (k - 1) ls
          pure (l :: rest)
        else pure []

/-- The ordering pass `for (;;) {...}` (src/solver/fast_simulator.cpp:77-110): the levels and
`num_blocks_added`. -/
def fastOrder (dbg : Bool) (t : K) (po : List (Leaf K)) : Nat → M K (List (List (Leaf K)) × Nat)
  | 0 => throwE .fuel
  | n + 1 => do
    let w ← get
    let k := fastCount w po
    if k = 0 then pure ([], 0)
    else
      let lv ← fastLevel dbg t k po
      if lv.length ≠ k then pure ([lv], 0)
      else
        let r ← fastOrder dbg t po n
        pure (lv :: r.1, k + r.2)

/-- The leaves in `list` when an activation function throws in the inner loop of the ordering pass (src/solver/fast_simulator.cpp:91-103). -/
def levelFound (dbg : Bool) (t : K) : Nat → List (Leaf K) → World K → List (Leaf K)
  | _, [], _ => []
  | k, l :: ls, w =>
    if k = 0 then []
    else if w.done l.id || !l.ready w then levelFound dbg t k ls w
    else
      match l.process dbg t w with
      | .ok _ w' => if w'.done l.id then l :: levelFound dbg t (k - 1) ls w' else []
      | .error _ _ => []

/-- The levels that the ordering pass has added to `_processing_order` when an activation function throws (src/solver/fast_simulator.cpp:77-110). -/
def fastFound (dbg : Bool) (t : K) (po : List (Leaf K)) : Nat → World K → List (List (Leaf K))
  | 0, _ => []
  | n + 1, w =>
    if fastCount w po = 0 then []
    else
      match fastLevel dbg t (fastCount w po) po w with
      | .ok lv w' => if lv.length ≠ fastCount w po then [lv] else lv :: fastFound dbg t po n w'
      | .error _ _ => [levelFound dbg t (fastCount w po) po w]

end
end Pooya
