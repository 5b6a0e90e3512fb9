import Verif.Model.Name
import Verif.Model.Engine

/-
Model of how block hierarchies are built: the parent/child part of src/block/block.cpp and
src/block/submodel.cpp.  No block is destroyed here; `Lifetime.lean` models what happens if one is.
-/

namespace Pooya

/-- The members of a `Block` that concern the hierarchy: `_name`, `_parent` (src/block/block.hpp:121)
and, for a `Submodel`, `_blocks` (src/block/submodel.hpp:63). -/
structure Node where
  name : Str
  isSub : Bool
  parent : Option BlkId
  kids : List BlkId

/-- All block objects created so far: the ids below `next`. -/
structure Heap where
  node : BlkId → Node
  next : Nat

def Heap.empty : Heap := ⟨fun _ => ⟨[], false, none, []⟩, 0⟩

def Heap.parent (h : Heap) (b : BlkId) : Option BlkId := (h.node b).parent
def Heap.kids (h : Heap) (b : BlkId) : List BlkId := (h.node b).kids

/-- `Submodel::link_block` (src/block/submodel.cpp:112-125) called on `p` with argument `b`. -/
def linkBlock (h : Heap) (p b : BlkId) : Bool × Heap :=
  if h.parent b ≠ some p then (false, h)
  else
    (true, if b ∈ h.kids p then h
      else { h with node := upd h.node p { h.node p with kids := h.kids p ++ [b] } })

/-- `Block::Block` (src/block/block.cpp:28-32): a new object; returns its identity. -/
def newBlock (h : Heap) (isSub : Bool) (parent : Option BlkId) (name : Str) : BlkId × Heap :=
  let b := h.next
  let h1 : Heap := ⟨upd h.node b ⟨emend name, isSub, parent, []⟩, h.next + 1⟩
  match parent with
  | none => (b, h1)
  | some p => (b, (linkBlock h1 p b).2)

/-- `Block::set_parent` (src/block/block.cpp:34-46) called on `b` with argument `p`. -/
def setParent (h : Heap) (b p : BlkId) : Bool × Heap :=
  match h.parent b with
  | some q =>
    if q ≠ p then (false, h)
    else (true, (linkBlock { h with node := upd h.node b { h.node b with parent := some p } } p b).2)
  | none =>
    (true, (linkBlock { h with node := upd h.node b { h.node b with parent := some p } } p b).2)

/-- `NamedObject::rename` (src/shared/named_object.hpp:79). -/
def renameBlock (h : Heap) (b : BlkId) (name : Str) : Heap :=
  { h with node := upd h.node b { h.node b with name := emend name } }

/-- Calls available to a program that builds a hierarchy.  `addBlock` is the hierarchy part of
`Submodel::add_block` (src/block/submodel.cpp:127-132); whether the `connect` after it throws does not
change the hierarchy. -/
inductive TOp where
  | new (isSub : Bool) (parent : Option BlkId) (name : Str)
  | setParent (b p : BlkId)
  | linkBlock (p b : BlkId)
  | addBlock (p b : BlkId)
  | rename (b : BlkId) (name : Str)

/-- The call can be written in a well-typed program: the objects exist and parents are submodels. -/
def TOp.valid (h : Heap) : TOp → Prop
  | .new _ none _ => True
  | .new _ (some p) _ => p < h.next ∧ (h.node p).isSub = true
  | .setParent b p | .linkBlock p b | .addBlock p b => b < h.next ∧ p < h.next ∧ (h.node p).isSub = true
  | .rename b _ => b < h.next

/-- Effect of a call. -/
def TOp.step (h : Heap) : TOp → Heap
  | .new k p n => (newBlock h k p n).2
  | .setParent b p => (Pooya.setParent h b p).2
  | .linkBlock p b => (Pooya.linkBlock h p b).2
  | .addBlock p b => (Pooya.setParent h b p).2
  | .rename b n => renameBlock h b n

/-- Heaps a program can reach. -/
inductive Heap.Reachable : Heap → Prop
  | empty : Reachable Heap.empty
  | step {h : Heap} (op : TOp) : Reachable h → op.valid h → Reachable (op.step h)

/-- `Block::full_name` (src/block/block.cpp:91-94): recursion over `_parent`; `none` when the fuel
runs out. -/
def fullName (h : Heap) : Nat → BlkId → Option ValidName
  | 0, _ => none
  | n + 1, b =>
    match h.parent b with
    | none => some (ValidName.empty.slash ⟨(h.node b).name⟩)
    | some p => (fullName h n p).map (fun v => v.slash ⟨(h.node b).name⟩)

/-- The tree of objects below a block, as used by `Engine.lean`; `none` when the fuel runs out.
`leafOf` gives the leaf objects and `linksOf` the linked signals of submodels. -/
def unfold {K : Type} (h : Heap) (leafOf : BlkId → Leaf K) (linksOf : BlkId → List (SigId × Flags)) :
    Nat → BlkId → Option (Block K)
  | 0, _ => none
  | n + 1, b =>
    if (h.node b).isSub then
      (List.mapM (unfold h leafOf linksOf n) (h.kids b)).map (Block.sub b (linksOf b))
    else some (.leaf { leafOf b with id := b })

end Pooya
