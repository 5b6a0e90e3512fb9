import Verif.Model.BusBlocks
import Verif.Spec.BusPath

/-! Specification of the value signals of a bus, at any depth, and of the exclusion lists of the bus blocks. -/

namespace Pooya

/-- A value signal of a bus: the labels leading to it, its identity and its type. -/
structure BusLeaf where
  segs : List Str
  id : SigId
  ty : Ty

/-- The value signals of a bus at any depth, in order. -/
def busLeaves : Entries → List BusLeaf
  | [] => []
  | (l, .val i t) :: rest => ⟨[l], i, t⟩ :: busLeaves rest
  | (l, .bus _ es) :: rest => (busLeaves es).map (fun lf => { lf with segs := l :: lf.segs }) ++ busLeaves rest

/-- The dotted label. -/
def dotted (segs : List Str) : Str := List.intercalate [46] segs

/-- The signal with these labels is excluded: by its dotted label, by the dotted label of a bus it is in, followed by a dot, or (the
empty entry) with everything else. -/
def Excluded (excl : List Str) (segs : List Str) : Prop :=
  dotted segs ∈ excl ∨ [] ∈ excl ∨ ∃ k ∈ List.range segs.length, 0 < k ∧ dotted (segs.take k) ++ [46] ∈ excl

instance (excl : List Str) (segs : List Str) : Decidable (Excluded excl segs) := by
  unfold Excluded
  infer_instance

/-- The value signals of a bus that are not excluded, in order. -/
def keptLeaves (excl : List Str) (es : Entries) : List BusLeaf := (busLeaves es).filter (fun lf => ¬ Excluded excl lf.segs)

/-- Labels are unique in each bus and, as `BusImpl` sanitises them, have no dots. -/
def PlainBus : Entries → Prop
  | [] => True
  | (l, .val _ _) :: rest => (46 : UInt8) ∉ l ∧ (∀ p ∈ rest, p.1 ≠ l) ∧ PlainBus rest
  | (l, .bus _ es) :: rest => (46 : UInt8) ∉ l ∧ (∀ p ∈ rest, p.1 ≠ l) ∧ PlainBus es ∧ PlainBus rest

/-- Block `b` joins value signal `lf` of the input bus and the signal of the output bus with the same labels. -/
structure Joins {K : Type} (obus : Entries) (lf : BusLeaf) (b : Built K) : Prop where
  name : b.name = dotted lf.segs
  ty : b.ty = lf.ty.vty
  sin : b.sin = lf.id
  sout : ∃ t, Reaches obus lf.segs (.val b.sout t) ∧ t.vty = lf.ty.vty

/-- `v` is the zero of a signal type. -/
def IsZero {K : Type} [Arith K] : Ty → Val K → Prop
  | .scalar, .scalar x => x = Arith.lit 0
  | .int, .int n => n = 0
  | .bool, .bool b => b = false
  | .array n, .array xs => xs.length = n ∧ ∀ x ∈ xs, x = Arith.lit 0
  | _, _ => False

/-- `v` can be the initial value of a memory of this type. -/
def Fits {K : Type} : Ty → Val K → Prop
  | .scalar, .scalar _ => True
  | .int, .int _ => True
  | .bool, .bool _ => True
  | .array _, .array _ => True
  | _, _ => False

/-- The initial value the memory for `lf` must have, given the map `iv`. -/
def Starts {K : Type} [Arith K] (iv : InitValues K) (lf : BusLeaf) (b : Built K) : Prop :=
  ∃ v, b.init = some v ∧
    ((dotted lf.segs, v) ∈ iv ∧ Fits lf.ty v ∨ (∀ p ∈ iv, p.1 ≠ dotted lf.segs) ∧ IsZero lf.ty v)

end Pooya
