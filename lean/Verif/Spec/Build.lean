import Verif.Model.Build
import Verif.Spec.Typed

/-! Specification of diagrams that are assembled by calls of `connect`. -/

namespace Pooya

variable {K : Type}

/-- The key stands for an entry of the bus itself, not of a bus in the bus (`"a.b"`). -/
def Key.Direct : Key → Prop
  | .idx _ => True
  | .label l => 46 ∉ l

/-- User code stays within the signals the block knows: the functions of `Sources`, `SOFunction` and `Function` use entries of the buses
themselves, a user-written leaf uses the signals it got from `input` and `output`. -/
def Make.Direct : Make K → Prop
  | .sources _ _ os => ∀ k ∈ os, k.Direct
  | .so _ _ _ rs => ∀ k ∈ rs, k.Direct
  | .func _ _ _ rs os => (∀ k ∈ rs, k.Direct) ∧ ∀ k ∈ os, k.Direct
  | .custom _ _ _ _ c => ∀ is os, (∀ s ∈ (c is os).reads, s ∈ is) ∧ (∀ s ∈ (c is os).outs ++ (c is os).preOuts, s ∈ os) ∧
      ∀ s ∈ (c is os).postReads, s ∈ is ++ os
  | _ => True

/-- The type of a signal of the C++ value type; arrays have size `n`. -/
def VTy.toTy (n : Nat) : VTy → Ty
  | .double => .scalar
  | .int => .int
  | .bool => .bool
  | .array => .array n

/-- The inputs of `Add` and `Multiply` have the type of the class; that is checked in debug builds only, so it has to be assumed in release builds. -/
def Wire.Checked (dbg : Bool) (p : Wire K) : Prop :=
  match p.obj with
  | .add ty _ | .multiply ty _ => dbg = true ∨ ∀ q ∈ p.ibus, ∃ i n, q.2 = .val i (ty.toTy n)
  | _ => True

/-- The signal is linked to the block, and the link has at least the types `t`. -/
def Leaf.Has (l : Leaf K) (s : SigId) (t : Flags) : Prop := ∃ f, (s, f) ∈ l.links ∧ f &&& t = t

/-- The block is linked to the signals it uses: what it reads when it is activated are required inputs, what it assigns are outputs; and to
each signal once. -/
structure Leaf.Linked (l : Leaf K) : Prop where
  reads : ∀ s ∈ l.reads, l.Has s (Flags.input ||| Flags.required)
  writes : ∀ s ∈ l.outs ++ l.preOuts, l.Has s Flags.output
  post : ∀ s ∈ l.postReads, l.Has s Flags.input ∨ l.Has s Flags.output
  once : (l.links.map Prod.fst).Nodup

/-- The block integrates `x` into `out`. -/
def Leaf.Slope (l : Leaf K) (out x : SigId) : Prop := l.kind = .integrator x out ∨ ∃ tr, l.kind = .trigInt x tr out

/-- The leaves of the model are objects that have been connected one after the other, in any order, and the derivative links of the signals are
those made by these calls. -/
def Config.Assembled (cfg : Config K) (ps : List (Wire K)) : Prop :=
  ∃ ls, connectAll cfg.dbg ps (fun _ => none) = .ok (ls, cfg.deriv) ∧ cfg.model.leaves.Perm ls

/-- The types of the signals on the bus. -/
def Agrees (ty : SigId → Ty) (es : Entries) : Prop := ∀ q ∈ es, ∀ i t, q.2 = .val i t → ty i = t

def VTy.Real : VTy → Prop
  | .double | .array => True
  | _ => False

/-- All arrays on the bus have size `n`. -/
def Sized (n : Nat) (es : Entries) : Prop := ∀ q ∈ es, ∀ i m, q.2 = .val i (.array m) → m = n

/-- The constructor arguments have the types that the class and its template arguments ask for, arrays among them and in the results of user code have size `n`,
and the class exists for the type of values (`Add` for `bool` does not, for example).  Classes that get buses or signals under their own names
(`Sources`, `SOFunction`, `Function`, user-written leaves) are left out. -/
def Make.Static (pol : Policy) (n : Nat) : Make K → Prop
  | .const ty v => v.Fits (ty.toTy n)
  | .source ty f => ∀ t, Yields pol (fun v => v.Fits (ty.toTy n)) (f t)
  | .gain ty k => (ty.Real ∧ ∃ a, k = .scalar a) ∨ (pol.overflow = true ∧ ty = .int ∧ ∃ a, k = .int a)
  | .add ty v | .multiply ty v => ty.Real ∧ v.Fits (ty.toTy n)
  | .subtract ty | .divide ty | .delay ty _ | .derivative ty => ty.Real
  | .pipe _ | .memory _ | .integrator _ | .trigInt _ => True
  | .siso ty f => ∀ t v, v.Fits (ty.toTy n) → Yields pol (fun r => r.Fits (ty.toTy n)) (f t v)
  | .sources _ _ _ | .so _ _ _ _ | .func _ _ _ _ _ | .custom _ _ _ _ _ => False

end Pooya
