import Verif.Model.History

/-! What a `History` object should contain after a sequence of calls, in terms of the calls. -/

namespace Pooya

variable {K : Type} [Arith K]

/-- A call while recording: `update(k, t)` at a moment when the signals are as in `w`, or `shrink_to_fit()`. -/
inductive HOp (K : Type) where
  | update (w : World K) (k : Nat) (t : K)
  | shrink

def HOp.exec : HOp K → HM K Unit
  | .update w k t => histUpdate w k t
  | .shrink => modify histShrink

def runOps : List (HOp K) → HM K Unit
  | [] => pure ()
  | o :: os => do
    o.exec
    runOps os

/-- A history that tracks `sigs` and has recorded nothing. -/
def Hist.tracking (grow : Nat) (sigs : List SigId) : Hist K := { Hist.new grow with sigs := sigs }

/-- The most recent update with index `k`: the signals and the time it saw. -/
def lastAt (ops : List (HOp K)) (k : Nat) : Option (World K × K) :=
  ops.foldl (fun r o => match o with
    | .update w j t => if j = k then some (w, t) else r
    | .shrink => r) none

/-- The numbers that represent a value. -/
def Val.coeffs : Val K → List K
  | .scalar x => [x]
  | .int n => [Arith.lit (n : Rat)]
  | .bool true => [Arith.lit 1]
  | .bool false => [Arith.lit 0]
  | .array xs => xs

/-- What is to be recorded of a signal: its value, or zeros if it is unassigned. -/
def sample (c : Cell K) : List K :=
  match c.assigned, c.value with
  | true, some v => v.coeffs
  | _, _ => match c.ty with
    | .array n => List.replicate n (Arith.lit 0)
    | _ => [Arith.lit 0]

/-- An assigned signal has a value of its type and, if it is an array, of its size. -/
def Cell.proper (c : Cell K) : Prop :=
  c.assigned = true → ∃ v, c.value = some v ∧ v.hasTag c.ty = true ∧ v.sizeOk c.ty = true

/-- The updates of `ops` see proper signals with the types `ty`, and their indices stay below the range of `uint`. -/
def Proper (ty : SigId → Ty) (grow : Nat) (sigs : List SigId) (ops : List (HOp K)) : Prop :=
  ∀ w k t, .update w k t ∈ ops → k + grow < 4294967296 ∧ ∀ i ∈ sigs, (w.sig i).proper ∧ (w.sig i).ty = ty i

/-- `time()(k)`; `none` if there is no such row or it was never written. -/
def Hist.timeAt (h : Hist K) (k : Nat) : Option K := h.time[k]?.join

/-- Row `k` of `history[sig]`; `none` if there is no such row or it was never written. -/
def Hist.rowAt (h : Hist K) (i : SigId) (k : Nat) : Option (List K) := ((tabGet h.tab i).getD [])[k]?.join

end Pooya
