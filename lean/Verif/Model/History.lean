import Verif.Model.Bus

/- Model of src/solver/history.{hpp,cpp}. -/

namespace Pooya

/-- A row-major matrix of doubles; `none` is a row (or time entry) never written since it was
allocated. -/
abbrev Rows (α : Type) := List (Option α)

/-- `conservativeResize(n, NoChange)`: keeps the first rows, new ones are indeterminate. -/
def resizeRows {α : Type} (r : Rows α) (n : Nat) : Rows α := r.take n ++ List.replicate (n - r.length) none

/-- `uint` arithmetic (32 bits). -/
def u32 (n : Nat) : Nat := n % 4294967296

/-- `uint(-1)`. -/
def noRow : Nat := 4294967295

/-- The members of `History` (src/solver/history.hpp:34-42); `tab` is the `unordered_map` base. -/
structure Hist (K : Type) where
  grow : Nat
  bottom : Nat
  time : Rows K
  sigs : List SigId
  tab : List (SigId × Rows (List K))

/-- `History(nrows_grow)` (src/solver/history.hpp:45). -/
def Hist.new {K : Type} (grow : Nat) : Hist K :=
  { grow := grow, bottom := noRow, time := List.replicate grow none, sigs := [], tab := [] }

abbrev HM (K : Type) := EStateM Err (Hist K)

variable {K : Type}

/-- `History::track` (src/solver/history.cpp:28-37). -/
def histTrack (dbg : Bool) (s : Signal) : HM K Bool := do
  let h ← get
  debugVerify dbg h.tab.isEmpty .debugVerify
  match s with
  | .bus _ _ => pure false
  | .val i _ =>
    if i ∈ h.sigs then pure false
    else
      set { h with sigs := h.sigs ++ [i] }
      pure true

/-- `vector::erase(std::find(...))`: `none` when the element is absent (erasing `end()`). -/
def eraseFirst (i : SigId) : List SigId → Option (List SigId)
  | [] => none
  | j :: js => if j = i then some js else (eraseFirst i js).map (j :: ·)

/-- `History::untrack` (src/solver/history.cpp:39-45). -/
def histUntrack (dbg : Bool) (s : Signal) : HM K Unit := do
  let h ← get
  debugVerify dbg h.tab.isEmpty .debugVerify
  match s with
  | .bus _ _ => pure ()
  | .val i _ =>
    match eraseFirst i h.sigs with
    | none => throwE (.ub .eraseEnd)
    | some l => set { h with sigs := l }

/-- Number of columns of a signal's matrix (src/solver/history.cpp:58-74). -/
def Ty.cols : Ty → Nat
  | .array n => n
  | _ => 1

section
variable [Arith K]

/-- The row written for a signal (src/solver/history.cpp:90-119); conversions of `int` and `bool` to
`double` are exact. -/
def rowOf (c : Cell K) : Except Err (List K) :=
  if c.assigned then
    match c.value with
    | none => .error (.ub .uninitRead)
    | some (.scalar x) => .ok [x]
    | some (.int n) => .ok [Arith.lit (n : Rat)]
    | some (.bool b) => .ok [if b then Arith.lit 1 else Arith.lit 0]
    | some (.array xs) => if xs.length = c.ty.cols then .ok xs else .error (.ub .eigenSize)
  else .ok (List.replicate c.ty.cols (Arith.lit 0))

/-- Assignment to row `k`; outside the matrix it is undefined behaviour. -/
def setRow {α : Type} (r : Rows α) (k : Nat) (a : α) : Except Err (Rows α) :=
  if k < r.length then .ok (r.set k (some a)) else .error (.ub .outOfBounds)

/-- Growing and writing one matrix (src/solver/history.cpp:78-82 and 86-119). -/
def putRow {α : Type} (grow : Nat) (r : Rows α) (k : Nat) (a : α) : Except Err (Rows α) :=
  setRow (if r.length ≤ k then resizeRows r (u32 (k + grow)) else r) k a

/-- `at(sig)` of the map; `none` throws `std::out_of_range`. -/
def tabGet (tab : List (SigId × Rows (List K))) (i : SigId) : Option (Rows (List K)) :=
  match tab with
  | [] => none
  | (j, r) :: rest => if j = i then some r else tabGet rest i

/-- `at(sig) = r`. -/
def tabSet (tab : List (SigId × Rows (List K))) (i : SigId) (r : Rows (List K)) :
    List (SigId × Rows (List K)) :=
  tab.map (fun p => if p.1 = i then (i, r) else p)

/-- The loop over `_signals` (src/solver/history.cpp:83-120). -/
def histRows (w : World K) (k : Nat) : List SigId → HM K Unit
  | [] => pure ()
  | i :: is => do
    let h ← get
    match tabGet h.tab i with
    | none => throwE (.exc .outOfRange)
    | some r =>
      let row ← liftE (rowOf (w.sig i))
      let r' ← liftE (putRow h.grow r k row)
      set { h with tab := tabSet h.tab i r' }
      histRows w k is

/-- `History::update` (src/solver/history.cpp:47-126). -/
def histUpdate (w : World K) (k : Nat) (t : K) : HM K Unit := do
  let h ← get
  if h.tab.isEmpty && h.sigs.isEmpty then pure ()
  else
    let tab := if h.tab.isEmpty then h.sigs.map (fun i => (i, List.replicate h.grow none)) else h.tab
    set { h with tab := tab }
    let time ← liftE (putRow h.grow h.time k t)
    set { h with tab := tab, time := time }
    histRows w k h.sigs
    modify (fun h => { h with bottom := if h.bottom = noRow ∨ h.bottom < k then k else h.bottom })

/-- `nrows()` (src/solver/history.hpp:52). -/
def Hist.nrows (h : Hist K) : Nat := u32 (h.bottom + 1)

/-- `History::shrink_to_fit` (src/solver/history.cpp:128-143). -/
def histShrink (h : Hist K) : Hist K :=
  let n := h.nrows
  if h.time.length ≤ n then h
  else { h with time := resizeRows h.time n, tab := h.tab.map (fun p => (p.1, resizeRows p.2 n)) }

/-- A header field of the CSV file: a signal and, for arrays, the component. -/
structure Field where
  sig : SigId
  comp : Option Nat
deriving DecidableEq, Repr

/-- Header fields of a signal (src/solver/history.cpp:157-175). -/
def headerOf (ty : SigId → Ty) (i : SigId) : List Field :=
  match ty i with
  | .array n => (List.range n).map (fun k => ⟨i, some k⟩)
  | _ => [⟨i, none⟩]

/-- Values printed for a signal in line `k` (src/solver/history.cpp:187-199): `none` is an
indeterminate number; a missing row is undefined behaviour. -/
def fieldsOf (ty : SigId → Ty) (i : SigId) (r : Rows (List K)) (k : Nat) : Except Err (List (Option K)) :=
  match r[k]? with
  | none => .error (.ub .outOfBounds)
  | some none => .ok (List.replicate (ty i).cols none)
  | some (some xs) => .ok ((List.range (ty i).cols).map (fun j => xs[j]?))

/-- Line `k` after the time field. -/
def lineOf (ty : SigId → Ty) (k : Nat) : List (SigId × Rows (List K)) → Except Err (List (Option K))
  | [] => .ok []
  | (i, r) :: rest => do
    let a ← fieldsOf ty i r k
    let b ← lineOf ty k rest
    .ok (a ++ b)

/-- All lines `k = 0 .. n-1`: time and values. -/
def linesOf (ty : SigId → Ty) (tab : List (SigId × Rows (List K))) :
    Nat → Rows K → Except Err (List (Option K × List (Option K)))
  | _, [] => .ok []
  | k, t :: ts => do
    let a ← lineOf ty k tab
    let b ← linesOf ty tab (k + 1) ts
    .ok ((t, a) :: b)

/-- A CSV file: header fields after "time", and the lines. -/
structure Csv (K : Type) where
  header : List Field
  lines : List (Option K × List (Option K))

/-- `History::export_csv` (src/solver/history.cpp:145-204); `order` is the iteration order of the hash
map; `none` when nothing is written. -/
def exportCsv (ty : SigId → Ty) (order : List (SigId × Rows (List K)) → List (SigId × Rows (List K)))
    (h : Hist K) : Except Err (Option (Csv K)) :=
  if h.tab.isEmpty then .ok none
  else do
    let tab := order h.tab
    let ls ← linesOf ty tab 0 h.time
    .ok (some ⟨tab.flatMap (fun p => headerOf ty p.1), ls⟩)

end
end Pooya
