import Verif.Proof.Formula
import Verif.Model.Field
import Mathlib.Algebra.BigOperators.Group.List.Basic

/-! # C41 — algebraic blocks compute their formulas

`Outputs` (Spec/Cells.lean) says that the activation function returns, that the output signal then holds the value, and
that nothing else has changed. `Holds` and `Takes` are the conditions on the input and output signals. -/

namespace Pooya.C41

set_option linter.unusedSectionVars false

section
variable {K : Type} [Arith K] {dbg : Bool} {l : Leaf K} {t : K} {w : World K} {o : SigId}

/-- `Const`: its value (of any type). -/
theorem C41_const {v : Val K} (hk : l.kind = .const v o) (ho : Takes dbg w o v) : Outputs dbg l t w o v :=
  outputs_of (x := pure v) (by simp only [Leaf.actBody, hk]; rfl) (fun _ => rfl) ho

/-- `Source`: the value of the user function at the time of the evaluation. -/
theorem C41_source {f : K → Except Err (Val K)} {v : Val K} (hk : l.kind = .source f o) (hf : f t = .ok v) (ho : Takes dbg w o v) :
    Outputs dbg l t w o v :=
  outputs_of (x := liftE (f t)) (by simp only [Leaf.actBody, hk]) (fun _ => by rw [hf]; rfl) ho

/-- `Pipe`: the input (of any type). -/
theorem C41_pipe {x : SigId} {v : Val K} (hk : l.kind = .pipe x o) (hx : Holds dbg w x v) (ho : Takes dbg w o v) :
    Outputs dbg l t w o v :=
  outputs_of (x := getv dbg x) (by simp only [Leaf.actBody, hk]) (fun lg => getv_log hx lg) ho

/-- `SISOFunction`: the user function at the time and input. -/
theorem C41_siso {f : K → Val K → Except Err (Val K)} {x : SigId} {a v : Val K} (hk : l.kind = .siso f x o) (hx : Holds dbg w x a)
    (hf : f t a = .ok v) (ho : Takes dbg w o v) : Outputs dbg l t w o v :=
  outputs_of (x := do let a ← getv dbg x; liftE (f t a)) (by simp only [Leaf.actBody, hk, bind_assoc])
    (fun lg => by rw [bind_of_ok (getv_log hx lg), hf]; rfl) ho

/-- `Gain`. -/
theorem C41_gain {x : SigId} {k a : K} (hk : l.kind = .gain (.scalar k) x o) (hx : Holds dbg w x (.scalar a))
    (ho : Takes dbg w o (.scalar (k *. a))) : Outputs dbg l t w o (.scalar (k *. a)) :=
  outputs_of (x := do let v ← getv dbg x; liftE (Val.gain (.scalar k) v)) (by simp only [Leaf.actBody, hk, bind_assoc])
    (fun lg => by rw [bind_of_ok (getv_log hx lg)]; rfl) ho

/-- `GainI`, as long as the product is a C++ `int`. -/
theorem C41_gain_int {x : SigId} {k a : Int} (hk : l.kind = .gain (.int k) x o) (hx : Holds dbg w x (.int a))
    (hr : -2 ^ 31 ≤ k * a ∧ k * a < 2 ^ 31) (ho : Takes dbg w o (.int (k * a) : Val K)) : Outputs dbg l t w o (.int (k * a)) :=
  outputs_of (x := do let v ← getv dbg x; liftE (Val.gain (.int k) v)) (by simp only [Leaf.actBody, hk, bind_assoc])
    (fun lg => by
      rw [bind_of_ok (getv_log hx lg)]
      have : int32 (k * a) = true := by simp only [int32, Bool.and_eq_true, decide_eq_true_eq]; omega
      simp only [Val.gain, this, if_true]; rfl) ho

/-- `GainI` otherwise: signed overflow, which is undefined behaviour. -/
theorem C41_gain_int_overflow {x : SigId} {k a : Int} (hk : l.kind = .gain (.int k) x o) (hx : Holds dbg w x (.int a))
    (hr : ¬ (-2 ^ 31 ≤ k * a ∧ k * a < 2 ^ 31)) : ∃ w', l.act dbg t w = .error (.ub .intOverflow) w' := by
  have : int32 (k * a) = false := by
    rw [Bool.eq_false_iff]
    intro h
    simp only [int32, Bool.and_eq_true, decide_eq_true_eq] at h
    exact hr ⟨by omega, by omega⟩
  refine ⟨{ w with log := .act l.id t :: w.log }, ?_⟩
  unfold Leaf.act
  simp only [Leaf.actBody, hk]
  rw [bind_of_ok (show emit _ w = .ok () { w with log := .act l.id t :: w.log } from rfl), bind_of_ok (getv_log hx _)]
  simp only [Val.gain, this, Bool.false_eq_true, if_false]
  rfl

def bigGain : Leaf ℚ := { id := 0, links := [], kind := .gain (.int 2147483647) 0 1 }

def intWorld : World ℚ :=
  { sig := fun _ => { ty := .int, value := some (.int 2), assigned := true }, mem := fun _ => { value := .int 0 }, done := fun _ => false, log := [] }

example : ∃ w', bigGain.act true 0 intWorld = .error (.ub .intOverflow) w' :=
  C41_gain_int_overflow (k := 2147483647) (a := 2) rfl ⟨rfl, fun _ => rfl⟩ (by omega)

/-- `GainA`: every coefficient times the gain. -/
theorem C41_gain_array {x : SigId} {n : Nat} {k : K} {a : Fin n → K} (hk : l.kind = .gain (.scalar k) x o)
    (hx : Holds dbg w x (arrayOf a)) (ho : Takes dbg w o (arrayOf (fun i => k *. a i))) :
    Outputs dbg l t w o (arrayOf (fun i => k *. a i)) :=
  outputs_of (x := do let v ← getv dbg x; liftE (Val.gain (.scalar k) v)) (by simp only [Leaf.actBody, hk, bind_assoc])
    (fun lg => by
      rw [bind_of_ok (getv_log hx lg)]
      simp only [arrayOf, Val.gain, List.map_ofFn]; rfl) ho

/-- `Subtract`: first input minus second input. -/
theorem C41_subtract {x1 x2 : SigId} {a b : K} (hk : l.kind = .subtract x1 x2 o) (h1 : Holds dbg w x1 (.scalar a))
    (h2 : Holds dbg w x2 (.scalar b)) (ho : Takes dbg w o (.scalar (a -. b))) : Outputs dbg l t w o (.scalar (a -. b)) :=
  outputs_of (x := do let v1 ← getv dbg x1; let v2 ← getv dbg x2; liftE (Val.lift2 (· -. ·) v1 v2))
    (by simp only [Leaf.actBody, hk, bind_assoc])
    (fun lg => by rw [bind_of_ok (getv_log h1 lg), bind_of_ok (getv_log h2 lg)]; rfl) ho

/-- `SubtractA`, coefficient by coefficient. -/
theorem C41_subtract_array {x1 x2 : SigId} {n : Nat} {a b : Fin n → K} (hk : l.kind = .subtract x1 x2 o)
    (h1 : Holds dbg w x1 (arrayOf a)) (h2 : Holds dbg w x2 (arrayOf b)) (ho : Takes dbg w o (arrayOf (fun i => a i -. b i))) :
    Outputs dbg l t w o (arrayOf (fun i => a i -. b i)) :=
  outputs_of (x := do let v1 ← getv dbg x1; let v2 ← getv dbg x2; liftE (Val.lift2 (· -. ·) v1 v2))
    (by simp only [Leaf.actBody, hk, bind_assoc])
    (fun lg => by rw [bind_of_ok (getv_log h1 lg), bind_of_ok (getv_log h2 lg), lift2_ofFn]; rfl) ho

/-- `Divide`: first input divided by the second input. -/
theorem C41_divide {x1 x2 : SigId} {a b : K} (hk : l.kind = .divide x1 x2 o) (h1 : Holds dbg w x1 (.scalar a))
    (h2 : Holds dbg w x2 (.scalar b)) (ho : Takes dbg w o (.scalar (a /. b))) : Outputs dbg l t w o (.scalar (a /. b)) :=
  outputs_of (x := do let v1 ← getv dbg x1; let v2 ← getv dbg x2; liftE (Val.lift2 (· /. ·) v1 v2))
    (by simp only [Leaf.actBody, hk, bind_assoc])
    (fun lg => by rw [bind_of_ok (getv_log h1 lg), bind_of_ok (getv_log h2 lg)]; rfl) ho

/-- `DivideA`, coefficient by coefficient. -/
theorem C41_divide_array {x1 x2 : SigId} {n : Nat} {a b : Fin n → K} (hk : l.kind = .divide x1 x2 o)
    (h1 : Holds dbg w x1 (arrayOf a)) (h2 : Holds dbg w x2 (arrayOf b)) (ho : Takes dbg w o (arrayOf (fun i => a i /. b i))) :
    Outputs dbg l t w o (arrayOf (fun i => a i /. b i)) :=
  outputs_of (x := do let v1 ← getv dbg x1; let v2 ← getv dbg x2; liftE (Val.lift2 (· /. ·) v1 v2))
    (by simp only [Leaf.actBody, hk, bind_assoc])
    (fun lg => by rw [bind_of_ok (getv_log h1 lg), bind_of_ok (getv_log h2 lg), lift2_ofFn]; rfl) ho

/-- `Add` in any arithmetic: from the initial value, the entries of the input bus are added in the order of the bus, a
signal that is connected several times as often as it appears. -/
theorem C41_add {ins : List SigId} {init : K} {x : SigId → K} (hk : l.kind = .add (.scalar init) ins o)
    (hx : ∀ s ∈ ins, Holds dbg w s (.scalar (x s))) (ho : ∀ a, Takes dbg w o (.scalar a)) :
    Outputs dbg l t w o (.scalar (ins.foldl (fun a s => a +. x s) init)) :=
  outputs_of (by simp only [Leaf.actBody, hk]) (fun lg => foldIns_scalar (· +. ·) x ins init hx lg) (ho _)

/-- `AddA`. -/
theorem C41_add_array {ins : List SigId} {n : Nat} {init : Fin n → K} {x : SigId → Fin n → K} (hk : l.kind = .add (arrayOf init) ins o)
    (hx : ∀ s ∈ ins, Holds dbg w s (arrayOf (x s))) (ho : ∀ a : Fin n → K, Takes dbg w o (arrayOf a)) :
    Outputs dbg l t w o (arrayOf (fun i => ins.foldl (fun a s => a +. x s i) (init i))) :=
  outputs_of (by simp only [Leaf.actBody, hk]) (fun lg => foldIns_array (· +. ·) x ins init hx lg) (ho _)

/-- `Multiply` in any arithmetic. -/
theorem C41_multiply {ins : List SigId} {init : K} {x : SigId → K} (hk : l.kind = .multiply (.scalar init) ins o)
    (hx : ∀ s ∈ ins, Holds dbg w s (.scalar (x s))) (ho : ∀ a, Takes dbg w o (.scalar a)) :
    Outputs dbg l t w o (.scalar (ins.foldl (fun a s => a *. x s) init)) :=
  outputs_of (by simp only [Leaf.actBody, hk]) (fun lg => foldIns_scalar (· *. ·) x ins init hx lg) (ho _)

/-- `MultiplyA`. -/
theorem C41_multiply_array {ins : List SigId} {n : Nat} {init : Fin n → K} {x : SigId → Fin n → K}
    (hk : l.kind = .multiply (arrayOf init) ins o) (hx : ∀ s ∈ ins, Holds dbg w s (arrayOf (x s)))
    (ho : ∀ a : Fin n → K, Takes dbg w o (arrayOf a)) :
    Outputs dbg l t w o (arrayOf (fun i => ins.foldl (fun a s => a *. x s i) (init i))) :=
  outputs_of (by simp only [Leaf.actBody, hk]) (fun lg => foldIns_array (· *. ·) x ins init hx lg) (ho _)

end

/-! ## Exact arithmetic -/

section
variable {K : Type} [Field K] [LinearOrder K] [IsStrictOrderedRing K]
attribute [local instance] Arith.exact
variable {dbg : Bool} {l : Leaf K} {t : K} {w : World K} {o : SigId}

private theorem foldl_sum (x : SigId → K) (ins : List SigId) (init : K) :
    ins.foldl (fun a s => a +. x s) init = init + (ins.map x).sum := by
  induction ins generalizing init with
  | nil => simp
  | cons s ss ih => rw [List.foldl_cons, ih, List.map_cons, List.sum_cons, exact_add, add_assoc]

private theorem foldl_prod (x : SigId → K) (ins : List SigId) (init : K) :
    ins.foldl (fun a s => a *. x s) init = init * (ins.map x).prod := by
  induction ins generalizing init with
  | nil => simp
  | cons s ss ih => rw [List.foldl_cons, ih, List.map_cons, List.prod_cons, exact_mul, mul_assoc]

/-- `Add`: the initial value plus the sum over all entries of the input bus. -/
theorem C41_add_exact {ins : List SigId} {init : K} {x : SigId → K} (hk : l.kind = .add (.scalar init) ins o)
    (hx : ∀ s ∈ ins, Holds dbg w s (.scalar (x s))) (ho : ∀ a, Takes dbg w o (.scalar a)) :
    Outputs dbg l t w o (.scalar (init + (ins.map x).sum)) := by
  rw [← foldl_sum]; exact C41_add hk hx ho

/-- `AddA`: the same for every coefficient. -/
theorem C41_add_array_exact {ins : List SigId} {n : Nat} {init : Fin n → K} {x : SigId → Fin n → K}
    (hk : l.kind = .add (arrayOf init) ins o) (hx : ∀ s ∈ ins, Holds dbg w s (arrayOf (x s)))
    (ho : ∀ a : Fin n → K, Takes dbg w o (arrayOf a)) :
    Outputs dbg l t w o (arrayOf (fun i => init i + (ins.map (fun s => x s i)).sum)) := by
  have := C41_add_array (t := t) hk hx ho
  simp only [foldl_sum] at this
  exact this

/-- `Multiply`: the initial value times the product over all entries of the input bus. -/
theorem C41_multiply_exact {ins : List SigId} {init : K} {x : SigId → K} (hk : l.kind = .multiply (.scalar init) ins o)
    (hx : ∀ s ∈ ins, Holds dbg w s (.scalar (x s))) (ho : ∀ a, Takes dbg w o (.scalar a)) :
    Outputs dbg l t w o (.scalar (init * (ins.map x).prod)) := by
  rw [← foldl_prod]; exact C41_multiply hk hx ho

/-- `MultiplyA`: the same for every coefficient. -/
theorem C41_multiply_array_exact {ins : List SigId} {n : Nat} {init : Fin n → K} {x : SigId → Fin n → K}
    (hk : l.kind = .multiply (arrayOf init) ins o) (hx : ∀ s ∈ ins, Holds dbg w s (arrayOf (x s)))
    (ho : ∀ a : Fin n → K, Takes dbg w o (arrayOf a)) :
    Outputs dbg l t w o (arrayOf (fun i => init i * (ins.map (fun s => x s i)).prod)) := by
  have := C41_multiply_array (t := t) hk hx ho
  simp only [foldl_prod] at this
  exact this

/-- In exact arithmetic the result does not depend on the order of the entries of the input bus. -/
theorem C41_order_exact {ins ins' : List SigId} (h : ins.Perm ins') (init : K) (x : SigId → K) :
    ins.foldl (fun a s => a +. x s) init = ins'.foldl (fun a s => a +. x s) init ∧
    ins.foldl (fun a s => a *. x s) init = ins'.foldl (fun a s => a *. x s) init := by
  rw [foldl_sum, foldl_sum, foldl_prod, foldl_prod, (h.map x).sum_eq, (h.map x).prod_eq]
  exact ⟨rfl, rfl⟩

end

/-! ## Examples -/

/-- Signals 0 and 1 hold 2 and 3, signal 5 is unassigned, signals 10 and 11 hold arrays, signal 12 is unassigned. -/
def sample : World ℚ where
  sig s := if s = 0 then ⟨.scalar, true, some (.scalar 2)⟩ else if s = 1 then ⟨.scalar, true, some (.scalar 3)⟩
    else if s = 10 then ⟨.array 2, true, some (.array [6, 8])⟩ else if s = 11 then ⟨.array 2, true, some (.array [2, 4])⟩
    else if s = 12 then ⟨.array 2, false, none⟩ else ⟨.scalar, false, none⟩
  mem _ := { value := .scalar 0 }
  done _ := false
  log := []

/-- An adder with signal 0 connected twice and signal 1 once. -/
def adder : Leaf ℚ := { id := 1, links := [], kind := .add (.scalar 10) [0, 0, 1] 5 }

def divider : Leaf ℚ := { id := 1, links := [], kind := .divide 10 11 12 }

/-- `10 + 2 + 2 + 3` -/
example : Outputs true adder 0 sample 5 (.scalar 17) := by
  have := C41_add_exact (dbg := true) (l := adder) (t := 0) (w := sample) (init := 10)
    (x := fun s => if s = 0 then 2 else 3) rfl (by decide +kernel) (fun a => ⟨rfl, fun _ => ⟨rfl, rfl⟩⟩)
  have e : (17 : ℚ) = 10 + (List.map (fun s : SigId => if s = 0 then 2 else 3) [0, 0, 1]).sum := by decide +kernel
  rw [e]; exact this

/-- A division of arrays. -/
example : Outputs true divider 0 sample 12 (.array [3, 2]) := by
  have := C41_divide_array (dbg := true) (l := divider) (t := 0) (w := sample)
    (n := 2) (a := fun i => if i = 0 then 6 else 8) (b := fun i => if i = 0 then 2 else 4) rfl (by decide +kernel) (by decide +kernel)
    (by decide +kernel)
  convert this using 2
  decide +kernel

end Pooya.C41
