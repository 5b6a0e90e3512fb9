import Mathlib.Algebra.Module.LinearMap.Defs
import Verif.Proof.Stepper

/-! # C45 — Polynomial and linear exactness -/

set_option linter.unusedSectionVars false

namespace Pooya.C45

variable {K : Type} [Field K] [LinearOrder K] [IsStrictOrderedRing K]
attribute [local instance] Arith.exact

/-- The cubic with coefficients `a b c d`, in each component. -/
def cubic {n : Nat} (a b c d : Fin n → K) (t : K) (i : Fin n) : K := a i + b i * t + c i * t ^ 2 + d i * t ^ 3

/-- Its antiderivative. -/
def quartic {n : Nat} (a b c d : Fin n → K) (t : K) (i : Fin n) : K :=
  a i * t + b i * t ^ 2 / 2 + c i * t ^ 3 / 3 + d i * t ^ 4 / 4

/-- `Euler` integrates constant right-hand sides exactly. -/
theorem C45_euler {n : Nat} (a : Fin n → K) (t0 : K) (v0 : Fin n → K) (t1 : K) :
    (euler t0 (List.ofFn v0) t1).exec (m := Id) (onLists fun _ _ => a) =
      (List.ofFn (fun i => v0 i + a i * (t1 - t0)), t1 - t0) := by
  rw [euler_step]
  congr 2
  funext i
  simp [Tableau.step, Tableau.euler, Tableau.slopes, Tableau.comb]
  ring

/-- `Rk4` integrates cubic polynomials of time exactly. -/
theorem C45_rk4 {n : Nat} (a b c d : Fin n → K) (t0 : K) (v0 : Fin n → K) (t1 : K) :
    (rk4 t0 (List.ofFn v0) t1).exec (m := Id) (onLists fun t _ => cubic a b c d t) =
      (List.ofFn (fun i => v0 i + (quartic a b c d t1 i - quartic a b c d t0 i)), t1 - t0) := by
  rw [rk4_step]
  congr 2
  funext i
  simp [Tableau.step, Tableau.rk4, Tableau.slopes, Tableau.comb, cubic, quartic]
  ring

/-- `Rkf45` integrates cubic polynomials of time exactly, finds no error and proposes the same step. -/
theorem C45_rkf45 {n : Nat} (a b c d : Fin n → K) (t0 : K) (v0 : Fin n → K) (t1 : K) :
    (rkf45 t0 (List.ofFn v0) t1).exec (m := Id) (onLists fun t _ => cubic a b c d t) =
      (List.ofFn (fun i => v0 i + (quartic a b c d t1 i - quartic a b c d t0 i)), t1 - t0) := by
  rw [rkf45_step]
  have h4 : Tableau.fehlberg4.step (fun t _ => cubic a b c d t) t0 v0 (t1 - t0) =
      fun i => v0 i + (quartic a b c d t1 i - quartic a b c d t0 i) := by
    funext i
    simp [Tableau.step, Tableau.fehlberg4, Tableau.fehlbergStages, Tableau.slopes, Tableau.comb, cubic, quartic]
    ring
  have h5 : Tableau.fehlberg5.step (fun t _ => cubic a b c d t) t0 v0 (t1 - t0) =
      fun i => v0 i + (quartic a b c d t1 i - quartic a b c d t0 i) := by
    funext i
    simp [Tableau.step, Tableau.fehlberg5, Tableau.fehlbergStages, Tableau.slopes, Tableau.comb, cubic, quartic]
    ring
  rw [h4, h5, (maxAbs_zero _).2 (by simp [List.mem_ofFn])]
  norm_num [rkf45NewH]

/-- On a linear system `x' = A x` a step multiplies by the truncated exponential series. -/
theorem C45_linear {n : Nat} (A : (Fin n → K) →ₗ[K] (Fin n → K)) (t0 : K) (v0 : Fin n → K) (h : K) :
    ((euler t0 (List.ofFn v0) (t0 + h)).exec (m := Id) (onLists fun _ => A)).1 = List.ofFn (v0 + h • A v0) ∧
    ((rk4 t0 (List.ofFn v0) (t0 + h)).exec (m := Id) (onLists fun _ => A)).1 = List.ofFn
      (v0 + h • A v0 + (h ^ 2 / 2) • A (A v0) + (h ^ 3 / 6) • A (A (A v0)) + (h ^ 4 / 24) • A (A (A (A v0)))) ∧
    ((rkf45 t0 (List.ofFn v0) (t0 + h)).exec (m := Id) (onLists fun _ => A)).1 = List.ofFn
      (v0 + h • A v0 + (h ^ 2 / 2) • A (A v0) + (h ^ 3 / 6) • A (A (A v0)) + (h ^ 4 / 24) • A (A (A (A v0))) +
        (h ^ 5 / 104) • A (A (A (A (A v0))))) := by
  rw [euler_step, rk4_step, rkf45_step]
  simp only [add_sub_cancel_left]
  refine ⟨?_, ?_, ?_⟩
  · congr 1
    simp [Tableau.step, Tableau.euler, Tableau.slopes, Tableau.comb]
  · congr 1
    funext i
    simp [Tableau.step, Tableau.rk4, Tableau.slopes, Tableau.comb]
    ring
  · congr 1
    funext i
    simp [Tableau.step, Tableau.fehlberg4, Tableau.fehlbergStages, Tableau.slopes, Tableau.comb]
    ring

/-- On `x' = a x`, with `z = a h`. -/
theorem C45_exponential {n : Nat} (a t0 : K) (v0 : Fin n → K) (h : K) :
    ((rk4 t0 (List.ofFn v0) (t0 + h)).exec (m := Id) (onLists (n := n) fun _ x => a • x)).1 = List.ofFn
      ((1 + a * h + (a * h) ^ 2 / 2 + (a * h) ^ 3 / 6 + (a * h) ^ 4 / 24) • v0) := by
  rw [rk4_step]
  simp only [add_sub_cancel_left]
  congr 1
  funext i
  simp [Tableau.step, Tableau.rk4, Tableau.slopes, Tableau.comb]
  ring

/-- One component, `x' = 1 + 4 t^3` from `t = 1` to `t = 3`: 2 + 80 more. -/
example : @Eq (List ℚ × ℚ) ((rk4 1 [5] 3).exec (m := Id) (onLists (n := 1) fun t _ => cubic 1 0 0 4 t)) ([87], 2) := by
  decide +kernel

end Pooya.C45
