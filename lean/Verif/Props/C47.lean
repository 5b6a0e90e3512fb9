import Mathlib.Algebra.BigOperators.Fin
import Mathlib.Algebra.Module.LinearMap.Defs
import Mathlib.Data.Fin.VecNotation
import Verif.Proof.StepRel

/-! # C47 — Steppers are equivariant and keep linear invariants -/

set_option linter.unusedSectionVars false

namespace Pooya.C47

/-- In any arithmetic `Euler` and `Rk4` commute with rearranging the components of the state: the right-hand side
is called at the same times with rearranged states, and as long as it returns rearranged slopes the result is
rearranged and the proposed step is the same. -/
theorem C47_equivariant {K : Type} [Arith K] (idx : List Nat) (t0 t1 : K) (v v' : List K) (h : Rearranged idx v v') :
    (euler t0 v t1).Related (Rearranged idx) (euler t0 v' t1) ∧ (rk4 t0 v t1).Related (Rearranged idx) (rk4 t0 v' t1) :=
  ⟨euler_rel t0 t1 h, rk4_rel t0 t1 h⟩

theorem related_exec {K : Type} (R : List K → List K → Prop) (f f' : K → List K → List K)
    (hf : ∀ t v v', R v v' → R (f t v) (f' t v')) (p p' : StepProg K) (h : p.Related R p') :
    R (p.exec (m := Id) f).1 (p'.exec (m := Id) f').1 ∧ (p.exec (m := Id) f).2 = (p'.exec (m := Id) f').2 := by
  induction p generalizing p' with
  | ret v h0 =>
    cases p' with
    | ret v' h' => exact h
    | call => exact h.elim
  | call t v k ih =>
    cases p' with
    | ret => exact h.elim
    | call t' v' k' =>
      obtain ⟨rfl, h2, h3⟩ := h
      exact ih (f t v) (k' (f' t v')) (h3 _ _ (hf t v v' h2))

/-- For right-hand sides that are rearrangements of each other, a step of `Euler` or `Rk4` gives rearranged results
and proposes the same step. -/
theorem C47_permuted_step {K : Type} [Arith K] (idx : List Nat) (f f' : K → List K → List K)
    (hf : ∀ t v v', Rearranged idx v v' → Rearranged idx (f t v) (f' t v')) (t0 t1 : K) (v v' : List K)
    (h : Rearranged idx v v') (st : Stepper K) (hst : st = euler ∨ st = rk4) :
    Rearranged idx ((st t0 v t1).exec (m := Id) f).1 ((st t0 v' t1).exec (m := Id) f').1 ∧
      ((st t0 v t1).exec (m := Id) f).2 = ((st t0 v' t1).exec (m := Id) f').2 := by
  rcases hst with rfl | rfl
  · exact related_exec _ _ _ hf _ _ (euler_rel t0 t1 h)
  · exact related_exec _ _ _ hf _ _ (rk4_rel t0 t1 h)

section
variable {K : Type} [Field K] [LinearOrder K] [IsStrictOrderedRing K]
attribute [local instance] Arith.exact

/-- In exact arithmetic `Rkf45` commutes with permuting the components. -/
theorem C47_equivariant_rkf45 (idx : List Nat) (hi : idx.Perm (List.range idx.length)) (t0 t1 : K) (v v' : List K)
    (h : Rearranged idx v v') : (rkf45 t0 v t1).Related (Rearranged idx) (rkf45 t0 v' t1) := rkf45_rel hi t0 t1 h

/-- The same for `Rkf45`. -/
theorem C47_permuted_step_rkf45 (idx : List Nat) (hi : idx.Perm (List.range idx.length)) (f f' : K → List K → List K)
    (hf : ∀ t v v', Rearranged idx v v' → Rearranged idx (f t v) (f' t v')) (t0 t1 : K) (v v' : List K)
    (h : Rearranged idx v v') :
    Rearranged idx ((rkf45 t0 v t1).exec (m := Id) f).1 ((rkf45 t0 v' t1).exec (m := Id) f').1 ∧
      ((rkf45 t0 v t1).exec (m := Id) f).2 = ((rkf45 t0 v' t1).exec (m := Id) f').2 :=
  related_exec _ _ _ hf _ _ (rkf45_rel hi t0 t1 h)

variable {V : Type} [AddCommGroup V] [Module K V]

theorem comb_zero (φ : V →ₗ[K] K) (a : List ℚ) (ks : List V) (h : ∀ k ∈ ks, φ k = 0) : φ (Tableau.comb K a ks) = 0 := by
  induction ks generalizing a with
  | nil => cases a <;> simp [Tableau.comb]
  | cons k ks ih =>
    cases a with
    | nil => simp [Tableau.comb]
    | cons q a =>
      have h1 := ih a (fun k hk => h k (List.mem_cons_of_mem _ hk))
      have h2 := h k (List.mem_cons_self ..)
      simp only [Tableau.comb] at h1
      simp [Tableau.comb, h1, h2]

theorem slopes_zero (φ : V →ₗ[K] K) (f : K → V → V) (hf : ∀ t v, φ (f t v) = 0) (t : K) (v : V) (h : K)
    (st : List (ℚ × List ℚ)) (ks : List V) (hk : ∀ k ∈ ks, φ k = 0) : ∀ k ∈ Tableau.slopes f t v h st ks, φ k = 0 := by
  induction st generalizing ks with
  | nil => exact hk
  | cons c st ih =>
    obtain ⟨c, a⟩ := c
    refine ih _ (fun k hm => ?_)
    rcases List.mem_append.1 hm with hm | hm
    · exact hk k hm
    · rw [List.mem_singleton.1 hm]; exact hf _ _

theorem step_invariant (T : Tableau) (φ : V →ₗ[K] K) (f : K → V → V) (hf : ∀ t v, φ (f t v) = 0) (t : K) (v : V) (h : K) :
    φ (T.step f t v h) = φ v := by
  simp [Tableau.step, comb_zero φ T.b _ (slopes_zero φ f hf t v h T.stages [] (by simp))]

/-- A linear quantity whose rate vanishes along the right-hand side has the same value before and after a step of
any of the steppers. -/
theorem C47_linear_invariant {n : Nat} (c : Fin n → K) (f : K → (Fin n → K) → Fin n → K)
    (hf : ∀ t v, ∑ i, c i * f t v i = 0) (t0 : K) (v0 : Fin n → K) (t1 : K) (st : Stepper K)
    (hst : st = euler ∨ st = rk4 ∨ st = rkf45) :
    ∃ v1, ((st t0 (List.ofFn v0) t1).exec (m := Id) (onLists f)).1 = List.ofFn v1 ∧ ∑ i, c i * v1 i = ∑ i, c i * v0 i := by
  let φ : (Fin n → K) →ₗ[K] K :=
    { toFun := fun v => ∑ i, c i * v i
      map_add' := fun x y => by simp [mul_add, Finset.sum_add_distrib]
      map_smul' := fun a x => by simp [Finset.mul_sum, mul_left_comm] }
  rcases hst with rfl | rfl | rfl
  · exact ⟨_, by rw [euler_step], step_invariant _ φ f hf _ _ _⟩
  · exact ⟨_, by rw [rk4_step], step_invariant _ φ f hf _ _ _⟩
  · exact ⟨_, by rw [rkf45_step], step_invariant _ φ f hf _ _ _⟩

/-- The sum of the states of the exchange `x' = y - x, y' = x - y`. -/
example : ∀ (t : ℚ) (v : Fin 2 → ℚ), ∑ i, (1 : ℚ) * (fun (_ : ℚ) (v : Fin 2 → ℚ) => ![v 1 - v 0, v 0 - v 1]) t v i = 0 := by
  intro t v
  simp [Fin.sum_univ_two]

end

/-- The second and the first of two components. -/
example : Rearranged [1, 0] [(3 : ℚ), 4] [4, 3] ∧ [1, 0].Perm (List.range [1, 0].length) := by
  refine ⟨⟨rfl, fun j => ?_⟩, by decide⟩
  match j with
  | 0 => rfl
  | 1 => rfl
  | j + 2 => simp

end Pooya.C47
