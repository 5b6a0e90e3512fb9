import Verif.Proof.Stepper

/-! # C44 — Steppers implement their Runge-Kutta tableaux -/

set_option linter.unusedSectionVars false

namespace Pooya.C44

section
variable {K : Type} [Field K] [LinearOrder K] [IsStrictOrderedRing K]
attribute [local instance] Arith.exact

/-- `Euler::step` is the explicit Euler method, for every right-hand side of any dimension; it proposes the
step it took. -/
theorem C44_euler {n : Nat} (f : K → (Fin n → K) → Fin n → K) (t0 : K) (v0 : Fin n → K) (t1 : K) :
    (euler t0 (List.ofFn v0) t1).exec (m := Id) (onLists f) =
      (List.ofFn (Tableau.euler.step f t0 v0 (t1 - t0)), t1 - t0) := euler_step f t0 v0 t1

/-- `Rk4::step` is the classical Runge-Kutta method. -/
theorem C44_rk4 {n : Nat} (f : K → (Fin n → K) → Fin n → K) (t0 : K) (v0 : Fin n → K) (t1 : K) :
    (rk4 t0 (List.ofFn v0) t1).exec (m := Id) (onLists f) =
      (List.ofFn (Tableau.rk4.step f t0 v0 (t1 - t0)), t1 - t0) := rk4_step f t0 v0 t1

/-- `Rkf45::step` is Fehlberg's method of order 4; the new step size is computed from the largest difference
to Fehlberg's method of order 5. -/
theorem C44_rkf45 {n : Nat} (f : K → (Fin n → K) → Fin n → K) (t0 : K) (v0 : Fin n → K) (t1 : K) :
    (rkf45 t0 (List.ofFn v0) t1).exec (m := Id) (onLists f) =
      (List.ofFn (Tableau.fehlberg4.step f t0 v0 (t1 - t0)),
        rkf45NewH (t1 - t0) (maxAbs (List.ofFn (Tableau.fehlberg4.step f t0 v0 (t1 - t0) -
          Tableau.fehlberg5.step f t0 v0 (t1 - t0))))) := rkf45_step f t0 v0 t1

/-- Every right-hand side evaluation is at a time within the step. -/
theorem C44_times (t0 : K) (v0 : List K) (t1 : K) (h : t0 ≤ t1) :
    (euler t0 v0 t1).AllCalls (fun t _ => t0 ≤ t ∧ t ≤ t1) ∧
    (rk4 t0 v0 t1).AllCalls (fun t _ => t0 ≤ t ∧ t ≤ t1) ∧
    (rkf45 t0 v0 t1).AllCalls (fun t _ => t0 ≤ t ∧ t ≤ t1) := by
  simp only [euler, rk4, rkf45, StepProg.AllCalls, exact_add, exact_sub, exact_mul, exact_div, exact_lit]
  push_cast
  refine ⟨⟨⟨?_, ?_⟩, ?_⟩, ⟨⟨?_, ?_⟩, fun _ => ⟨⟨?_, ?_⟩, fun _ => ⟨⟨?_, ?_⟩, fun _ => ⟨⟨?_, ?_⟩, ?_⟩⟩⟩⟩,
    ⟨⟨?_, ?_⟩, fun _ => ⟨⟨?_, ?_⟩, fun _ => ⟨⟨?_, ?_⟩, fun _ => ⟨⟨?_, ?_⟩, fun _ => ⟨⟨?_, ?_⟩, fun _ => ⟨⟨?_, ?_⟩, ?_⟩⟩⟩⟩⟩⟩⟩
  all_goals first | exact fun _ => trivial | linarith

end

section
variable {K : Type} [Arith K]

private theorem len {n : Nat} (c : K) (a b : List K) (ha : a.length = n) (hb : b.length = n) :
    (vadd a b).length = n ∧ (vsub a b).length = n ∧ (vsmul c a).length = n := by
  simp [vadd, vsub, vsmul, ha, hb]

/-- In any arithmetic: the dimension of the state is kept, both in the calls of the right-hand side and in the
result. -/
theorem C44_dimension (n : Nat) (t0 : K) (v0 : List K) (t1 : K) (hv : v0.length = n) :
    (euler t0 v0 t1).Dim n ∧ (rk4 t0 v0 t1).Dim n ∧ (rkf45 t0 v0 t1).Dim n := by
  refine ⟨⟨hv, fun r hr => ?_⟩, ⟨hv, fun r1 h1 => ⟨?_, fun r2 h2 => ⟨?_, fun r3 h3 => ⟨?_, fun r4 h4 => ?_⟩⟩⟩⟩,
    ⟨hv, fun r1 h1 => ⟨?_, fun r2 h2 => ⟨?_, fun r3 h3 => ⟨?_, fun r4 h4 => ⟨?_, fun r5 h5 => ⟨?_, fun r6 h6 => ?_⟩⟩⟩⟩⟩⟩⟩ <;>
  simp [StepProg.Dim, vadd, vsub, vsmul, *]

end

/-! ### Order conditions -/

theorem order_pos (τ : RTree) : 1 ≤ τ.order := by
  induction τ with
  | one => exact Nat.le_refl 1
  | graft t u h1 h2 => simp only [RTree.order]; omega

/-- All trees with at most `n` nodes. -/
def upto : Nat → List RTree
  | 0 => []
  | n + 1 => .one :: ((upto n).flatMap (fun t => (upto n).map (fun u => .graft t u))).filter (fun τ => τ.order ≤ n + 1)

theorem mem_upto (n : Nat) (τ : RTree) (h : τ.order ≤ n) : τ ∈ upto n := by
  induction n generalizing τ with
  | zero => have := order_pos τ; omega
  | succ n ih =>
    cases τ with
    | one => exact List.mem_cons_self ..
    | graft t u =>
      have h1 := order_pos t
      have h2 := order_pos u
      simp only [RTree.order] at h
      refine List.mem_cons_of_mem _ (List.mem_filter.2 ⟨List.mem_flatMap.2 ⟨t, ih t (by omega), List.mem_map.2 ⟨u, ih u (by omega), rfl⟩⟩, ?_⟩)
      exact decide_eq_true h

/-- The tableaux satisfy all of Butcher's order conditions up to order 1, 4, 4 and 5. -/
theorem C44_order : Tableau.euler.HasOrder 1 ∧ Tableau.rk4.HasOrder 4 ∧ Tableau.fehlberg4.HasOrder 4 ∧
    Tableau.fehlberg5.HasOrder 5 := by
  have key : ∀ (T : Tableau) (p : Nat), (∀ st ∈ T.stages, st.2.sum = st.1) →
      (∀ τ ∈ upto p, (List.zipWith (· * ·) T.b (τ.weights T)).sum = 1 / τ.density) → T.HasOrder p :=
    fun T p h1 h2 => ⟨h1, fun τ hτ => h2 τ (mem_upto p τ hτ)⟩
  refine ⟨key _ _ ?_ ?_, key _ _ ?_ ?_, key _ _ ?_ ?_, key _ _ ?_ ?_⟩ <;> decide +kernel

/-- The orders are not higher. -/
theorem C44_order_sharp : ¬ Tableau.euler.HasOrder 2 ∧ ¬ Tableau.rk4.HasOrder 5 ∧ ¬ Tableau.fehlberg4.HasOrder 5 ∧
    ¬ Tableau.fehlberg5.HasOrder 6 := by
  have key : ∀ (T : Tableau) (p : Nat) (τ : RTree), τ.order ≤ p →
      ¬ (List.zipWith (· * ·) T.b (τ.weights T)).sum = 1 / τ.density → ¬ T.HasOrder p :=
    fun T p τ h1 h2 h => h2 (h.2 τ h1)
  refine ⟨key _ _ (.graft .one .one) ?_ ?_, key _ _ (.graft (.graft (.graft (.graft .one .one) .one) .one) .one) ?_ ?_,
    key _ _ (.graft (.graft (.graft (.graft .one .one) .one) .one) .one) ?_ ?_,
    key _ _ (.graft (.graft (.graft (.graft (.graft .one .one) .one) .one) .one) .one) ?_ ?_⟩ <;> decide +kernel

/-- All five trees with four nodes (as ordered trees), such as the one with three leaves. -/
example : ((upto 4).filter (fun τ => τ.order = 4)).length = 5 ∧
    RTree.density (.graft (.graft (.graft .one .one) .one) .one) = 4 ∧
    RTree.density (.graft .one (.graft .one (.graft .one .one))) = 24 := by decide +kernel

/-- `x' = x + t` with two components, one step of length 1 from (1, 2). -/
example : @Eq (List ℚ × ℚ) ((rk4 0 [1, 2] 1).exec (m := Id) (fun t v => v.map (fun x => x + t))) ([41/12, 49/8], 1) := by
  decide +kernel

end Pooya.C44
