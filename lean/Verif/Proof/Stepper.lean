import Mathlib.Algebra.Module.Pi
import Mathlib.Algebra.BigOperators.Pi
import Mathlib.Tactic.Ring
import Mathlib.Tactic.FieldSimp
import Mathlib.Tactic.NormNum
import Mathlib.Tactic.Linarith
import Verif.Model.Field
import Verif.Spec.RungeKutta

/-! Lemmas about the vector operations of the steppers. -/

set_option linter.unusedSectionVars false

namespace Pooya

variable {K : Type} [Field K] [LinearOrder K] [IsStrictOrderedRing K]
attribute [local instance] Arith.exact

theorem vadd_ofFn {n : Nat} (a b : Fin n → K) : vadd (List.ofFn a) (List.ofFn b) = List.ofFn (a + b) := by
  apply List.ext_getElem <;> simp [vadd]

theorem vsub_ofFn {n : Nat} (a b : Fin n → K) : vsub (List.ofFn a) (List.ofFn b) = List.ofFn (a - b) := by
  apply List.ext_getElem <;> simp [vsub]

theorem vsmul_ofFn {n : Nat} (c : K) (a : Fin n → K) : vsmul c (List.ofFn a) = List.ofFn (c • a) := by
  apply List.ext_getElem <;> simp [vsmul]

theorem onLists_ofFn {n : Nat} (f : K → (Fin n → K) → Fin n → K) (t : K) (v : Fin n → K) :
    onLists f t (List.ofFn v) = List.ofFn (f t v) := by
  unfold onLists
  congr 2
  funext i
  simp

theorem exec_call {m : Type → Type} [Monad m] (f : K → List K → m (List K)) (t : K) (v : List K) (k : List K → StepProg K) :
    (StepProg.call t v k).exec f = (do let r ← f t v; (k r).exec f) := rfl

theorem exec_ret {m : Type → Type} [Monad m] (f : K → List K → m (List K)) (v : List K) (h : K) :
    (StepProg.ret v h).exec f = pure (v, h) := rfl

theorem euler_step {n : Nat} (f : K → (Fin n → K) → Fin n → K) (t0 : K) (v0 : Fin n → K) (t1 : K) :
    (euler t0 (List.ofFn v0) t1).exec (m := Id) (onLists f) =
      (List.ofFn (Tableau.euler.step f t0 v0 (t1 - t0)), t1 - t0) := by
  show ((vadd _ (vsmul _ (onLists f t0 (List.ofFn v0))), _) : List K × K) = _
  simp only [onLists_ofFn, vadd_ofFn, vsmul_ofFn, exact_sub]
  congr 2
  simp [Tableau.step, Tableau.euler, Tableau.slopes, Tableau.comb]

/-- One stage of a tableau, with the arguments of the right-hand side in another form. -/
theorem slopes_cons {V : Type} [AddCommGroup V] [Module K V] (f : K → V → V) (t : K) (v : V) (h : K) (c : ℚ) (a : List ℚ)
    (st : List (ℚ × List ℚ)) (ks : List V) {t' : K} {v' : V} (ht : t' = t + (c : K) * h)
    (hv : v' = v + h • Tableau.comb K a ks) :
    Tableau.slopes f t v h ((c, a) :: st) ks = Tableau.slopes f t v h st (ks ++ [f t' v']) := by
  subst ht hv; rfl

theorem rk4_step {n : Nat} (f : K → (Fin n → K) → Fin n → K) (t0 : K) (v0 : Fin n → K) (t1 : K) :
    (rk4 t0 (List.ofFn v0) t1).exec (m := Id) (onLists f) =
      (List.ofFn (Tableau.rk4.step f t0 v0 (t1 - t0)), t1 - t0) := by
  simp only [rk4, exec_call, exec_ret, pure, bind]
  simp only [onLists_ofFn, vadd_ofFn, vsmul_ofFn, exact_sub, exact_div, exact_lit, exact_add]
  congr 2
  generalize t1 - t0 = h
  generalize hk1 : f t0 v0 = k1
  generalize hk2 : f _ (v0 + (h / _) • k1) = k2
  generalize hk3 : f _ (v0 + (h / _) • k2) = k3
  generalize hk4 : f _ (v0 + h • k3) = k4
  unfold Tableau.step Tableau.rk4
  simp only
  rw [slopes_cons f t0 v0 h _ _ _ _ (t' := t0) (v' := v0) (by simp) (by simp [Tableau.comb]), hk1]
  rw [slopes_cons f t0 v0 h _ _ _ _ (v' := _) ?_ ?_, hk2]
  rw [slopes_cons f t0 v0 h _ _ _ _ (v' := _) ?_ ?_, hk3]
  rw [slopes_cons f t0 v0 h _ _ _ _ (v' := _) ?_ ?_, hk4]
  · funext i; simp [Tableau.comb, Tableau.slopes]; ring
  · push_cast; ring
  · funext i; simp [Tableau.comb]
  · push_cast; ring
  · funext i; simp [Tableau.comb]; ring
  · push_cast; ring
  · funext i; simp [Tableau.comb]; ring


/-- The order-5 result of a step of `Rkf45`. -/
theorem rkf45_step {n : Nat} (f : K → (Fin n → K) → Fin n → K) (t0 : K) (v0 : Fin n → K) (t1 : K) :
    (rkf45 t0 (List.ofFn v0) t1).exec (m := Id) (onLists f) =
      (List.ofFn (Tableau.fehlberg4.step f t0 v0 (t1 - t0)),
        rkf45NewH (t1 - t0) (maxAbs (List.ofFn (Tableau.fehlberg4.step f t0 v0 (t1 - t0) -
          Tableau.fehlberg5.step f t0 v0 (t1 - t0))))) := by
  simp only [rkf45, exec_call, exec_ret, pure, bind]
  simp only [onLists_ofFn, vadd_ofFn, vsub_ofFn, vsmul_ofFn, exact_sub, exact_div, exact_lit, exact_add, exact_mul]
  obtain ⟨h, rfl⟩ : ∃ h, t1 = t0 + h := ⟨t1 - t0, by ring⟩
  simp only [add_sub_cancel_left]
  generalize hk1 : f t0 v0 = k1
  generalize hk2 : f _ (v0 + (_ : K) • h • k1) = k2
  generalize hk3 : f _ (v0 + (_ : K) • h • k1 + (_ : K) • h • k2) = k3
  generalize hk4 : f _ (v0 + (_ : K) • h • k1 - (_ : K) • h • k2 + (_ : K) • h • k3) = k4
  generalize hk5 : f _ (v0 + (_ : K) • h • k1 - (_ : K) • h • k2 + (_ : K) • h • k3 - (_ : K) • h • k4) = k5
  generalize hk6 : f _ (v0 - (_ : K) • h • k1 + (_ : K) • h • k2 - (_ : K) • h • k3 + (_ : K) • h • k4 - (_ : K) • h • k5) = k6
  have hs : Tableau.slopes f t0 v0 h Tableau.fehlbergStages [] = [k1, k2, k3, k4, k5, k6] := by
    unfold Tableau.fehlbergStages
    rw [slopes_cons f t0 v0 h _ _ _ _ (t' := t0) (v' := v0) (by simp) (by simp [Tableau.comb]), hk1]
    rw [slopes_cons f t0 v0 h _ _ _ _ (v' := _) ?_ ?_, hk2]
    rw [slopes_cons f t0 v0 h _ _ _ _ (v' := _) ?_ ?_, hk3]
    rw [slopes_cons f t0 v0 h _ _ _ _ (v' := _) ?_ ?_, hk4]
    rw [slopes_cons f t0 v0 h _ _ _ _ (v' := _) ?_ ?_, hk5]
    rw [slopes_cons f t0 v0 h _ _ _ _ (v' := _) ?_ ?_, hk6]
    · rfl
    all_goals first | (funext i; simp [Tableau.comb]; ring1) | (push_cast; ring1)
  have h4 : Tableau.fehlberg4.step f t0 v0 h = v0 + (((2375 : ℚ) : K) / ((20520 : ℚ) : K)) • h • k1 +
      (((11264 : ℚ) : K) / ((20520 : ℚ) : K)) • h • k3 + (((10985 : ℚ) : K) / ((20520 : ℚ) : K)) • h • k4 -
      (((4104 : ℚ) : K) / ((20520 : ℚ) : K)) • h • k5 := by
    show v0 + h • Tableau.comb K _ (Tableau.slopes f t0 v0 h Tableau.fehlbergStages []) = _
    rw [hs]
    funext i; simp [Tableau.comb, Tableau.fehlberg4]; ring
  have h5 : Tableau.fehlberg5.step f t0 v0 h = v0 + (((33440 : ℚ) : K) / ((282150 : ℚ) : K)) • h • k1 +
      (((146432 : ℚ) : K) / ((282150 : ℚ) : K)) • h • k3 + (((142805 : ℚ) : K) / ((282150 : ℚ) : K)) • h • k4 -
      (((50787 : ℚ) : K) / ((282150 : ℚ) : K)) • h • k5 + (((10260 : ℚ) : K) / ((282150 : ℚ) : K)) • h • k6 := by
    show v0 + h • Tableau.comb K _ (Tableau.slopes f t0 v0 h Tableau.fehlbergStages []) = _
    rw [hs]
    funext i; simp [Tableau.comb, Tableau.fehlberg5]; ring
  rw [h4, h5]

/-! ### The largest component -/

theorem fmax_eq (a b : K) : fmax a b = max a b := by
  simp only [fmax, exact_lt, decide_eq_true_eq]
  split
  · rw [max_eq_right (le_of_lt ‹_›)]
  · rw [max_eq_left (not_lt.1 ‹_›)]

theorem fmin_eq (a b : K) : fmin a b = min a b := by
  simp only [fmin, exact_lt, decide_eq_true_eq]
  split
  · rw [min_eq_right (le_of_lt ‹_›)]
  · rw [min_eq_left (not_lt.1 ‹_›)]

private theorem foldMax_le (l : List K) (a c : K) :
    l.foldl (fun m x => fmax m (Arith.abs x)) a ≤ c ↔ a ≤ c ∧ ∀ x ∈ l, |x| ≤ c := by
  induction l generalizing a with
  | nil => simp
  | cons x xs ih =>
    rw [List.foldl_cons, ih, fmax_eq]
    simp [and_assoc]

/-- The defining property of the maximum of the absolute values (0 for no components). -/
theorem maxAbs_le (l : List K) (c : K) (hc : 0 ≤ c) : maxAbs l ≤ c ↔ ∀ x ∈ l, |x| ≤ c := by
  cases l with
  | nil => simpa [maxAbs] using hc
  | cons x xs =>
    rw [maxAbs, foldMax_le]
    simp

theorem le_maxAbs (l : List K) {x : K} (hx : x ∈ l) : |x| ≤ maxAbs l := by
  cases l with
  | nil => simp at hx
  | cons y ys =>
    have h := (foldMax_le ys (Arith.abs y) (maxAbs (y :: ys))).1 (le_refl _)
    rcases List.mem_cons.1 hx with rfl | h'
    · exact h.1
    · exact h.2 x h'

theorem maxAbs_nonneg (l : List K) : 0 ≤ maxAbs l := by
  cases l with
  | nil => simp [maxAbs]
  | cons y ys => exact le_trans (abs_nonneg y) (le_maxAbs _ (List.mem_cons_self ..))

theorem maxAbs_congr {l l' : List K} (h : ∀ x, x ∈ l ↔ x ∈ l') : maxAbs l = maxAbs l' := by
  apply le_antisymm
  · exact (maxAbs_le _ _ (maxAbs_nonneg _)).2 fun x hx => le_maxAbs _ ((h x).1 hx)
  · exact (maxAbs_le _ _ (maxAbs_nonneg _)).2 fun x hx => le_maxAbs _ ((h x).2 hx)

theorem maxAbs_zero (l : List K) : maxAbs l = 0 ↔ ∀ x ∈ l, x = 0 := by
  rw [← (maxAbs_nonneg l).ge_iff_eq', maxAbs_le _ _ (le_refl _)]
  simp

private theorem foldMax_mem (l : List K) (a : K) :
    l.foldl (fun m x => fmax m (Arith.abs x)) a = a ∨ ∃ x ∈ l, l.foldl (fun m x => fmax m (Arith.abs x)) a = |x| := by
  induction l generalizing a with
  | nil => exact Or.inl rfl
  | cons x xs ih =>
    rw [List.foldl_cons]
    rcases ih (fmax a (Arith.abs x)) with h | ⟨y, hy, h⟩
    · rw [h, fmax_eq, exact_abs]
      rcases max_choice a |x| with h' | h'
      · exact Or.inl h'
      · exact Or.inr ⟨x, List.mem_cons_self .., h'⟩
    · exact Or.inr ⟨y, List.mem_cons_of_mem _ hy, h⟩

theorem maxAbs_mem (l : List K) (h : 0 < maxAbs l) : ∃ x ∈ l, |x| = maxAbs l := by
  cases l with
  | nil => simp [maxAbs] at h
  | cons y ys =>
    rcases foldMax_mem ys (Arith.abs y) with h' | ⟨x, hx, h'⟩
    · exact ⟨y, List.mem_cons_self .., h'.symm⟩
    · exact ⟨x, List.mem_cons_of_mem _ hx, h'.symm⟩

end Pooya
