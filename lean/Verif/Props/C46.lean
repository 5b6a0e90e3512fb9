import Verif.Proof.Stepper

/-! # C46 — Rkf45 step-size proposal -/

set_option linter.unusedSectionVars false

namespace Pooya.C46

variable {K : Type} [Field K] [LinearOrder K] [IsStrictOrderedRing K]

section
attribute [local instance] Arith.exact

/-- The largest difference between the results of Fehlberg's methods of order 4 and 5. -/
def IsEstimate {n : Nat} (f : K → (Fin n → K) → Fin n → K) (t0 : K) (v0 : Fin n → K) (t1 : K) (e : K) : Prop :=
  0 ≤ e ∧ (∀ i, |Tableau.fehlberg4.step f t0 v0 (t1 - t0) i - Tableau.fehlberg5.step f t0 v0 (t1 - t0) i| ≤ e) ∧
  (0 < e → ∃ i, |Tableau.fehlberg4.step f t0 v0 (t1 - t0) i - Tableau.fehlberg5.step f t0 v0 (t1 - t0) i| = e)

theorem estimate_maxAbs {n : Nat} (f : K → (Fin n → K) → Fin n → K) (t0 : K) (v0 : Fin n → K) (t1 e : K)
    (he : IsEstimate f t0 v0 t1 e) : maxAbs (List.ofFn (Tableau.fehlberg4.step f t0 v0 (t1 - t0) -
          Tableau.fehlberg5.step f t0 v0 (t1 - t0))) = e := by
  obtain ⟨h0, h1, h2⟩ := he
  apply le_antisymm
  · rw [maxAbs_le _ _ h0]
    intro x hx
    obtain ⟨i, rfl⟩ := List.mem_ofFn.1 hx
    exact h1 i
  · rcases h0.lt_or_eq with hp | hz
    · obtain ⟨i, hi⟩ := h2 hp
      rw [← hi]
      exact le_maxAbs _ (List.mem_ofFn.2 ⟨i, rfl⟩)
    · rw [← hz]; exact maxAbs_nonneg _

theorem newH_three (h e : K) : rkf45NewH h e = h / 2 ∨ rkf45NewH h e = h ∨ rkf45NewH h e = 2 * h := by
  simp only [rkf45NewH, exact_lt, exact_div, exact_mul, exact_lit]
  push_cast
  split <;> split <;> (try split) <;> simp

/-- Whatever the right-hand side returns, the proposal is half, the same or double the attempted step. -/
theorem C46_three_sizes (f : K → List K → List K) (t0 : K) (v0 : List K) (t1 : K) :
    let r := (rkf45 t0 v0 t1).exec (m := Id) f
    r.2 = (t1 - t0) / 2 ∨ r.2 = t1 - t0 ∨ r.2 = 2 * (t1 - t0) := newH_three _ _

/-- With `e` the error estimate and `eps = 0.001`: a smaller step is proposed exactly if
`eps h / (2 e) < 0.75^4`, a larger one exactly if `eps h / (2 e) > 1.5^4`. -/
theorem C46_criterion {n : Nat} (f : K → (Fin n → K) → Fin n → K) (t0 : K) (v0 : Fin n → K) (t1 e : K) (ht : t0 < t1)
    (he : IsEstimate f t0 v0 t1 e) :
    let h := t1 - t0
    let r := (rkf45 t0 (List.ofFn v0) t1).exec (m := Id) (onLists f)
    (r.2 < h ↔ 0 < e ∧ (1 / 1000) * h / (2 * e) < (3 / 4) ^ 4) ∧
    (h < r.2 ↔ 0 < e ∧ (3 / 2) ^ 4 < (1 / 1000) * h / (2 * e)) := by
  simp only [rkf45_step, estimate_maxAbs f t0 v0 t1 e he]
  obtain ⟨h, rfl⟩ : ∃ h, t1 = t0 + h := ⟨t1 - t0, by ring⟩
  have hh : 0 < h := by linarith
  simp only [add_sub_cancel_left, rkf45NewH, exact_lt, exact_div, exact_mul, exact_lit, decide_eq_true_eq]
  push_cast
  have e1 : ((3 : K) / 4) ^ 4 = 31640625 / 100000000 := by norm_num
  have e2 : ((3 : K) / 2) ^ 4 = 50625 / 10000 := by norm_num
  rw [e1, e2]
  by_cases h0 : 0 < e
  · simp only [h0, if_true, true_and]
    by_cases h1 : 1 / 1000 * h / (2 * e) < 31640625 / 100000000
    · simp only [h1, if_true]
      exact ⟨⟨fun _ => trivial, fun _ => by linarith⟩, ⟨fun x => by linarith, fun x => by linarith⟩⟩
    · simp only [h1, if_false, iff_false, not_lt]
      by_cases h2 : (50625 : K) / 10000 < 1 / 1000 * h / (2 * e)
      · simp only [h2, if_true]
        exact ⟨by linarith, ⟨fun _ => trivial, fun _ => by linarith⟩⟩
      · simp only [h2, if_false]
        exact ⟨le_refl _, by simp⟩
  · simp only [h0, if_false, false_and, iff_false, not_lt]
    have n1 : ¬ (1 : K) < 31640625 / 100000000 := by norm_num
    have n2 : ¬ (50625 : K) / 10000 < 1 := by norm_num
    simp [n1, n2]

/-- Every right-hand side has an estimate, zero or not. -/
theorem estimate_exists {n : Nat} (f : K → (Fin n → K) → Fin n → K) (t0 : K) (v0 : Fin n → K) (t1 : K) :
    ∃ e, IsEstimate f t0 v0 t1 e := by
  refine ⟨maxAbs (List.ofFn (Tableau.fehlberg4.step f t0 v0 (t1 - t0) - Tableau.fehlberg5.step f t0 v0 (t1 - t0))),
    maxAbs_nonneg _, fun i => le_maxAbs _ (List.mem_ofFn.2 ⟨i, rfl⟩), fun h => ?_⟩
  obtain ⟨x, hx, hm⟩ := maxAbs_mem _ h
  obtain ⟨i, rfl⟩ := List.mem_ofFn.1 hx
  exact ⟨i, hm⟩

end

theorem bad_div (bad a : K) (q : ℚ) (hq : q ≠ 0) :
    @Arith.div K (exactBad bad) a (@Arith.lit K (exactBad bad) q) =
      @Arith.div K (Arith.exact K) a (@Arith.lit K (Arith.exact K) q) := by
  show (if (q : K) = 0 then bad else a / q) = a / q
  rw [if_neg (by exact_mod_cast hq)]

theorem bad_newH (bad h e : K) : @rkf45NewH K (exactBad bad) h e = @rkf45NewH K (Arith.exact K) h e := by
  unfold rkf45NewH
  have d2 := bad_div bad h 2 (by norm_num)
  by_cases h0 : 0 < e
  · have hb : ∀ a : K, @Arith.div K (exactBad bad) a (@Arith.mul K (exactBad bad) (@Arith.lit K (exactBad bad) 2) e) =
        @Arith.div K (Arith.exact K) a (@Arith.mul K (Arith.exact K) (@Arith.lit K (Arith.exact K) 2) e) := by
      intro a
      show (if (((2 : ℚ) : K) * e) = 0 then bad else _) = _
      rw [if_neg (by push_cast; positivity)]
      rfl
    simp only [hb, d2]
    rfl
  · have h1 : @Arith.lt K (Arith.exact K) (@Arith.lit K (Arith.exact K) 0) e = false := by
      simpa using h0
    have h2 : @Arith.lt K (exactBad bad) (@Arith.lit K (exactBad bad) 0) e = false := h1
    simp only [h1, h2, d2]
    rfl

/-- No division by zero: its value would not matter. -/
theorem C46_no_zero_division (bad : K) (f : K → List K → List K) (t0 : K) (v0 : List K) (t1 : K) :
    (@rkf45 K (exactBad bad) t0 v0 t1).exec (m := Id) f = (@rkf45 K (Arith.exact K) t0 v0 t1).exec (m := Id) f := by
  have d : ∀ (q : ℚ) (hq : q ≠ 0) (a : K), @Arith.div K (exactBad bad) a (@Arith.lit K (exactBad bad) q) =
      @Arith.div K (Arith.exact K) a (@Arith.lit K (Arith.exact K) q) := fun q hq a => bad_div bad a q hq
  unfold rkf45
  simp only [bad_newH, d 4 (by norm_num), d 8 (by norm_num), d 13 (by norm_num), d 169 (by norm_num), d 4104 (by norm_num),
    d 2 (by norm_num), d 10260 (by norm_num), d 20520 (by norm_num), d 282150 (by norm_num)]
  rfl

/-- Both outcomes of the criterion occur: `x' = 1000 x` is too fast for a step of 1, `x' = x / 1000` is not. -/
example : ((rkf45 0 [1] 1).exec (m := Id) (fun _ v => v.map (fun x => (1000 * x : ℚ)))).2 = 1/2 ∧
    ((rkf45 0 [1] 1).exec (m := Id) (fun _ v => v.map (fun x => (x / 1000 : ℚ)))).2 = 2 := by
  decide +kernel

end Pooya.C46
