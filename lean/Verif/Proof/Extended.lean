import Verif.Spec.Extended
import Verif.Model.Extended
import Verif.Proof.Rounding

/-! The loop of `run` in arithmetic with overflow and values that are no numbers. -/

namespace Pooya

set_option linter.unusedSectionVars false

section
variable {K : Type} [Arith K]

/-- The step size is kept, halved or doubled. -/
def HalvingK (t1 t2 nh : K) : Prop := nh = (t2 -. t1) /. Arith.lit 2 ∨ nh = t2 -. t1 ∨ nh = Arith.lit 2 *. (t2 -. t1)

theorem halvingK_provided : ∀ st ∈ ([euler, rk4, rkf45] : List (Stepper K)), ∀ t1 x t2, (st t1 x t2).Answers (HalvingK t1 t2) := by
  intro st hst t1 x t2
  simp only [List.mem_cons, List.not_mem_nil, or_false] at hst
  rcases hst with rfl | rfl | rfl
  · intro r; exact .inr (.inl rfl)
  · intro _ _ _ _; exact .inr (.inl rfl)
  · intro _ _ _ _ _ _
    show HalvingK t1 t2 (rkf45NewH (t2 -. t1) _)
    have key : ∀ (c d : Bool) (h : K), (if c = true then h /. Arith.lit 2 else if d = true then Arith.lit 2 *. h else h) = h /. Arith.lit 2 ∨
        (if c = true then h /. Arith.lit 2 else if d = true then Arith.lit 2 *. h else h) = h ∨
        (if c = true then h /. Arith.lit 2 else if d = true then Arith.lit 2 *. h else h) = Arith.lit 2 *. h := by
      intro c d h
      cases c <;> cases d <;> simp
    exact key _ _ _

end

section
variable {K F : Type} [Arith K] [_root_.Field F] [LinearOrder F] [IsStrictOrderedRing F] {num : F → K} {rnd : F → F} {R ρ a t minH maxH : F}

namespace Hosts

theorem min (h : Hosts num rnd R) (x y : F) : fmin (num x) (num y) = num (Min.min x y) := by
  rw [← rounded_fmin (rnd := rnd)]
  unfold fmin
  rw [h.lt]
  exact (apply_ite num _ _ _).symm

theorem max (h : Hosts num rnd R) (x y : F) : fmax (num x) (num y) = num (Max.max x y) := by
  rw [← rounded_fmax (rnd := rnd)]
  unfold fmax
  rw [h.lt]
  exact (apply_ite num _ _ _).symm

theorem ahead (h : Hosts num rnd R) (hf : Resolved rnd R ρ a t minH maxH) {s n : F} (h1 : a ≤ s) (h2 : s ≤ t) :
    num s +. fmax (num minH) (fmin (num n) (num maxH)) = num (rnd (s + Max.max minH (Min.min n maxH))) := by
  obtain ⟨k1, k2⟩ := clamp_bounds hf.lt n
  rw [h.min, h.max, h.add _ _ (abs_le.2 ⟨?_, ?_⟩)]
  · linarith [neg_abs_le a, hf.left, hf.pos, k1, hf.lt]
  · linarith [le_abs_self t, hf.right]

theorem length (h : Hosts num rnd R) (hf : Resolved rnd R ρ a t minH maxH) {t1 t2 : F} (h1 : a ≤ t1) (h2 : t1 ≤ t2) (h3 : t2 ≤ t) :
    num t2 -. num t1 = num (rnd (t2 - t1)) :=
  h.sub _ _ (abs_le.2 ⟨by linarith [hf.length, abs_nonneg a, hf.left, hf.pos, hf.lt], by linarith [hf.length]⟩)

theorem halving (h : Hosts num rnd R) (hf : Resolved rnd R ρ a t minH maxH) (h2 : 2 * (t - a) + minH ≤ R) {t1 t2 : F} (k1 : a ≤ t1) (k2 : t1 ≤ t2) (k3 : t2 ≤ t) {nh : K}
    (hh : HalvingK (num t1) (num t2) nh) : ∃ n, nh = num n ∧ HalvingR rnd t1 t2 n := by
  have hd := abs_le.1 (hf.sub k1 k2 k3)
  have hc := hf.coarse
  have hρ := hf.rho
  have h0 : (0 : F) ≤ rnd (t2 - t1) := by
    have := hf.rounding.mono (show (0 : F) ≤ t2 - t1 by linarith)
    rwa [hf.rounding.zero] at this
  unfold HalvingK at hh
  rw [h.length hf k1 k2 k3, h.two] at hh
  rcases hh with rfl | rfl | rfl
  · exact ⟨_, h.div _ _ two_ne_zero (abs_le.2 ⟨by linarith [hf.pos], by linarith [hf.pos]⟩), .inl rfl⟩
  · exact ⟨_, rfl, .inr (.inl rfl)⟩
  · exact ⟨_, h.mul _ _ (abs_le.2 ⟨by linarith [hf.pos], by linarith [hf.pos]⟩), .inr (.inr rfl)⟩

theorem accepted (h : Hosts num rnd R) (hf : Resolved rnd R ρ a t minH maxH) {t1 t2 n : F} (k1 : a ≤ t1) (k2 : t1 ≤ t2) (k3 : t2 ≤ t) (f : Bool) :
    (f || (num t2 -. num t1) <=. num n || (num t2 -. num t1) <=. num minH) = (f || decide (rnd (t2 - t1) ≤ n) || decide (rnd (t2 - t1) ≤ minH)) := by
  rw [h.length hf k1 k2 k3, h.le, h.le]

/-- The loop ends. -/
theorem ends (h : Hosts num rnd R) (hf : Resolved rnd R ρ a t minH maxH) (h2 : 2 * (t - a) + minH ≤ R) {n : Nat} {t1 t2 : F} {f : Bool}
    (he : @Ends F (Arith.rounded rnd) (HalvingR rnd) t minH maxH n t1 t2 f) (k1 : a ≤ t1) (k2 : t1 < t → t1 < t2 ∧ t2 ≤ t ∧ rnd t2 = t2) :
    Ends HalvingK (num t) (num minH) (num maxH) n (num t1) (num t2) f := by
  let _ := Arith.rounded rnd
  induction he with
  | stop e => exact .stop ((h.lt _ _).trans e)
  | @step n t1 t2 f _ _ ih1 ih2 =>
    by_cases hlt : t1 < t
    · obtain ⟨q1, q2, q3⟩ := k2 hlt
      refine .step (fun nh hh e => ?_) (fun nh hh e => ?_)
      · obtain ⟨x, rfl, hx⟩ := h.halving hf h2 k1 q1.le q2 hh
        rw [h.accepted hf k1 q1.le q2] at e
        rw [h.ahead hf (k1.trans q1.le) q2, h.min]
        have := ih1 x hx e (k1.trans q1.le) (fun e' => by
          rw [rounded_fmin, rounded_fmax, rounded_fmin]
          obtain ⟨j1, j2, _⟩ := hf.next (nh := x) (k1.trans q1.le) e'
          exact ⟨j2, min_le_right _ _, j1⟩)
        rw [rounded_fmin, rounded_fmax, rounded_fmin] at this
        exact this
      · obtain ⟨x, rfl, hx⟩ := h.halving hf h2 k1 q1.le q2 hh
        rw [h.accepted hf k1 q1.le q2] at e
        rw [h.ahead hf k1 (q1.le.trans q2), h.le]
        have e' := e
        simp only [Bool.or_eq_false_iff] at e'
        have e1 : rnd (t2 - t1) > x := not_le.1 (of_decide_eq_false e'.1.2)
        have e2 : minH < rnd (t2 - t1) := not_le.1 (of_decide_eq_false e'.2)
        have := ih2 x hx e k1 (fun _ => by
          rw [rounded_fmax, rounded_fmin]
          show t1 < rnd (t1 + Max.max minH (Min.min x maxH)) ∧ rnd (t1 + Max.max minH (Min.min x maxH)) ≤ t ∧ _
          have k3 := hf.forward (nh := x) k1 hlt.le
          have hd : 0 < minH - ρ := by linarith [hf.coarse, hf.pos, hf.rho]
          exact ⟨by linarith, (hf.shorter k1 q1 q2 q3 hx e1 e2).1.trans q2, hf.rounding.idem _⟩)
        rw [rounded_fmax, rounded_fmin] at this
        exact this
    · exact .stop ((h.lt _ _).trans (decide_eq_false hlt))

/-- The accepted steps follow each other and end at `t`. -/
theorem tiles [LT K] (hlt' : ∀ x y : F, x < y → num x < num y) (h : Hosts num rnd R) (hf : Resolved rnd R ρ a t minH maxH) (h2 : 2 * (t - a) + minH ≤ R) {s1 s2 : K}
    {f c : Bool} {es : List (StepEv K)} (ht : LoopTrace HalvingK (num t) (num minH) (num maxH) s1 s2 f es c) {t1 t2 : F} (e1 : s1 = num t1) (e2 : s2 = num t2)
    (k1 : a ≤ t1) (k2 : t1 < t → t1 < t2 ∧ t2 ≤ t ∧ rnd t2 = t2) :
    ∃ u, Tiles s1 u (es.filterMap StepEv.accept?) ∧ (c = true → t1 ≤ t → u = num t) := by
  induction ht generalizing t1 t2 with
  | stop e =>
    subst e1
    rw [h.lt] at e
    exact ⟨_, .done, fun _ h3 => congrArg num (le_antisymm h3 (not_lt.1 (of_decide_eq_false e)))⟩
  | cut => exact ⟨_, .done, fun e => by cases e⟩
  | cutTrial _ => exact ⟨_, .done, fun e => by cases e⟩
  | cutAccept hlt =>
    subst e1 e2
    rw [h.lt] at hlt
    exact ⟨_, .step (hlt' _ _ (k2 (of_decide_eq_true hlt)).1) .done, fun e => by cases e⟩
  | @accept s1 s2 f nh es c hlt hh _ _ ih =>
    subst e1 e2
    rw [h.lt] at hlt
    obtain ⟨q1, q2, q3⟩ := k2 (of_decide_eq_true hlt)
    obtain ⟨x, rfl, hx⟩ := h.halving hf h2 k1 q1.le q2 hh
    obtain ⟨u, i3, i4⟩ := ih rfl (by rw [h.ahead hf (k1.trans q1.le) q2, h.min]) (k1.trans q1.le) (fun e => by
      obtain ⟨j1, j2, _⟩ := hf.next (nh := x) (s := t2) (k1.trans q1.le) e
      exact ⟨j2, min_le_right _ _, j1⟩)
    exact ⟨u, .step (hlt' _ _ q1) i3, fun hc _ => i4 hc q2⟩
  | @reject s1 s2 f nh es c hlt hh hacc _ ih =>
    subst e1 e2
    rw [h.lt] at hlt
    obtain ⟨q1, q2, q3⟩ := k2 (of_decide_eq_true hlt)
    obtain ⟨x, rfl, hx⟩ := h.halving hf h2 k1 q1.le q2 hh
    rw [h.accepted hf k1 q1.le q2] at hacc
    simp only [Bool.or_eq_false_iff] at hacc
    have e1 : rnd (t2 - t1) > x := not_le.1 (of_decide_eq_false hacc.1.2)
    have e2 : minH < rnd (t2 - t1) := not_le.1 (of_decide_eq_false hacc.2)
    exact ih rfl (h.ahead hf k1 (q1.le.trans q2)) k1 (fun e => by
      have k3 := hf.forward (nh := x) k1 e.le
      have hd : 0 < minH - ρ := by linarith [hf.coarse, hf.pos, hf.rho]
      exact ⟨by linarith, (hf.shorter k1 q1 q2 q3 hx e1 e2).1.trans q2, hf.rounding.idem _⟩)

end Hosts

/-- IEEE 754 arithmetic has the numbers it should. -/
theorem hosts_extended {M : F} (hr : Rounding rnd R ρ) (hM : ∀ x, |x| ≤ R → |rnd x| ≤ M) (h2 : 2 ≤ M) : @Hosts (Ext F) F (Arith.extended rnd M) _ _ Ext.num rnd R := by
  let _ := Arith.extended rnd M
  have key : ∀ x, |x| ≤ R → Ext.fit rnd M x = Ext.num (rnd x) := fun x hx => if_pos (hM x hx)
  refine ⟨fun x y h => key _ h, fun x y h => ?_, fun x y h => key _ h, fun x y hy h => ?_, fun x y => rfl, fun x y => rfl, fun x y => rfl, ?_, ?_⟩
  · show Ext.fit rnd M (x + -y) = _
    rw [← sub_eq_add_neg, key _ h]
  · show (if y = 0 then _ else Ext.fit rnd M (x / y)) = _
    rw [if_neg hy, key _ h]
  · show Ext.fit rnd M ((0 : ℚ) : F) = _
    unfold Ext.fit
    rw [Rat.cast_zero, hr.zero, abs_zero, if_pos (by linarith)]
  · show Ext.fit rnd M ((2 : ℚ) : F) = _
    unfold Ext.fit
    rw [show ((2 : ℚ) : F) = 2 by norm_num, hr.two, abs_of_pos two_pos, if_pos h2]

end

end Pooya
