import Verif.Spec.Rounding
import Verif.Proof.Steps
import Mathlib.Algebra.Order.Archimedean.Basic
import Mathlib.Tactic.Linarith
import Mathlib.Tactic.Positivity

/-! The loop of `run` in arithmetic with rounding. -/

namespace Pooya

set_option linter.unusedSectionVars false

section
variable {F : Type} [_root_.Field F] [LinearOrder F] [IsStrictOrderedRing F] {rnd : F → F} {R ρ a t minH maxH : F}

theorem rounded_fmin (x y : F) : @fmin F (Arith.rounded rnd) x y = min x y := by
  unfold fmin
  show (if decide (y < x) = true then y else x) = _
  rcases le_total x y with h | h
  · rw [if_neg (by simpa using h), min_eq_left h]
  · rcases h.lt_or_eq with h' | rfl
    · rw [if_pos (by simpa using h'), min_eq_right h]
    · simp

theorem rounded_fmax (x y : F) : @fmax F (Arith.rounded rnd) x y = max x y := by
  unfold fmax
  show (if decide (x < y) = true then y else x) = _
  rcases le_total x y with h | h
  · rcases h.lt_or_eq with h' | rfl
    · rw [if_pos (by simpa using h'), max_eq_right h]
    · simp
  · rw [if_neg (by simpa using h), max_eq_left h]

/-- The numbers of a run from `a` to `t` are within the range of the rounding, and the smallest step is well above the rounding errors. -/
structure Resolved (rnd : F → F) (R ρ a t minH maxH : F) : Prop where
  rounding : Rounding rnd R ρ
  left : |a| + maxH ≤ R
  right : |t| + maxH ≤ R
  length : t - a ≤ R
  minRep : rnd minH = minH
  tRep : rnd t = t
  coarse : 16 * ρ ≤ minH
  pos : 0 < minH
  lt : minH < maxH

/-- The step size is kept, halved or doubled. -/
def HalvingR (rnd : F → F) (t1 t2 nh : F) : Prop := nh = rnd (rnd (t2 - t1) / 2) ∨ nh = rnd (t2 - t1) ∨ nh = rnd (2 * rnd (t2 - t1))

theorem Resolved.rho (h : Resolved rnd R ρ a t minH maxH) : 0 ≤ ρ := by
  have h1 := h.rounding.near 0 (by rw [abs_zero]; linarith [abs_nonneg t, h.right, h.pos, h.lt])
  rw [h.rounding.zero] at h1
  simpa using h1

/-- Sums of a time and a step size. -/
theorem Resolved.add (h : Resolved rnd R ρ a t minH maxH) {s c : F} (h1 : a ≤ s) (h2 : s ≤ t) (h3 : 0 ≤ c) (h4 : c ≤ maxH) : |rnd (s + c) - (s + c)| ≤ ρ := by
  refine h.rounding.near _ (abs_le.2 ⟨?_, ?_⟩)
  · linarith [neg_abs_le a, h.left]
  · linarith [le_abs_self t, h.right]

/-- Differences of times. -/
theorem Resolved.sub (h : Resolved rnd R ρ a t minH maxH) {s u : F} (h1 : a ≤ s) (h2 : s ≤ u) (h3 : u ≤ t) : |rnd (u - s) - (u - s)| ≤ ρ := by
  refine h.rounding.near _ (abs_le.2 ⟨?_, ?_⟩)
  · linarith [abs_nonneg a, h.left, h.pos, h.lt]
  · linarith [h.length]

theorem clamp_bounds (h : minH < maxH) (nh : F) : minH ≤ max minH (min nh maxH) ∧ max minH (min nh maxH) ≤ maxH :=
  ⟨le_max_left _ _, max_le h.le (min_le_right _ _)⟩

/-- A step goes forward, by the smallest step but a rounding error. -/
theorem Resolved.forward (h : Resolved rnd R ρ a t minH maxH) {s nh : F} (h1 : a ≤ s) (h2 : s ≤ t) : s + (minH - ρ) ≤ rnd (s + max minH (min nh maxH)) := by
  obtain ⟨k1, k2⟩ := clamp_bounds h.lt nh
  have := (abs_le.1 (h.add h1 h2 (by linarith [h.pos]) k2)).1
  linarith

/-- A rejected step is shortened. -/
theorem Resolved.shorter (h : Resolved rnd R ρ a t minH maxH) {t1 t2 nh : F} (h1 : a ≤ t1) (h2 : t1 < t2) (h3 : t2 ≤ t) (hr : rnd t2 = t2) (hh : HalvingR rnd t1 t2 nh)
    (q1 : nh < rnd (t2 - t1)) (q2 : minH < rnd (t2 - t1)) :
    rnd (t1 + max minH (min nh maxH)) ≤ t2 ∧ (minH < nh → rnd (t1 + max minH (min nh maxH)) - t1 ≤ 3 / 4 * (t2 - t1)) := by
  have hρ := h.rho
  have hmo := h.rounding.mono
  have hd := abs_le.1 (h.sub h1 h2.le h3)
  have hmin : minH ≤ t2 - t1 := by
    by_contra hlt
    have := hmo (not_le.1 hlt).le
    rw [h.minRep] at this
    linarith
  have hR : maxH ≤ R := by linarith [abs_nonneg t, h.right]
  have hnh : nh = rnd (rnd (t2 - t1) / 2) := by
    rcases hh with e | e | e
    · exact e
    · rw [e] at q1; exact absurd q1 (lt_irrefl _)
    · have hp : 0 < rnd (t2 - t1) := lt_trans h.pos q2
      have : rnd (t2 - t1) ≤ nh := by
        rw [e]
        have := hmo (show rnd (t2 - t1) ≤ 2 * rnd (t2 - t1) by linarith)
        rwa [h.rounding.idem] at this
      linarith
  have hhalf := abs_le.1 (h.rounding.near (rnd (t2 - t1) / 2) (abs_le.2 ⟨by linarith [h.pos, h.lt, abs_nonneg t, h.right], by linarith [h.lt, h.length, h.coarse, h.pos]⟩))
  rw [← hnh] at hhalf
  have hc := h.coarse
  have hup : nh ≤ 3 / 4 * (t2 - t1) - ρ := by linarith
  have hle : max minH (min nh maxH) ≤ t2 - t1 := max_le hmin ((min_le_left _ _).trans (by linarith))
  constructor
  · have := hmo (show t1 + max minH (min nh maxH) ≤ t2 by linarith)
    rwa [hr] at this
  · intro hlt
    have hc2 : max minH (min nh maxH) ≤ nh := max_le hlt.le (min_le_left _ _)
    obtain ⟨k1, k2⟩ := clamp_bounds h.lt nh
    have := (abs_le.1 (h.add h1 (h2.le.trans h3) (by linarith [h.pos]) k2)).2
    linarith

/-- After an accepted step. -/
theorem Resolved.next (h : Resolved rnd R ρ a t minH maxH) {s nh : F} (h1 : a ≤ s) (h2 : s < t) :
    rnd (min (rnd (s + max minH (min nh maxH))) t) = min (rnd (s + max minH (min nh maxH))) t ∧ s < min (rnd (s + max minH (min nh maxH))) t ∧
      (minH - ρ ≤ min (rnd (s + max minH (min nh maxH))) t - s ∨ min (rnd (s + max minH (min nh maxH))) t = t) := by
  have hf := h.forward (nh := nh) h1 h2.le
  have hc := h.coarse
  have hp := h.pos
  have hρ := h.rho
  rcases le_total (rnd (s + max minH (min nh maxH))) t with q | q
  · rw [min_eq_left q]
    exact ⟨h.rounding.idem _, by linarith, .inl (by linarith)⟩
  · rw [min_eq_right q]
    exact ⟨h.tRep, h2, .inr rfl⟩

/-- The loop ends. -/
theorem Resolved.ends (h : Resolved rnd R ρ a t minH maxH) {B : Nat} (hB : (3 / 4) ^ B * (t - a) ≤ minH) (N : Nat) :
    ∀ t1, a ≤ t1 → t - t1 ≤ N * (minH - ρ) → ∀ (k : Nat) (t2 : F), rnd t2 = t2 → t2 ≤ t → t1 < t2 → (3 / 4) ^ k * (t2 - t1) ≤ minH →
      (minH - ρ ≤ t2 - t1 ∨ t2 = t) → @Ends F (Arith.rounded rnd) (HalvingR rnd) t minH maxH ((N - 1) * (B + 2) + (k + 2)) t1 t2 false := by
  let _ := Arith.rounded rnd
  have hd : 0 < minH - ρ := by linarith [h.coarse, h.pos, h.rho]
  induction N with
  | zero =>
    intro t1 h1 h2 k t2 _ h3 h4
    simp only [Nat.cast_zero, zero_mul] at h2
    linarith
  | succ N iha =>
    intro t1 h1 hN k
    have hacc : ∀ t2 nh : F, t2 ≤ t → t1 < t2 → (minH - ρ ≤ t2 - t1 ∨ t2 = t) →
        Ends (HalvingR rnd) t minH maxH (N * (B + 2)) t2 (fmin (t2 +. fmax minH (fmin nh maxH)) t) false := by
      intro t2 nh q1 q2 q3
      by_cases ht : t2 < t
      · have q3 : minH - ρ ≤ t2 - t1 := q3.resolve_right (ne_of_lt ht)
        push_cast at hN
        have hN' : t - t2 ≤ N * (minH - ρ) := by linarith
        obtain ⟨N, rfl⟩ : ∃ N', N = N' + 1 := by
          rcases Nat.eq_zero_or_pos N with e | e
          · subst e; simp only [Nat.cast_zero, zero_mul] at hN'; linarith
          · exact ⟨N - 1, by omega⟩
        rw [rounded_fmin, rounded_fmax, rounded_fmin]
        show Ends (HalvingR rnd) t minH maxH _ t2 (min (rnd (t2 + max minH (min nh maxH))) t) false
        obtain ⟨k1, k2, k3⟩ := h.next (nh := nh) (s := t2) (by linarith) ht
        refine (iha t2 (by linarith) hN' B _ k1 (min_le_right _ _) k2 ?_ k3).mono ?_
        · have : min (rnd (t2 + max minH (min nh maxH))) t - t2 ≤ t - a := by linarith [min_le_right (rnd (t2 + max minH (min nh maxH))) t]
          exact (mul_le_mul_of_nonneg_left this (by positivity)).trans hB
        · rw [Nat.add_sub_cancel, Nat.succ_mul]
      · exact .stop (decide_eq_false ht)
    have hforce : ∀ t2 : F, t2 ≤ t → t1 < t2 → (minH - ρ ≤ t2 - t1 ∨ t2 = t) → Ends (HalvingR rnd) t minH maxH (N * (B + 2) + 1) t1 t2 true :=
      fun t2 q1 q2 q3 => .step (fun nh _ _ => hacc t2 nh q1 q2 q3) (fun nh _ e => by simp at e)
    rw [Nat.add_sub_cancel]
    induction k with
    | zero =>
      intro t2 hr q1 q2 q3 q4
      refine .step (n := N * (B + 2) + 1) (fun nh _ _ => (hacc t2 nh q1 q2 q4).mono (by omega)) (fun nh _ e => ?_)
      simp only [Bool.false_or, Bool.or_eq_false_iff] at e
      have e2 : ¬ rnd (t2 - t1) ≤ minH := of_decide_eq_false e.2
      simp only [pow_zero, one_mul] at q3
      have := h.rounding.mono q3
      rw [h.minRep] at this
      exact absurd this e2
    | succ k ihk =>
      intro t2 hr q1 q2 q3 q4
      refine .step (n := N * (B + 2) + (k + 2)) (fun nh _ _ => (hacc t2 nh q1 q2 q4).mono (by omega)) (fun nh hh e => ?_)
      simp only [Bool.false_or, Bool.or_eq_false_iff] at e
      have e1 : rnd (t2 - t1) > nh := not_le.1 (of_decide_eq_false e.1)
      have e2 : minH < rnd (t2 - t1) := not_le.1 (of_decide_eq_false e.2)
      obtain ⟨k1, k2⟩ := h.shorter h1 q2 q1 hr hh e1 e2
      have k3 := h.forward (nh := nh) h1 (q2.le.trans q1)
      rw [rounded_fmax, rounded_fmin]
      show Ends (HalvingR rnd) t minH maxH _ t1 (rnd (t1 + max minH (min nh maxH))) (decide (nh ≤ minH))
      by_cases hf : nh ≤ minH
      · rw [decide_eq_true hf]
        exact (hforce _ (k1.trans q1) (by linarith) (.inl (by linarith))).mono (by omega)
      · rw [decide_eq_false hf]
        refine ihk _ (h.rounding.idem _) (k1.trans q1) (by linarith) ?_ (.inl (by linarith))
        refine le_trans (mul_le_mul_of_nonneg_left (k2 (not_le.1 hf)) (by positivity)) ?_
        rw [← mul_assoc, ← pow_succ]
        exact q3

/-- The accepted steps follow each other and end at `t`. -/
theorem Resolved.tiles (h : Resolved rnd R ρ a t minH maxH) {A : F → F → F → Prop} {t1 t2 : F} {f c : Bool} {es : List (StepEv F)}
    (hA : ∀ t1 t2 nh, A t1 t2 nh → HalvingR rnd t1 t2 nh)
    (ht : @LoopTrace F (Arith.rounded rnd) A t minH maxH t1 t2 f es c) (h1 : a ≤ t1) (h2 : t1 < t → t1 < t2 ∧ t2 ≤ t ∧ rnd t2 = t2) :
    ∃ u, Tiles t1 u (es.filterMap StepEv.accept?) ∧ (c = true → t1 ≤ t → u = t) := by
  let _ := Arith.rounded rnd
  induction ht with
  | stop e => exact ⟨_, .done, fun _ h3 => le_antisymm h3 (not_lt.1 (of_decide_eq_false e))⟩
  | cut => exact ⟨_, .done, fun e => by cases e⟩
  | cutTrial _ => exact ⟨_, .done, fun e => by cases e⟩
  | cutAccept hlt => exact ⟨_, .step (h2 (of_decide_eq_true hlt)).1 .done, fun e => by cases e⟩
  | @accept t1 t2 f nh es c hlt _ _ _ ih =>
    have hb := h2 (of_decide_eq_true hlt)
    obtain ⟨u, i3, i4⟩ := ih (by linarith) (by
      intro e
      rw [rounded_fmin, rounded_fmax, rounded_fmin]
      obtain ⟨k1, k2, _⟩ := h.next (nh := nh) (s := t2) (by linarith) e
      exact ⟨k2, min_le_right _ _, k1⟩)
    exact ⟨u, .step hb.1 i3, fun hc _ => i4 hc hb.2.1⟩
  | @reject t1 t2 f nh es c hlt hh hacc _ ih =>
    have hb := h2 (of_decide_eq_true hlt)
    simp only [Bool.or_eq_false_iff] at hacc
    have e1 : rnd (t2 - t1) > nh := not_le.1 (of_decide_eq_false hacc.1.2)
    have e2 : minH < rnd (t2 - t1) := not_le.1 (of_decide_eq_false hacc.2)
    exact ih h1 (fun e => by
      rw [rounded_fmax, rounded_fmin]
      show t1 < rnd (t1 + max minH (min nh maxH)) ∧ rnd (t1 + max minH (min nh maxH)) ≤ t ∧ _
      have k3 := h.forward (nh := nh) h1 e.le
      have hd : 0 < minH - ρ := by linarith [h.coarse, h.pos, h.rho]
      exact ⟨by linarith, (h.shorter h1 hb.1 hb.2.1 hb.2.2 (hA _ _ _ hh) e1 e2).1.trans hb.2.1, h.rounding.idem _⟩)

theorem halvingR_provided (h2 : rnd 2 = 2) : ∀ st ∈ ([@euler F (Arith.rounded rnd), @rk4 F (Arith.rounded rnd), @rkf45 F (Arith.rounded rnd)] : List (Stepper F)),
    ∀ t1 x t2, (st t1 x t2).Answers (HalvingR rnd t1 t2) := by
  let _ := Arith.rounded rnd
  intro st hst t1 x t2
  simp only [List.mem_cons, List.not_mem_nil, or_false] at hst
  rcases hst with rfl | rfl | rfl
  · intro r; exact .inr (.inl rfl)
  · intro _ _ _ _; exact .inr (.inl rfl)
  · intro _ _ _ _ _ _
    show HalvingR rnd t1 t2 (rkf45NewH (t2 -. t1) _)
    have h2' : rnd ((2 : ℚ) : F) = 2 := by simpa using h2
    have key : ∀ (c d : Bool) (h : F), (if c = true then h /. Arith.lit 2 else if d = true then Arith.lit 2 *. h else h) = rnd (h / 2) ∨
        (if c = true then h /. Arith.lit 2 else if d = true then Arith.lit 2 *. h else h) = h ∨
        (if c = true then h /. Arith.lit 2 else if d = true then Arith.lit 2 *. h else h) = rnd (2 * h) := by
      intro c d h
      have e1 : h /. Arith.lit 2 = rnd (h / 2) := by show rnd (h / rnd ((2 : ℚ) : F)) = _; rw [h2']
      have e2 : Arith.lit 2 *. h = rnd (2 * h) := by show rnd (rnd ((2 : ℚ) : F) * h) = _; rw [h2']
      cases c <;> cases d <;> simp [e1, e2]
    exact key _ _ _

end
section
variable {K : Type} [Arith K]

/-- The first pass of the loop, with a rejected step. -/
theorem subLoop_reject {cfg : Config K} {t minH maxH t1 t2 : K} {n : Nat} {f : Bool} {m ma mc : Machine K} {st : Stepper K} {orig : List K} {r : List K × K}
    (hlt : (t1 <. t) = true) (hst : cfg.stepper = some st) (ho : beginStep cfg t1 m = .ok orig ma)
    (hr : (st t1 orig t2).exec (minorCb cfg) { ma with w := { ma.w with log := .trial t1 t2 :: ma.w.log } } = .ok r mc)
    (hrej : (f || (t2 -. t1) <=. r.2 || (t2 -. t1) <=. minH) = false) :
    subLoop cfg t minH maxH (n + 1) t1 t2 f m =
      subLoop cfg t minH maxH n t1 (t1 +. fmax minH (fmin r.2 maxH)) (r.2 <=. minH) { mc with s := { mc.s with sv := some r.1 } } := by
  have e1 : inW (emit (.trial t1 t2)) ma = .ok () { ma with w := { ma.w with log := .trial t1 t2 :: ma.w.log } } := rfl
  have e2 : setSim (fun s => { s with sv := some r.1 }) mc = .ok () { mc with s := { mc.s with sv := some r.1 } } := rfl
  rw [subLoop, if_neg (by simp [hlt]), bind_of_ok ho]
  simp only [hst]
  rw [bind_of_ok e1, bind_of_ok hr, bind_of_ok e2, if_neg (by rw [hrej]; simp)]

theorem any_answers (p : StepProg K) : p.Answers (fun _ => True) := by
  induction p with
  | ret v h => trivial
  | call t v k ih => exact ih

/-- The loop does not end if steps do not change the time. -/
theorem LoopTrace.stuck {A : K → K → K → Prop} {t minH maxH a t1 t2 : K} {f c : Bool} {es : List (StepEv K)} (h : LoopTrace A t minH maxH t1 t2 f es c)
    (hlt : (a <. t) = true) (hst : ∀ nh, a +. fmax minH (fmin nh maxH) = a) (hmin : fmin a t = a) (h1 : t1 = a) (h2 : t2 = a) : c = false := by
  induction h with
  | stop e => subst h1; rw [hlt] at e; cases e
  | cut => rfl
  | cutTrial => rfl
  | cutAccept => rfl
  | accept _ _ _ _ ih => subst h1; exact ih h2 (by rw [h2, hst, hmin])
  | reject _ _ _ _ ih => subst h1; exact ih rfl (hst _)

end

end Pooya
