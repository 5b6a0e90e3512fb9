import Verif.Spec.Sketch
import Mathlib.Topology.Algebra.Order.Field
import Mathlib.Topology.Order.Compact
import Mathlib.Topology.Instances.Real.Lemmas
import Mathlib.Analysis.Calculus.Deriv.Basic
import Mathlib.Tactic.Linarith
import Mathlib.Tactic.Positivity
import Mathlib.Tactic.FieldSimp

/-! Near a course of a drawing, values of the signals that satisfy the equations depend Lipschitz continuously on the states: the analysis, without simulators. -/

namespace Pooya

open Set

set_option linter.unusedSectionVars false

attribute [local instance] Arith.exact

variable {d : Sketch} {J : Finset ℝ} {a b : ℝ} {X : SigId → ℝ → ℝ}

/-- The values `Z` satisfy the equations at time `t`, and the integrators are within `δ` of the course. -/
structure Sketch.Off (d : Sketch) (X : SigId → ℝ → ℝ) (t δ : ℝ) (Z : SigId → ℝ) : Prop where
  meets : d.Meets t Z
  states : ∀ p ∈ d.pieces, p.part.isIntegrator = true → |Z p.out - X p.out t| ≤ δ

/-- What a `Delay` shows at time `t` if the signals have the values `Z`: the value of `initial`, or a mean of two values in the record, of times at which the course of
the input is within `δ` of its value at the time in question. -/
def Piece.Recalls (p : Piece) (a : ℝ) (X : SigId → ℝ → ℝ) (δ : ℝ) (H : List (ℝ × (SigId → ℝ))) (t : ℝ) (Z : SigId → ℝ) : Prop :=
  ∀ life x e i, p.part = .delay life → p.ins = [x, e, i] → (t - Z e ≤ a ∧ Z p.out = Z i) ∨
    (a < t - Z e ∧ ∃ r ∈ H, ∃ r' ∈ H, ∃ c, 0 ≤ c ∧ c ≤ 1 ∧ |X x r.1 - X x (t - Z e)| ≤ δ ∧ |X x r'.1 - X x (t - Z e)| ≤ δ ∧
      Z p.out = (1 - c) * r.2 x + c * r'.2 x)

/-- A record of times and values, the newest first: all satisfy the equations with what is recorded before, and the integrators are within `δ` of the course. -/
def Sketch.Trace (d : Sketch) (a b : ℝ) (X : SigId → ℝ → ℝ) (δ : ℝ) : List (ℝ × (SigId → ℝ)) → Prop
  | [] => True
  | (t, Z) :: H => (t ∈ Icc a b ∧ d.Off X t δ Z ∧ ∀ p ∈ d.pieces, p.Recalls a X δ H t Z) ∧ d.Trace a b X δ H

/-- Such values at time `t`. -/
def Sketch.Near (d : Sketch) (a b : ℝ) (X : SigId → ℝ → ℝ) (t δ : ℝ) (Z : SigId → ℝ) : Prop := ∃ H, d.Trace a b X δ ((t, Z) :: H)

theorem Sketch.Near.off {t δ : ℝ} {Z : SigId → ℝ} (h : d.Near a b X t δ Z) : d.Off X t δ Z := by
  obtain ⟨H, ⟨_, h, _⟩, _⟩ := h
  exact h

theorem Sketch.Trace.mem {δ : ℝ} {H : List (ℝ × (SigId → ℝ))} (h : d.Trace a b X δ H) {r : ℝ × (SigId → ℝ)} (hr : r ∈ H) : r.1 ∈ Icc a b ∧ d.Near a b X r.1 δ r.2 := by
  induction H with
  | nil => cases hr
  | cons q H ih =>
    rcases List.mem_cons.1 hr with rfl | hr
    · exact ⟨h.1.1, H, h⟩
    · exact ih h.2 hr

theorem Sketch.Trace.mono {δ δ' : ℝ} (hδ : δ ≤ δ') {H : List (ℝ × (SigId → ℝ))} (h : d.Trace a b X δ H) : d.Trace a b X δ' H := by
  induction H with
  | nil => trivial
  | cons q H ih =>
    obtain ⟨⟨h1, h2, h3⟩, h4⟩ := h
    refine ⟨⟨h1, ⟨h2.meets, fun p hp hi => (h2.states p hp hi).trans hδ⟩, fun p hp life x e i k1 k2 => ?_⟩, ih h4⟩
    rcases h3 p hp life x e i k1 k2 with k | ⟨k, r, hr, r', hr', c, q1, q2, q3, q4, q5⟩
    · exact .inl k
    · exact .inr ⟨k, r, hr, r', hr', c, q1, q2, q3.trans hδ, q4.trans hδ, q5⟩

/-- A quantity computed from the signals: bounded and continuous along the course, except at the breaks, and Lipschitz continuous near it. -/
structure Nice (d : Sketch) (J : Finset ℝ) (a b : ℝ) (X : SigId → ℝ → ℝ) (φ : ℝ → (SigId → ℝ) → ℝ) : Prop where
  cont : ContinuousOn (fun t => φ t (fun s => X s t)) (Icc a b \ J)
  bounded : ∃ B, ∀ t ∈ Icc a b, |φ t (fun s => X s t)| ≤ B
  near : ∃ r > 0, ∃ L ≥ 0, ∀ t ∈ Icc a b, ∀ δ, 0 ≤ δ → δ ≤ r → ∀ Z, d.Near a b X t δ Z → |φ t Z - φ t (fun s => X s t)| ≤ L * δ

theorem Nice.bound {φ : ℝ → (SigId → ℝ) → ℝ} (h : Nice d J a b X φ) : ∃ B ≥ 0, ∀ t ∈ Icc a b, |φ t (fun s => X s t)| ≤ B := by
  obtain ⟨B, hB⟩ := h.bounded
  exact ⟨max B 0, le_max_right _ _, fun t ht => (hB t ht).trans (le_max_left _ _)⟩

theorem Nice.fixed {f : ℝ → ℝ} (h : Piecewise J a b f) : Nice d J a b X (fun t _ => f t) :=
  ⟨h.2, h.1, 1, one_pos, 0, le_refl _, fun t _ δ _ _ Z _ => by simp⟩

theorem Nice.add {φ ψ : ℝ → (SigId → ℝ) → ℝ} (h : Nice d J a b X φ) (k : Nice d J a b X ψ) : Nice d J a b X (fun t Z => φ t Z + ψ t Z) := by
  obtain ⟨r, hr, L, hL, h2⟩ := h.near
  obtain ⟨r', hr', L', hL', k2⟩ := k.near
  obtain ⟨A, hA, hA'⟩ := h.bound
  obtain ⟨B, hB, hB'⟩ := k.bound
  refine ⟨h.cont.add k.cont, ⟨A + B, fun t ht => (abs_add_le _ _).trans (add_le_add (hA' t ht) (hB' t ht))⟩, min r r', lt_min hr hr', L + L', by linarith, fun t ht δ h0 hδ Z hZ => ?_⟩
  have e1 := h2 t ht δ h0 (hδ.trans (min_le_left _ _)) Z hZ
  have e2 := k2 t ht δ h0 (hδ.trans (min_le_right _ _)) Z hZ
  have e : φ t Z + ψ t Z - (φ t (fun s => X s t) + ψ t (fun s => X s t)) = (φ t Z - φ t (fun s => X s t)) + (ψ t Z - ψ t (fun s => X s t)) := by ring
  rw [e, add_mul]
  exact (abs_add_le _ _).trans (add_le_add e1 e2)

theorem Nice.mul {φ ψ : ℝ → (SigId → ℝ) → ℝ} (h : Nice d J a b X φ) (k : Nice d J a b X ψ) : Nice d J a b X (fun t Z => φ t Z * ψ t Z) := by
  obtain ⟨A, hA, hA'⟩ := h.bound
  obtain ⟨B, hB, hB'⟩ := k.bound
  obtain ⟨r, hr, L, hL, h2⟩ := h.near
  obtain ⟨r', hr', L', hL', k2⟩ := k.near
  refine ⟨h.cont.mul k.cont, ⟨A * B, fun t ht => by rw [abs_mul]; exact mul_le_mul (hA' t ht) (hB' t ht) (abs_nonneg _) hA⟩, min (min r r') 1, lt_min (lt_min hr hr') one_pos, L * (B + L') + A * L', by positivity, fun t ht δ h0 hδ Z hZ => ?_⟩
  have hδ1 : δ ≤ 1 := hδ.trans (min_le_right _ _)
  have hδ := hδ.trans (min_le_left _ _)
  have e1 := h2 t ht δ h0 (hδ.trans (min_le_left _ _)) Z hZ
  have e2 := k2 t ht δ h0 (hδ.trans (min_le_right _ _)) Z hZ
  have e3 := hA' t ht
  have e4 := hB' t ht
  generalize φ t Z = x at *
  generalize φ t (fun s => X s t) = x' at *
  generalize ψ t Z = y at *
  generalize ψ t (fun s => X s t) = y' at *
  have hy : |y| ≤ B + L' := by
    have : |y| ≤ |y'| + |y - y'| := by have := abs_add_le y' (y - y'); rwa [add_sub_cancel] at this
    have h5 : L' * δ ≤ L' := mul_le_of_le_one_right hL' hδ1
    linarith
  have e : x * y - x' * y' = (x - x') * y + x' * (y - y') := by ring
  rw [e]
  refine (abs_add_le _ _).trans ?_
  rw [abs_mul, abs_mul]
  have q1 := mul_le_mul e1 hy (abs_nonneg _) (by positivity)
  have q2 := mul_le_mul e3 e2 (abs_nonneg _) hA
  linarith

theorem Nice.congr {φ ψ : ℝ → (SigId → ℝ) → ℝ} (h : Nice d J a b X φ) (hX : ∀ t ∈ Icc a b, ψ t (fun s => X s t) = φ t (fun s => X s t))
    (hZ : ∀ t ∈ Icc a b, ∀ Z, d.Meets t Z → ψ t Z = φ t Z) : Nice d J a b X ψ := by
  obtain ⟨r, hr, L, hL, h2⟩ := h.near
  obtain ⟨B, hB⟩ := h.bounded
  refine ⟨h.cont.congr fun t ht => hX t ht.1, ⟨B, fun t ht => by rw [hX t ht]; exact hB t ht⟩, r, hr, L, hL, fun t ht δ h0 hδ Z hz => ?_⟩
  rw [hX t ht, hZ t ht Z hz.off.meets]
  exact h2 t ht δ h0 hδ Z hz

theorem Nice.const (v : ℝ) : Nice d J a b X (fun _ _ => v) := Nice.fixed ⟨⟨|v|, fun _ _ => le_refl _⟩, continuousOn_const⟩

theorem Nice.sub {φ ψ : ℝ → (SigId → ℝ) → ℝ} (h : Nice d J a b X φ) (k : Nice d J a b X ψ) : Nice d J a b X (fun t Z => φ t Z - ψ t Z) :=
  (h.add ((Nice.const (-1)).mul k)).congr (fun t _ => by ring) (fun t _ Z _ => by ring)

/-- The inverse, away from zero. -/
theorem Nice.inv {φ : ℝ → (SigId → ℝ) → ℝ} (h : Nice d J a b X φ) {c : ℝ} (hc0 : 0 < c) (hcl : ∀ t ∈ Icc a b, c ≤ |φ t (fun s => X s t)|) :
    Nice d J a b X (fun t Z => (φ t Z)⁻¹) := by
    obtain ⟨r, hr, L, hL, h2⟩ := h.near
    have h0 : ∀ t ∈ Icc a b, φ t (fun s => X s t) ≠ 0 := fun t ht => abs_pos.1 (hc0.trans_le (hcl t ht))
    refine ⟨h.cont.inv₀ fun t ht => h0 t ht.1, ⟨c⁻¹, fun t ht => by rw [abs_inv]; exact inv_anti₀ hc0 (hcl t ht)⟩, min r (c / (2 * (L + 1))), lt_min hr (by positivity),
      L * (2 / (c * c)), by positivity, fun t ht δ hδ0 hδ Z hZ => ?_⟩
    have e1 := h2 t ht δ hδ0 (hδ.trans (min_le_left _ _)) Z hZ
    have hx' := hcl t ht
    generalize φ t Z = x at *
    generalize φ t (fun s => X s t) = x' at *
    have hLd : L * δ ≤ c / 2 := by
      have := mul_le_mul_of_nonneg_left (hδ.trans (min_le_right _ _)) hL
      refine this.trans ?_
      rw [mul_div_assoc', div_le_div_iff₀ (by positivity) (by norm_num)]
      nlinarith
    have hx : c / 2 ≤ |x| := by
      have : |x'| ≤ |x| + |x' - x| := by have := abs_add_le x (x' - x); rwa [add_sub_cancel] at this
      rw [abs_sub_comm] at this
      linarith
    have hxp : 0 < |x| := by linarith
    have hxp' : 0 < |x'| := by linarith
    rw [inv_sub_inv (abs_pos.1 hxp) (abs_pos.1 hxp'), abs_div, abs_mul, abs_sub_comm, div_le_iff₀ (mul_pos hxp hxp')]
    refine e1.trans ?_
    have hprod : c / 2 * c ≤ |x| * |x'| := mul_le_mul hx hx' hc0.le hxp.le
    have h3 : L * δ * (2 / (c * c)) * (c / 2 * c) = L * δ := by field_simp
    have h4 : 0 ≤ L * δ * (2 / (c * c)) := by positivity
    have h5 := mul_le_mul_of_nonneg_left hprod h4
    have h6 : L * (2 / (c * c)) * δ * (|x| * |x'|) = L * δ * (2 / (c * c)) * (|x| * |x'|) := by ring
    rw [h6]; linarith

/-- A function of time and a value. -/
theorem Nice.comp {f : ℝ → ℝ → ℝ} (hf : (Part.siso f).Regular J a b) {φ : ℝ → (SigId → ℝ) → ℝ} (h : Nice d J a b X φ) : Nice d J a b X (fun t Z => f t (φ t Z)) := by
  obtain ⟨hf1, hf2⟩ := hf
  obtain ⟨A, hA, hA'⟩ := h.bound
  obtain ⟨r, hr, L, hL, h2⟩ := h.near
  obtain ⟨M, hM⟩ := hf2 (A + L)
  obtain ⟨B0, hB0⟩ := (hf1 0).1
  have hM' : ∀ t ∈ Icc a b, ∀ x y, |x| ≤ A + L → |y| ≤ A + L → |f t x - f t y| ≤ |M| * |x - y| := fun t ht x y hx hy =>
    (hM t ht x y hx hy).trans (mul_le_mul_of_nonneg_right (le_abs_self M) (abs_nonneg _))
  refine ⟨?_, ⟨|M| * A + B0, fun t ht => ?_⟩, ?_⟩
  · intro t0 ht0
    have hc0 := h.cont t0 ht0
    rw [Metric.continuousWithinAt_iff] at hc0 ⊢
    intro ε hε
    have hc1 := (Metric.continuousWithinAt_iff.1 ((hf1 (φ t0 (fun s => X s t0))).2 t0 ht0)) (ε / 2) (by linarith)
    obtain ⟨η1, hη1, k1⟩ := hc1
    obtain ⟨η2, hη2, k2⟩ := hc0 (ε / (2 * (|M| + 1))) (by positivity)
    refine ⟨min η1 η2, lt_min hη1 hη2, fun t ht hd => ?_⟩
    have q1 := k1 ht (hd.trans_le (min_le_left _ _))
    have q2 := k2 ht (hd.trans_le (min_le_right _ _))
    rw [Real.dist_eq] at q1 q2 ⊢
    have q3 := hM' t ht.1 (φ t (fun s => X s t)) (φ t0 (fun s => X s t0)) ((hA' t ht.1).trans (by linarith)) ((hA' t0 ht0.1).trans (by linarith))
    have q4 : |M| * |φ t (fun s => X s t) - φ t0 (fun s => X s t0)| ≤ ε / 2 := by
      have := mul_le_mul_of_nonneg_left q2.le (abs_nonneg M)
      refine this.trans ?_
      rw [mul_div_assoc', div_le_div_iff₀ (by positivity) (by norm_num)]
      nlinarith [abs_nonneg M]
    have e : f t (φ t fun s => X s t) - f t0 (φ t0 fun s => X s t0) =
        (f t (φ t fun s => X s t) - f t (φ t0 fun s => X s t0)) + (f t (φ t0 fun s => X s t0) - f t0 (φ t0 fun s => X s t0)) := by ring
    rw [e]
    refine (abs_add_le _ _).trans_lt ?_
    linarith
  · have e1 := hM' t ht (φ t (fun s => X s t)) 0 ((hA' t ht).trans (by linarith)) (by rw [abs_zero]; linarith)
    rw [sub_zero] at e1
    have e2 := mul_le_mul_of_nonneg_left (hA' t ht) (abs_nonneg M)
    have e3 := abs_add_le (f t (φ t (fun s => X s t)) - f t 0) (f t 0)
    rw [sub_add_cancel] at e3
    linarith [hB0 t ht]
  · refine ⟨min r 1, lt_min hr one_pos, |M| * L, by positivity, fun t ht δ h0 hδ Z hZ => ?_⟩
    have e1 := h2 t ht δ h0 (hδ.trans (min_le_left _ _)) Z hZ
    have hδ1 : δ ≤ 1 := hδ.trans (min_le_right _ _)
    have e2 := hA' t ht
    have hLd : L * δ ≤ L := mul_le_of_le_one_right hL hδ1
    have hZb : |φ t Z| ≤ A + L := by
      have : |φ t Z| ≤ |φ t (fun s => X s t)| + |φ t Z - φ t (fun s => X s t)| := by
        have := abs_add_le (φ t (fun s => X s t)) (φ t Z - φ t (fun s => X s t)); rwa [add_sub_cancel] at this
      linarith
    have e3 := hM' t ht _ _ hZb (e2.trans (by linarith))
    refine e3.trans ?_
    have := mul_le_mul_of_nonneg_left e1 (abs_nonneg M)
    linarith

theorem Nice.sum {xs : List SigId} (h : ∀ x ∈ xs, Nice d J a b X (fun _ Z => Z x)) : Nice d J a b X (fun _ Z => (xs.map Z).sum) := by
  induction xs with
  | nil => exact Nice.const 0
  | cons x xs ih =>
    refine ((h x (.head _)).add (ih fun y hy => h y (.tail _ hy))).congr (fun t _ => ?_) (fun t _ Z _ => ?_) <;> simp

theorem Nice.prod {xs : List SigId} (h : ∀ x ∈ xs, Nice d J a b X (fun _ Z => Z x)) : Nice d J a b X (fun _ Z => (xs.map Z).prod) := by
  induction xs with
  | nil => exact Nice.const 1
  | cons x xs ih =>
    refine ((h x (.head _)).mul (ih fun y hy => h y (.tail _ hy))).congr (fun t _ => ?_) (fun t _ Z _ => ?_) <;> simp

theorem Sketch.Preset.eq {s : SigId} {g : ℝ → ℝ} (h : d.Preset s g) {t : ℝ} {Z : SigId → ℝ} (hZ : d.Meets t Z) : Z s = g t := by
  rcases h with h | ⟨p, hp, rfl, h⟩
  · exact hZ.inputs _ h
  · have := hZ.blocks p hp
    obtain ⟨id, part, ins, out⟩ := p
    unfold Piece.Holds at this
    simp only at this h
    rcases h with rfl | ⟨v, rfl, rfl⟩
    · exact this
    · match ins, this with
      | [], this => exact this

/-- A `Delay`. -/
theorem Nice.delay {x e i out : SigId} (hx : Nice d J a b X (fun _ Z => Z x)) (he : Nice d J a b X (fun _ Z => Z e)) (hi : Nice d J a b X (fun _ Z => Z i)) {g : ℝ → ℝ}
    (hg : ∀ t Z, d.Meets t Z → Z e = g t) (hg' : ∀ t ∈ Icc a b, X e t = g t) (h0 : ∀ t ∈ Icc a b, 0 ≤ g t) (hj : ∀ t ∈ Icc a b, t - g t = a → t ∈ J)
    (hc : ContinuousOn (X x) (Icc a b)) (hX : ∀ t ∈ Icc a b, X out t = if t - X e t ≤ a then X i t else X x (t - X e t))
    (hZ : ∀ t δ Z H, d.Trace a b X δ ((t, Z) :: H) → (t - Z e ≤ a ∧ Z out = Z i) ∨ (a < t - Z e ∧ ∃ r ∈ H, ∃ r' ∈ H, ∃ c, 0 ≤ c ∧ c ≤ 1 ∧
      |X x r.1 - X x (t - Z e)| ≤ δ ∧ |X x r'.1 - X x (t - Z e)| ≤ δ ∧ Z out = (1 - c) * r.2 x + c * r'.2 x)) : Nice d J a b X (fun _ Z => Z out) := by
  obtain ⟨r, hr, L, hL, h2⟩ := hx.near
  obtain ⟨r', hr', L', hL', k2⟩ := hi.near
  obtain ⟨A, hA, hA'⟩ := hx.bound
  obtain ⟨B, hB, hB'⟩ := hi.bound
  have hX' : ∀ t ∈ Icc a b, X out t = if t - g t ≤ a then X i t else X x (t - g t) := fun t ht => by rw [hX t ht, hg' t ht]
  have back : ∀ t ∈ Icc a b, ¬ t - g t ≤ a → t - g t ∈ Icc a b := fun t ht h => ⟨by linarith, by linarith [h0 t ht, ht.2]⟩
  refine ⟨?_, ⟨max A B, fun t ht => ?_⟩, min r r', lt_min hr hr', L + L' + 1, by linarith, fun t ht δ hδ0 hδ Z hz => ?_⟩
  · have hcg : ContinuousOn (fun t => t - g t) (Icc a b \ J) := continuousOn_id.sub (he.cont.congr fun t ht => (hg' t ht.1).symm)
    intro t ht
    have hcg' := hcg t ht
    rcases lt_trichotomy (t - g t) a with h | h | h
    · refine (hi.cont t ht).congr_of_eventuallyEq ?_ (by simp only; rw [hX' t ht.1, if_pos h.le])
      filter_upwards [hcg'.eventually (gt_mem_nhds h), self_mem_nhdsWithin] with u hu hu'
      rw [hX' u hu'.1, if_pos (le_of_lt hu)]
    · exact (ht.2 (hj t ht.1 h)).elim
    · have hca : ContinuousWithinAt (fun t => X x (t - g t)) (Icc a b \ J ∩ {u | a < u - g u}) t :=
        ContinuousWithinAt.comp (t := Icc a b) (hc _ (back t ht.1 (not_le.2 h))) (hcg'.mono inter_subset_left) (fun u hu => back u hu.1.1 (not_le.2 hu.2))
      have hmem : {u | a < u - g u} ∈ nhdsWithin t (Icc a b \ J) := hcg'.eventually (lt_mem_nhds h)
      have hca' : ContinuousWithinAt (fun t => X x (t - g t)) (Icc a b \ J) t := by
        rwa [continuousWithinAt_inter' hmem] at hca
      refine hca'.congr_of_eventuallyEq ?_ (by simp only; rw [hX' t ht.1, if_neg (not_le.2 h)])
      filter_upwards [hmem, self_mem_nhdsWithin] with u hu hu'
      rw [hX' u hu'.1, if_neg (not_le.2 hu)]
  · simp only
    rw [hX' t ht]
    split
    · exact (hB' t ht).trans (le_max_right _ _)
    · exact (hA' _ (back t ht (by assumption))).trans (le_max_left _ _)
  · have q1 := k2 t ht δ hδ0 (hδ.trans (min_le_right _ _)) Z hz
    have hze := hg t Z hz.off.meets
    obtain ⟨H, hH⟩ := hz
    simp only at q1 ⊢
    rw [hX' t ht]
    have hLd := mul_nonneg hL hδ0
    have hLd' := mul_nonneg hL' hδ0
    rcases hZ t δ Z H hH with ⟨e1, e2⟩ | ⟨e1, s, hs, s', hs', c, c0, c1, e3, e4, e5⟩
    · rw [hze] at e1
      rw [if_pos e1, e2]
      linarith
    · rw [hze] at e1 e3 e4
      rw [if_neg (not_le.2 e1), e5]
      obtain ⟨m1, m2⟩ := hH.2.mem hs
      obtain ⟨m1', m2'⟩ := hH.2.mem hs'
      have p1 := h2 s.1 m1 δ hδ0 (hδ.trans (min_le_left _ _)) s.2 m2
      have p2 := h2 s'.1 m1' δ hδ0 (hδ.trans (min_le_left _ _)) s'.2 m2'
      simp only at p1 p2
      rw [abs_le] at p1 p2 e3 e4
      have u1 : |s.2 x - X x (t - g t)| ≤ L * δ + δ := abs_le.2 ⟨by linarith, by linarith⟩
      have u2 : |s'.2 x - X x (t - g t)| ≤ L * δ + δ := abs_le.2 ⟨by linarith, by linarith⟩
      have e : (1 - c) * s.2 x + c * s'.2 x - X x (t - g t) = (1 - c) * (s.2 x - X x (t - g t)) + c * (s'.2 x - X x (t - g t)) := by ring
      rw [e]
      refine (abs_add_le _ _).trans ?_
      rw [abs_mul, abs_mul, abs_of_nonneg c0, abs_of_nonneg (show 0 ≤ 1 - c by linarith)]
      have v1 := mul_le_mul_of_nonneg_left u1 (show 0 ≤ 1 - c by linarith)
      have v2 := mul_le_mul_of_nonneg_left u2 c0
      linarith

/-- The states. -/
theorem Nice.state (hX : d.Course J a b X) {p : Piece} (hp : p ∈ d.pieces) (hi : p.part.isIntegrator = true) : Nice d J a b X (fun _ Z => Z p.out) :=
  ⟨(hX.cont p hp hi).mono diff_subset, isCompact_Icc.exists_bound_of_continuousOn (hX.cont p hp hi),
    1, one_pos, 1, zero_le_one, fun t _ δ _ _ Z hZ => by rw [one_mul]; exact hZ.off.states p hp hi⟩

/-- The output of a block, if its inputs are all right. -/
theorem Nice.piece (hX : d.Course J a b X) (hr : d.Regular J a b) {p : Piece} (hp : p ∈ d.pieces) (hins : p.part.isIntegrator = false → ∀ x ∈ p.ins, Nice d J a b X (fun _ Z => Z x)) :
    Nice d J a b X (fun _ Z => Z p.out) := by
  by_cases hi : p.part.isIntegrator = true
  · exact Nice.state hX hp hi
  replace hins := hins (by simpa using hi)
  by_cases hne : (Icc a b).Nonempty
  swap
  · rw [not_nonempty_iff_eq_empty] at hne
    exact ⟨by rw [hne, empty_diff]; exact continuousOn_empty _, ⟨0, fun t ht => by rw [hne] at ht; cases ht⟩, 1, one_pos, 0, le_refl _, fun t ht => by rw [hne] at ht; cases ht⟩
  have hm : ∀ t ∈ Icc a b, ∀ Z, d.Meets t Z → p.Holds t Z := fun t _ Z h => h.blocks p hp
  have hm' : ∀ t ∈ Icc a b, p.Holds t (fun s => X s t) := fun t ht => hm t ht _ (hX.meets t ht)
  have hd := hX.defined p hp
  have hreg := hr.1 p hp
  obtain ⟨t1, ht1⟩ := hne
  have h1 := hm' t1 ht1
  obtain ⟨id, part, ins, out⟩ := p
  simp only [Piece.Holds] at hm hm' h1 hd ⊢ hreg hins
  have key : ∀ φ : ℝ → (SigId → ℝ) → ℝ, Nice d J a b X φ → (∀ t ∈ Icc a b, X out t = φ t (fun s => X s t)) → (∀ t ∈ Icc a b, ∀ Z, d.Meets t Z → Z out = φ t Z) →
      Nice d J a b X (fun _ Z => Z out) := fun φ h h1 h2 => h.congr h1 h2
  cases part with
  | const v =>
    match ins, h1 with
    | [], _ => exact key _ (Nice.const v) hm' hm
  | source f => exact key _ (Nice.fixed hreg) hm' hm
  | gain k =>
    match ins, h1 with
    | [x], _ => exact key _ ((Nice.const k).mul (hins x (.head _))) hm' hm
  | add v => exact key _ ((Nice.const v).add (Nice.sum hins)) hm' hm
  | multiply v => exact key _ ((Nice.const v).mul (Nice.prod hins)) hm' hm
  | subtract =>
    match ins, h1 with
    | [x, y], _ => exact key _ ((hins x (.head _)).sub (hins y (.tail _ (.head _)))) hm' hm
  | divide =>
    match ins, h1 with
    | [x, y], _ =>
      obtain ⟨c, hc, hcl⟩ := hd x y rfl rfl
      exact key _ ((hins x (.head _)).mul ((hins y (.tail _ (.head _))).inv hc hcl)) hm' hm
  | pipe =>
    match ins, h1 with
    | [x], _ => exact key _ (hins x (.head _)) hm' hm
  | siso f =>
    match ins, h1 with
    | [x], _ => exact key _ (Nice.comp hreg (hins x (.head _))) hm' hm
  | func f =>
    match ins, h1 with
    | x :: _, _ => exact key _ (Nice.comp (f := f) hreg (hins x (.head _))) hm' hm
  | integrator x0 => exact (hi rfl).elim
  | delay life =>
    match ins, h1 with
    | [x, e, i], _ =>
      obtain ⟨g, hg, hg', hj⟩ := hr.2.2 _ hp life x e i rfl rfl
      obtain ⟨k1, k2⟩ := hX.delays _ hp life x e i rfl rfl
      refine Nice.delay (hins x (.head _)) (hins e (.tail _ (.head _))) (hins i (.tail _ (.tail _ (.head _)))) (fun t Z hZ => hg.eq hZ) (fun t ht => hg.eq (hX.meets t ht)) (fun t ht => ?_) hj k1 k2 ?_
      · obtain ⟨c, _, hc⟩ := hg'; exact (hc t ht).1
      · rintro t δ Z H hZ
        exact hZ.1.2.2 _ hp life x e i rfl rfl

/-- The signals of the drawing. -/
def Sketch.signals (d : Sketch) : List SigId := d.pieces.map Piece.out ++ d.inputs.map Prod.fst

/-- All signals. -/
theorem Nice.all {rank : BlkId → Nat} (hc : d.Closed rank) (hr : d.Regular J a b) (hX : d.Course J a b X) : ∀ s ∈ d.signals, Nice d J a b X (fun _ Z => Z s) := by
  have hin : ∀ u ∈ d.inputs, Nice d J a b X (fun _ Z => Z u.1) := fun u hu =>
    (Nice.fixed (hr.2.1 u hu)).congr (fun t ht => (hX.meets t ht).inputs u hu) (fun t _ Z hZ => hZ.inputs u hu)
  have hp : ∀ n, ∀ p ∈ d.pieces, rank p.id < n → Nice d J a b X (fun _ Z => Z p.out) := by
    intro n
    induction n with
    | zero => intro p _ h; exact (Nat.not_lt_zero _ h).elim
    | succ n ih =>
      intro p hp hn
      refine Nice.piece hX hr hp (fun hi x hx => ?_)
      rcases List.mem_append.1 (hc.provided p hp x hx) with h | h
      · obtain ⟨q, hq, rfl⟩ := List.mem_map.1 h
        rcases hc.loops p hp hi q hq hx with k | k
        · exact Nice.state hX hq k
        · exact ih q hq (by omega)
      · obtain ⟨u, hu, rfl⟩ := List.mem_map.1 h
        exact hin u hu
  intro s hs
  rcases List.mem_append.1 hs with h | h
  · obtain ⟨q, hq, rfl⟩ := List.mem_map.1 h
    exact hp _ q hq (Nat.lt_succ_self _)
  · obtain ⟨u, hu, rfl⟩ := List.mem_map.1 h
    exact hin u hu

/-- One bound for all signals. -/
theorem Nice.uniform {ss : List SigId} (h : ∀ s ∈ ss, Nice d J a b X (fun _ Z => Z s)) :
    ∃ r > 0, ∃ L ≥ 0, ∀ s ∈ ss, ∀ t ∈ Icc a b, ∀ δ, 0 ≤ δ → δ ≤ r → ∀ Z, d.Near a b X t δ Z → |Z s - X s t| ≤ L * δ := by
  induction ss with
  | nil => exact ⟨1, one_pos, 0, le_refl _, fun s hs => by cases hs⟩
  | cons s ss ih =>
    obtain ⟨r, hr, L, hL, h2⟩ := (h s (.head _)).near
    obtain ⟨r', hr', L', hL', k2⟩ := ih (fun s hs => h s (.tail _ hs))
    refine ⟨min r r', lt_min hr hr', max L L', hL.trans (le_max_left _ _), fun x hx t ht δ h0 hδ Z hZ => ?_⟩
    rcases List.mem_cons.1 hx with rfl | hx
    · exact (h2 t ht δ h0 (hδ.trans (min_le_left _ _)) Z hZ).trans (mul_le_mul_of_nonneg_right (le_max_left _ _) h0)
    · exact (k2 x hx t ht δ h0 (hδ.trans (min_le_right _ _)) Z hZ).trans (mul_le_mul_of_nonneg_right (le_max_right _ _) h0)

end Pooya
