import Verif.Spec.Damped
import Verif.Props.C67
import Verif.Props.C88

/-! # C91 — A mass, a spring and a damper

Full statement: *two Integrators, the input of the first is the output v of the second, and the input of the second is u(t) - k x - c v.  While the force u is a constant k e, the vigour
(v^2 + c (x - e) v + k (x - e)^2, the energy if c = 0) after any calls of run is the vigour before times a product of factors, one for each accepted step: 1 - c h + k h^2 with Euler,
polynomials of degree 8 and 10 in h with Rk4 and Rkf45; a mass that rests at e stays there.  With little damping (c^2 <= 4 k) and small gaps (Euler: k g <= c; Rk4: k g^2 <= 1; Rkf45:
k g^2 <= 1 and k^3 g^5 <= 20 c) the vigour never increases; with equal gaps and Euler or Rk4 it is multiplied by the same number in each step.  With Euler or Rk4 and any force the
difference of two simulations with different initial values behaves like a simulation without force.  The mass of the tutorial stays at 0 until time 1 and then settles at 10/7.* — for
all closed diagrams without TriggeredIntegrators.

Proved: `C91_settles`, `C91_calm` (constant force), `C91_forgets` (any force), `C91_tutorial` (samples/tut01_mass_spring_damper.cpp). -/

namespace Pooya.C91

open Pooya C60 C69 C72 C85 C87 C88

set_option linter.unusedSectionVars false

section
variable {F : Type} [_root_.Field F] [LinearOrder F] [IsStrictOrderedRing F] [Archimedean F]
attribute [local instance] Arith.exact
variable {cfg : Config F} {ps : List (Wire F)} {ty : SigId → Ty} {rank : BlkId → Nat}

/-- The right-hand side of a driven and damped oscillator. -/
def pull (k c : F) (u : F → F) (t : F) : List F → List F
  | [x, v] => [v, u t - k * x - c * v]
  | _ => []

/-- A step does the same to the difference of two states, whatever the force. -/
theorem step_pull (M : Method) (k c : F) (u : F → F) (s e : F) : ∃ a b, a ^ 2 - c * a * b + k * b ^ 2 = M.damped (c * (e - s)) (k * (e - s) ^ 2) ∧ ∀ x v y z, ∃ x' v' y' z',
    ((M.stepper s [x, v] e).exec (m := Id) (pull k c u)).1 = [x', v'] ∧ ((M.stepper s [y, z] e).exec (m := Id) (pull k c u)).1 = [y', z'] ∧
      x' - y' = a * (x - y) + b * (v - z) ∧ v' - z' = a * (v - z) - b * (k * (x - y) + c * (v - z)) := by
  cases M
  · refine ⟨1, e - s, by simp only [Method.damped]; ring, fun x v y z => ⟨_, _, _, _, rfl, rfl, ?_, ?_⟩⟩ <;>
    · simp only [exact_add, exact_sub, exact_mul]
      ring
  · refine ⟨1 - k * (e - s) ^ 2 / 2 + c * k * (e - s) ^ 3 / 6 + (k ^ 2 - c ^ 2 * k) * (e - s) ^ 4 / 24,
      (e - s) - c * (e - s) ^ 2 / 2 + (c ^ 2 - k) * (e - s) ^ 3 / 6 + (2 * c * k - c ^ 3) * (e - s) ^ 4 / 24, by simp only [Method.damped]; ring, fun x v y z => ⟨_, _, _, _, rfl, rfl, ?_, ?_⟩⟩ <;>
    · simp only [exact_add, exact_sub, exact_mul, exact_div, exact_lit, Rat.cast_ofNat, Rat.cast_one]
      ring
  · refine ⟨1 - k * (e - s) ^ 2 / 2 + c * k * (e - s) ^ 3 / 6 + (k ^ 2 - c ^ 2 * k) * (e - s) ^ 4 / 24 + (c ^ 3 * k - 2 * c * k ^ 2) * (e - s) ^ 5 / 104,
      (e - s) - c * (e - s) ^ 2 / 2 + (c ^ 2 - k) * (e - s) ^ 3 / 6 + (2 * c * k - c ^ 3) * (e - s) ^ 4 / 24 + (c ^ 4 - 3 * c ^ 2 * k + k ^ 2) * (e - s) ^ 5 / 104,
      by simp only [Method.damped]; ring, fun x v y z => ⟨_, _, _, _, rfl, rfl, ?_, ?_⟩⟩ <;>
    · simp only [exact_add, exact_sub, exact_mul, exact_div, exact_lit, Rat.cast_ofNat, Rat.cast_one]
      ring

theorem vigour_map {k c a b x v : F} : vigour k c (a * x + b * v) (a * v - b * (k * x + c * v)) = (a ^ 2 - c * a * b + k * b ^ 2) * vigour k c x v := by
  unfold vigour
  ring

/-- Two courses of a driven and damped oscillator that take the same steps. -/
theorem over_pull (M : Method) (k c : F) (u : F → F) (steps : List (F × F)) : ∀ x v y z : F, ∃ x' v' y' z', M.stepper.over (pull k c u) [x, v] steps = [x', v'] ∧
    M.stepper.over (pull k c u) [y, z] steps = [y', z'] ∧
      vigour k c (x' - y') (v' - z') = (steps.map fun p => M.damped (c * (p.2 - p.1)) (k * (p.2 - p.1) ^ 2)).prod * vigour k c (x - y) (v - z) := by
  induction steps with
  | nil => intro x v y z; exact ⟨x, v, y, z, rfl, rfl, by simp⟩
  | cons p steps ih =>
    intro x v y z
    obtain ⟨a, b, h1, h2⟩ := step_pull M k c u p.1 p.2
    obtain ⟨x1, v1, y1, z1, e1, e2, e3, e4⟩ := h2 x v y z
    obtain ⟨x', v', y', z', g1, g2, g3⟩ := ih x1 v1 y1 z1
    refine ⟨x', v', y', z', ?_, ?_, ?_⟩
    · unfold Stepper.over at g1 ⊢
      rw [List.foldl_cons, e1, g1]
    · unfold Stepper.over at g2 ⊢
      rw [List.foldl_cons, e2, g2]
    · rw [g3, e3, e4, vigour_map, h1, List.map_cons, List.prod_cons]
      ring

/-- A step from the place of rest stays there, if the force keeps it there at all times of the step. -/
theorem step_rest (M : Method) (k c : F) (u : F → F) {s e r : F} (hs : s < e) (hu : ∀ t, s ≤ t → t ≤ e → u t = k * r) :
    ((M.stepper s [r, 0] e).exec (m := Id) (pull k c u)).1 = [r, 0] := by
  have hp : ∀ t, s ≤ t → t ≤ e → pull k c u t [r, 0] = [0, 0] := fun t h1 h2 => by
    simp only [pull]
    rw [hu t h1 h2]
    simp
  have hs0 := sub_pos.2 hs
  have sm : ∀ a : F, vsmul a [0, 0] = [0, 0] := fun a => by simp [vsmul, exact_mul]
  have ad : vadd [r, 0] [(0 : F), 0] = [r, 0] := by simp [vadd, exact_add]
  have sb : vsub [r, 0] [(0 : F), 0] = [r, 0] := by simp [vsub, exact_sub]
  cases M
  · simp only [Method.stepper, euler, StepProg.exec, bind, pure, hp s le_rfl hs.le, sm, ad]
  · simp only [Method.stepper, rk4, StepProg.exec, bind, pure, exact_add, exact_sub, exact_div, exact_lit, Rat.cast_ofNat, Rat.cast_one, hp s le_rfl hs.le, sm, ad,
      hp (s + (e - s) / 2) (by linarith) (by linarith), hp (s + (e - s)) (by linarith) (by linarith)]
  · simp only [Method.stepper, rkf45, StepProg.exec, bind, pure, exact_add, exact_sub, exact_mul, exact_div, exact_lit, Rat.cast_ofNat, Rat.cast_one, hp s le_rfl hs.le, hp e hs.le le_rfl,
      sm, ad, sb, hp (s + 1 / 4 * (e - s)) (by linarith) (by linarith), hp (s + 3 / 8 * (e - s)) (by linarith) (by linarith), hp (s + 12 / 13 * (e - s)) (by linarith) (by linarith)]

theorem pair {M : Method} (hM : M ≠ .rkf45) {k c t : F} {u : F → F} {ts q y q2 y2 : List F} (h : M.Through (pull k c u) t q ts y) (h2 : M.Through (pull k c u) t q2 ts y2)
    {x v x2 v2 : F} (hq : q = [x, v]) (hq2 : q2 = [x2, v2]) :
    ∃ x' v' x2' v2' r, y = [x', v'] ∧ y2 = [x2', v2'] ∧ vigour k c (x' - x2') (v' - v2') = r * vigour k c (x - x2) (v - v2) ∧
      M.Grows (fun h => M.damped (c * h) (k * h ^ 2)) t ts r := by
  induction h generalizing q2 x v x2 v2 with
  | nil =>
    cases h2
    exact ⟨x, v, x2, v2, 1, hq, hq2, by rw [one_mul], .nil⟩
  | cons steps e1 e2 _ ih =>
    cases h2 with
    | cons steps2 f1 f2 f3 =>
      have e2 := e2 hM
      have f2 := f2 hM
      subst hq hq2 e2 f2
      obtain ⟨x1, v1, y1, z1, g1, g2, g3⟩ := over_pull M k c u _ x v x2 v2
      obtain ⟨x', v', x2', v2', r, r1, r2, r3, r4⟩ := ih f3 g1 g2
      refine ⟨x', v', x2', v2', _, r1, r2, ?_, .cons _ e1 (fun _ => rfl) r4⟩
      rw [r3, g3]
      ring

theorem over_rest (M : Method) (k c : F) (u : F → F) {s e r : F} {steps : List (F × F)} (h : Tiles s e steps) (hu : ∀ t, s ≤ t → t ≤ e → u t = k * r) :
    M.stepper.over (pull k c u) [r, 0] steps = [r, 0] := by
  induction h with
  | done => rfl
  | step k1 k2 ih =>
    have := tiles_le k2
    have e := step_rest M k c u k1 fun t h1 h2 => hu t h1 (h2.trans this)
    have g := ih fun t h1 h2 => hu t (k1.le.trans h1) h2
    unfold Stepper.over at g ⊢
    rw [List.foldl_cons, e, g]

theorem settle {M : Method} {k c t : F} {u : F → F} {ts q y : List F} (h : M.Through (pull k c u) t q ts y) {x v e : F} (hq : q = [x, v]) (hts : (t :: ts).Pairwise (· < ·))
    (hu : ∀ s, t ≤ s → (∃ b ∈ t :: ts, s ≤ b) → u s = k * e) :
    ∃ x' v' r, y = [x', v'] ∧ vigour k c (x' - e) v' = r * vigour k c (x - e) v ∧ M.Grows (fun h => M.damped (c * h) (k * h ^ 2)) t ts r ∧ (x = e → v = 0 → x' = e ∧ v' = 0) := by
  induction h generalizing x v with
  | nil => exact ⟨x, v, 1, hq, by rw [one_mul], .nil, fun h1 h2 => ⟨h1, h2⟩⟩
  | cons steps e1 e2 _ ih =>
    subst hq
    have ht := (List.pairwise_cons.1 hts).1 _ (.head _)
    obtain ⟨x1, v1, y1, z1, g1, g2, g3⟩ := over_pull M k c u steps x v e 0
    have hr := over_rest M k c u e1 fun s h1 h2 => hu s h1 ⟨_, .tail _ (.head _), h2⟩
    rw [hr] at g2
    cases g2
    obtain ⟨x', v', r, r1, r2, r3, r4⟩ := ih g1 (List.pairwise_cons.1 hts).2 fun s h1 ⟨b, hb, h2⟩ => hu s (ht.le.trans h1) ⟨b, .tail _ hb, h2⟩
    refine ⟨x', v', _, r1, ?_, .cons steps e1 e2 r3, fun h1 h2 => ?_⟩
    · rw [sub_zero, sub_zero] at g3
      rw [r2, g3]
      ring
    · subst h1 h2
      rw [hr] at g1
      cases g1
      exact r4 rfl rfl

theorem through_split {M : Method} (hM : M ≠ .rkf45) {f : F → List F → List F} {t : F} {ts us x y z : List F} (h1 : M.Through f t x ts y) (h2 : M.Through f t x (ts ++ us) z) :
    M.Through f ((t :: ts).getLast (by simp)) y us z := by
  induction h1 with
  | nil => exact h2
  | cons steps e1 e2 _ ih =>
    cases h2 with
    | cons steps2 f1 f2 f3 =>
      have e2 := e2 hM
      have f2 := f2 hM
      subst e2 f2
      exact ih f3

/-! ## The diagrams -/

theorem moves (h : cfg.Sealed ps ty rank) (hpl : ∀ p ∈ ps, p.obj.Plain) {M : Method} (hM : cfg.stepper = some M.stepper) {k c : F} {u : F → F} {x v d : SigId}
    (hm : SpringDamper cfg ps ty k c u x v d) (w : World F) (hw : w.New cfg ty) (hlog : w.log = []) (tPrev t0 minH maxH : F) (h0 : 0 < minH) (h1 : minH < maxH) :
    ∃ (m0 : Machine F) (x0 v0 : F), Call.exec cfg (.init t0) { w := w, s := { tPrev := tPrev } } = .ok () m0 ∧ (cfg.keptVal w x = some (.scalar x0) ∧ cfg.keptVal w v = some (.scalar v0)) ∧
      ∀ ts : List F, (t0 :: ts).Pairwise (· < ·) → (∃ m, RunsTo cfg minH maxH m0 ts m) ∧ ∀ m, RunsTo cfg minH maxH m0 ts m → ∃ x1 v1, m.w.shown x = some (.scalar x1) ∧
        m.w.shown v = some (.scalar v1) ∧ M.Through (pull k c u) t0 [x0, v0] ts [x1, v1] := by
  obtain ⟨m0, q0, a1, a2, a3, a4⟩ := C88_states cfg ps ty rank h hpl M hM [x, v] (by simp) (by simpa using ⟨hm.place, hm.speed⟩) (pull k c u) (fun V mem t y val q hV hs hq => by
    cases hq with
    | cons e1 e2 =>
      cases e2 with
      | cons e2 e3 =>
        cases e3
        refine .cons ?_ (.cons ?_ .nil)
        · rw [hm.deriv.1]; exact e2
        · rw [hm.deriv.2]
          exact hm.driven V mem t y val _ _ hV hs e1 e2) w hw hlog tPrev t0 minH maxH h0 h1
  cases a2 with
  | @cons _ x0 _ _ b1 b2 =>
    cases b2 with
    | @cons _ v0 _ _ b2 b3 =>
      cases b3
      refine ⟨m0, x0, v0, a1, ⟨b1, b2⟩, fun ts hts => ⟨(a4 ts hts).1, fun m hm => ?_⟩⟩
      obtain ⟨q, e1, e2⟩ := (a4 ts hts).2 m hm
      cases e1 with
      | @cons _ x1 _ _ e e' =>
        cases e' with
        | @cons _ v1 _ _ e' e'' =>
          cases e''
          exact ⟨x1, v1, e, e', e2⟩

theorem runs_append {minH maxH : F} {m m' m'' : Machine F} {ts us : List F} (h1 : RunsTo cfg minH maxH m ts m') (h2 : RunsTo cfg minH maxH m' us m'') : RunsTo cfg minH maxH m (ts ++ us) m'' := by
  induction h1 with
  | nil => exact h2
  | cons f e _ ih => exact .cons f e (ih h2)

theorem runs_split {minH maxH : F} {m m'' : Machine F} {ts us : List F} (h : RunsTo cfg minH maxH m (ts ++ us) m'') :
    ∃ m' m2, RunsTo cfg minH maxH m ts m' ∧ RunsTo cfg minH maxH m' us m2 := by
  induction ts generalizing m with
  | nil => exact ⟨m, m'', .nil, h⟩
  | cons t ts ih =>
    cases h with
    | cons f e h =>
      obtain ⟨m', m2, k1, k2⟩ := ih h
      exact ⟨m', m2, .cons f e k1, k2⟩

/-- C91, settling: if the force is constant during some calls of `run`, the vigour after them, measured from the place `e` where the spring balances the force, is the vigour before
times a product of factors, one for each step; who rests there stays there.  (With `Rkf45`: if the force is constant from the beginning.) -/
theorem C91_settles (cfg : Config F) (ps : List (Wire F)) (ty : SigId → Ty) (rank : BlkId → Nat) (h : cfg.Sealed ps ty rank) (hpl : ∀ p ∈ ps, p.obj.Plain) (M : Method)
    (hM : cfg.stepper = some M.stepper) (k c : F) (u : F → F) (x v d : SigId) (hm : SpringDamper cfg ps ty k c u x v d) (w : World F) (hw : w.New cfg ty) (hlog : w.log = [])
    (tPrev t0 minH maxH : F) (h0 : 0 < minH) (h1 : minH < maxH) :
    ∃ (m0 : Machine F) (x0 v0 : F), Call.exec cfg (.init t0) { w := w, s := { tPrev := tPrev } } = .ok () m0 ∧ cfg.keptVal w x = some (.scalar x0) ∧ cfg.keptVal w v = some (.scalar v0) ∧
      m0.w.shown x = some (.scalar x0) ∧ m0.w.shown v = some (.scalar v0) ∧ ∀ ts us : List F, (t0 :: (ts ++ us)).Pairwise (· < ·) → (∃ m m', RunsTo cfg minH maxH m0 ts m ∧ RunsTo cfg minH maxH m us m') ∧
      ((M = .rkf45 → ts = []) → ∀ e, (∀ s, (t0 :: ts).getLast (by simp) ≤ s → (∃ b ∈ t0 :: (ts ++ us), s ≤ b) → u s = k * e) → ∀ m m', RunsTo cfg minH maxH m0 ts m → RunsTo cfg minH maxH m us m' →
        ∃ x1 v1 x2 v2 r, m.w.shown x = some (.scalar x1) ∧ m.w.shown v = some (.scalar v1) ∧ m'.w.shown x = some (.scalar x2) ∧ m'.w.shown v = some (.scalar v2) ∧
          vigour k c (x2 - e) v2 = r * vigour k c (x1 - e) v1 ∧ M.Grows (fun h => M.damped (c * h) (k * h ^ 2)) ((t0 :: ts).getLast (by simp)) us r ∧
            (x1 = e → v1 = 0 → x2 = e ∧ v2 = 0)) := by
  obtain ⟨m0, x0, v0, a1, a2, a3⟩ := moves h hpl hM hm w hw hlog tPrev t0 minH maxH h0 h1
  obtain ⟨_, _, i1, i2, i3⟩ := (a3 [] (by simp)).2 m0 .nil
  cases i3
  refine ⟨m0, x0, v0, a1, a2.1, a2.2, i1, i2, fun ts us hts => ?_⟩
  have hts1 : (t0 :: ts).Pairwise (· < ·) := List.Pairwise.sublist (by simp) hts
  have hts2 : (((t0 :: ts).getLast (by simp)) :: us).Pairwise (· < ·) := by
    rw [← List.cons_append, List.pairwise_append] at hts
    exact List.pairwise_cons.2 ⟨fun b hb => hts.2.2 _ (List.getLast_mem _) b hb, hts.2.1⟩
  refine ⟨?_, fun hr e hu m m' k1 k2 => ?_⟩
  · obtain ⟨m', hm'⟩ := (a3 _ hts).1
    exact runs_split hm'
  · obtain ⟨x1, v1, b1, b2, b3⟩ := (a3 ts hts1).2 m k1
    obtain ⟨x2, v2, d1, d2, d3⟩ := (a3 _ hts).2 m' (runs_append k1 k2)
    have ht : M.Through (pull k c u) ((t0 :: ts).getLast (by simp)) [x1, v1] us [x2, v2] := by
      by_cases hr45 : M = .rkf45
      · obtain rfl := hr hr45
        cases b3
        exact d3
      · exact through_split hr45 b3 d3
    obtain ⟨x', v', r, r1, r2, r3, r4⟩ := settle ht rfl hts2 fun s e1 ⟨b, hb, e2⟩ => hu s e1 ⟨b, by
      rcases List.mem_cons.1 hb with rfl | hb
      · rw [← List.cons_append]
        exact List.mem_append_left _ (List.getLast_mem _)
      · exact .tail _ (List.mem_append_right _ hb), e2⟩
    cases r1
    exact ⟨x1, v1, x2, v2, r, b1, b2, d1, d2, r2, r3, r4⟩

/-- C91, forgetting: the difference of two simulations with the same force and different initial values behaves as if there were no force. -/
theorem C91_forgets (cfg : Config F) (ps : List (Wire F)) (ty : SigId → Ty) (rank : BlkId → Nat) (h : cfg.Sealed ps ty rank) (hpl : ∀ p ∈ ps, p.obj.Plain) (M : Method)
    (hM : cfg.stepper = some M.stepper) (hM4 : M ≠ .rkf45) (k c : F) (u : F → F) (x v d : SigId) (hm : SpringDamper cfg ps ty k c u x v d)
    (w w' : World F) (hw : w.New cfg ty) (hlog : w.log = []) (hw' : w'.New cfg ty) (hlog' : w'.log = []) (tPrev t0 minH maxH : F) (h0 : 0 < minH) (h1 : minH < maxH) :
    ∃ (m0 m0' : Machine F) (x0 v0 y0 z0 : F), Call.exec cfg (.init t0) { w := w, s := { tPrev := tPrev } } = .ok () m0 ∧
      Call.exec cfg (.init t0) { w := w', s := { tPrev := tPrev } } = .ok () m0' ∧ (cfg.keptVal w x = some (.scalar x0) ∧ cfg.keptVal w v = some (.scalar v0)) ∧
      (cfg.keptVal w' x = some (.scalar y0) ∧ cfg.keptVal w' v = some (.scalar z0)) ∧ ∀ ts : List F, (t0 :: ts).Pairwise (· < ·) →
      (∃ m m', RunsTo cfg minH maxH m0 ts m ∧ RunsTo cfg minH maxH m0' ts m') ∧ ∀ m m', RunsTo cfg minH maxH m0 ts m → RunsTo cfg minH maxH m0' ts m' →
        ∃ x1 v1 y1 z1 r, m.w.shown x = some (.scalar x1) ∧ m.w.shown v = some (.scalar v1) ∧ m'.w.shown x = some (.scalar y1) ∧ m'.w.shown v = some (.scalar z1) ∧
          vigour k c (x1 - y1) (v1 - z1) = r * vigour k c (x0 - y0) (v0 - z0) ∧ M.Grows (fun h => M.damped (c * h) (k * h ^ 2)) t0 ts r := by
  obtain ⟨m0, x0, v0, a1, a2, a3⟩ := moves h hpl hM hm w hw hlog tPrev t0 minH maxH h0 h1
  obtain ⟨m0', y0, z0, b1, b2, b3⟩ := moves h hpl hM hm w' hw' hlog' tPrev t0 minH maxH h0 h1
  refine ⟨m0, m0', x0, v0, y0, z0, a1, b1, a2, b2, fun ts hts => ⟨?_, fun m m' k1 k2 => ?_⟩⟩
  · obtain ⟨m, e⟩ := (a3 ts hts).1
    obtain ⟨m', e'⟩ := (b3 ts hts).1
    exact ⟨m, m', e, e'⟩
  · obtain ⟨x1, v1, e1, e2, e3⟩ := (a3 ts hts).2 m k1
    obtain ⟨y1, z1, f1, f2, f3⟩ := (b3 ts hts).2 m' k2
    obtain ⟨_, _, _, _, r, r1, r2, r3, r4⟩ := pair hM4 e3 f3 rfl rfl
    cases r1
    cases r2
    exact ⟨x1, v1, y1, z1, r, e1, e2, f1, f2, r3, r4⟩

/-! ## What the factors amount to -/

theorem damped_nonneg (M : Method) {k c : F} (hk : c ^ 2 ≤ 4 * k) (h : F) : 0 ≤ M.damped (c * h) (k * h ^ 2) := by
  obtain ⟨a, b, e, _⟩ := step_pull M k c (fun _ => 0) 0 h
  rw [sub_zero] at e
  rw [← e]
  nlinarith [sq_nonneg (2 * a - c * b), mul_nonneg (sub_nonneg.2 hk) (sq_nonneg b)]

theorem vigour_nonneg {k c : F} (hk : c ^ 2 ≤ 4 * k) (x v : F) : 0 ≤ vigour k c x v := by
  unfold vigour
  nlinarith [sq_nonneg (2 * v + c * x), mul_nonneg (sub_nonneg.2 hk) (sq_nonneg x)]

theorem damped_le (M : Method) {k c g : F} (hc : 0 ≤ c) (hk : c ^ 2 ≤ 4 * k) (hg : M.Calm k c g) {h : F} (h0 : 0 < h) (h1 : h ≤ g) : M.damped (c * h) (k * h ^ 2) ≤ 1 := by
  have k0 : 0 ≤ k := by nlinarith [sq_nonneg c]
  cases M with
  | euler =>
    have : k * h ≤ c := (mul_le_mul_of_nonneg_left h1 k0).trans hg
    simp only [Method.damped]
    nlinarith
  | rk4 =>
    have w1 : k * h ^ 2 ≤ 1 := (mul_le_mul_of_nonneg_left (pow_le_pow_left₀ h0.le h1 2) k0).trans hg
    have w0 : 0 ≤ k * h ^ 2 := by positivity
    have a0 : 0 ≤ c * h := by positivity
    have aw : (c * h) ^ 2 ≤ 4 * (k * h ^ 2) := by nlinarith [mul_le_mul_of_nonneg_right hk (sq_nonneg h)]
    generalize c * h = a at *
    generalize k * h ^ 2 = w at *
    have a2 : a ≤ 2 := by nlinarith
    simp only [Method.damped]
    have g1 : 0 ≤ 1 - w ^ 2 / 24 + w ^ 3 / 144 - a / 2 - a * w ^ 2 / 48 + a ^ 2 / 6 + a ^ 2 * w / 24 - a ^ 3 / 24 := by
      have w2 : w ^ 2 ≤ 1 := pow_le_one₀ w0 w1
      have := mul_le_mul_of_nonneg_left w2 a0
      have := mul_nonneg (sq_nonneg a) w0
      have := mul_nonneg (sq_nonneg a) (sub_nonneg.2 a2)
      have := pow_nonneg w0 3
      nlinarith [sq_nonneg (a - 3)]
    have g2 : 0 ≤ w ^ 3 * (8 - w) := mul_nonneg (by positivity) (by linarith)
    nlinarith [mul_nonneg a0 g1]
  | rkf45 =>
    have w1 : k * h ^ 2 ≤ 1 := (mul_le_mul_of_nonneg_left (pow_le_pow_left₀ h0.le h1 2) k0).trans hg.1
    have w0 : 0 ≤ k * h ^ 2 := by positivity
    have a0 : 0 ≤ c * h := by positivity
    have aw : (c * h) ^ 2 ≤ 4 * (k * h ^ 2) := by nlinarith [mul_le_mul_of_nonneg_right hk (sq_nonneg h)]
    have a20 : (k * h ^ 2) ^ 3 ≤ 20 * (c * h) := by
      have := mul_le_mul_of_nonneg_right ((mul_le_mul_of_nonneg_left (pow_le_pow_left₀ h0.le h1 5) (pow_nonneg k0 3)).trans hg.2) h0.le
      nlinarith
    generalize c * h = a at *
    generalize k * h ^ 2 = w at *
    have a2 : a ≤ 2 := by nlinarith
    simp only [Method.damped]
    have w2 : w ^ 2 ≤ 1 := pow_le_one₀ w0 w1
    have w3 : w ^ 3 ≤ 1 := pow_le_one₀ w0 w1
    have p3 := pow_nonneg w0 3
    have g1 : 0 ≤ 1 - 100 / 936 - a / 2 + a ^ 2 / 6 - a ^ 3 / 24 + a ^ 4 / 104 - a ^ 2 * w / 156 - a ^ 3 * w / 104 - 7 / 936 * w ^ 3 - a * w ^ 3 / 624 := by
      have := mul_le_mul_of_nonneg_left w3 a0
      have := mul_le_mul_of_nonneg_left w1 (pow_nonneg a0 2)
      have := mul_le_mul_of_nonneg_left w1 (pow_nonneg a0 3)
      have := mul_nonneg (sq_nonneg a) (sub_nonneg.2 a2)
      have q1 := sq_nonneg (a ^ 2 - 3)
      have q2 := sq_nonneg (a - 2)
      nlinarith
    have g2 : 0 ≤ w ^ 4 * (1 - w) := mul_nonneg (pow_nonneg w0 4) (by linarith)
    have g3 := mul_nonneg a0 (pow_nonneg w0 2)
    have g4 := mul_nonneg (pow_nonneg a0 2) (pow_nonneg w0 2)
    have g5 := mul_nonneg (pow_nonneg a0 3) (pow_nonneg w0 2)
    have g6 := mul_nonneg a0 (pow_nonneg w0 4)
    have g7 := pow_nonneg w0 4
    have g8 := mul_nonneg a0 g1
    nlinarith

theorem calm {M : Method} {k c g : F} (hc : 0 ≤ c) (hk : c ^ 2 ≤ 4 * k) (hg : M.Calm k c g) {t r : F} {ts : List F} (hts : (t :: ts).IsChain fun s u => s < u ∧ u - s ≤ g)
    (h : M.Grows (fun h => M.damped (c * h) (k * h ^ 2)) t ts r) : 0 ≤ r ∧ r ≤ 1 :=
  grows_all (P := fun r : F => 0 ≤ r ∧ r ≤ (1 : F)) ⟨zero_le_one, le_refl _⟩ (fun _ _ ha hb => ⟨mul_nonneg ha.1 hb.1, mul_le_one₀ ha.2 hb.1 hb.2⟩)
    (fun h h1 h2 => ⟨damped_nonneg M hk h, damped_le M hc hk hg h1 h2⟩) hts h

/-- C91, what it amounts to: with little damping (`c ^ 2 ≤ 4 k`) and gaps that are small enough for the method the vigour never increases while the force is constant; with equal gaps
it is multiplied by the same number in each step. -/
theorem C91_calm (cfg : Config F) (ps : List (Wire F)) (ty : SigId → Ty) (rank : BlkId → Nat) (h : cfg.Sealed ps ty rank) (hpl : ∀ p ∈ ps, p.obj.Plain) (M : Method)
    (hM : cfg.stepper = some M.stepper) (k c : F) (u : F → F) (x v d : SigId) (hm : SpringDamper cfg ps ty k c u x v d) (w : World F) (hw : w.New cfg ty) (hlog : w.log = [])
    (tPrev t0 minH maxH : F) (h0 : 0 < minH) (h1 : minH < maxH) (m0 m m' : Machine F) (hi : Call.exec cfg (.init t0) { w := w, s := { tPrev := tPrev } } = .ok () m0)
    (ts us : List F) (hts : (t0 :: (ts ++ us)).Pairwise (· < ·)) (hr : M = .rkf45 → ts = []) (e : F)
    (hu : ∀ s, (t0 :: ts).getLast (by simp) ≤ s → (∃ b ∈ t0 :: (ts ++ us), s ≤ b) → u s = k * e) (hr1 : RunsTo cfg minH maxH m0 ts m) (hr2 : RunsTo cfg minH maxH m us m') :
    ∃ x1 v1 x2 v2, m.w.shown x = some (.scalar x1) ∧ m.w.shown v = some (.scalar v1) ∧ m'.w.shown x = some (.scalar x2) ∧ m'.w.shown v = some (.scalar v2) ∧
      (0 ≤ c → c ^ 2 ≤ 4 * k → ∀ g, M.Calm k c g → Dense g ((t0 :: ts).getLast (by simp)) us → vigour k c (x2 - e) v2 ≤ vigour k c (x1 - e) v1) ∧
      (M ≠ .rkf45 → ∀ h, ((t0 :: ts).getLast (by simp) :: us).IsChain (fun s u => u - s = h) →
        vigour k c (x2 - e) v2 = M.damped (c * h) (k * h ^ 2) ^ us.length * vigour k c (x1 - e) v1) := by
  obtain ⟨m0', x0, v0, a1, _, _, _, _, a2⟩ := C91_settles cfg ps ty rank h hpl M hM k c u x v d hm w hw hlog tPrev t0 minH maxH h0 h1
  rw [hi] at a1
  cases a1
  obtain ⟨x1, v1, x2, v2, r, b1, b2, b3, b4, b5, b6, _⟩ := (a2 ts us hts).2 hr e hu m m' hr1 hr2
  refine ⟨x1, v1, x2, v2, b1, b2, b3, b4, fun hc hk g hg hd => ?_, fun hne h hh => ?_⟩
  · rw [b5]
    exact mul_le_of_le_one_left (vigour_nonneg hk _ _) (calm hc hk hg hd b6).2
  · rw [b5, grows_even hne hh b6]

end

/-! ## The tutorial -/

section
attribute [local instance] Arith.exact
variable {cfg : Config ℝ} {d : Sketch} {ws : List (Wire ℝ)} {rank : BlkId → Nat} {wd : World ℝ}

/-- What an integrator of a drawing holds at the beginning. -/
theorem kept_drawn (h : cfg.Drawn d ws) (hc : d.Closed rank) (hw : wd.Begins d) {p : Piece} (hp : p ∈ d.pieces) {x0 : ℝ} (hi : p.part = .integrator x0) :
    cfg.keptVal wd p.out = some (.scalar x0) := by
  obtain ⟨l, hl, e1, _, e3⟩ := h.leaf_of hp
  have hs : l.state = some p.out := by rw [e3.state, hi]; rfl
  unfold Config.keptVal
  cases hf : cfg.model.leaves.find? (fun l => decide (l.state = some p.out)) with
  | none =>
    rw [List.find?_eq_none] at hf
    exact absurd (decide_eq_true hs) (hf l hl)
  | some l' =>
    have k1 := of_decide_eq_true (p := l'.state = some p.out) (List.find?_some (p := fun l : Leaf ℝ => decide (l.state = some p.out)) hf)
    obtain ⟨p', hp', f1, _, f3, _⟩ := h.leaf (List.mem_of_find?_eq_some hf)
    rw [f3.state] at k1
    split at k1
    · have : p' = p := Piece.eq_of_out hc hp' hp (Option.some.inj k1)
      subst this
      rw [Option.map_some, f1, hw.initial p' hp x0 hi]
    · cases k1

/-- samples/tut01_mass_spring_damper.cpp: the mass is moved by a force, a spring and a damper. -/
theorem tutorial_moves (h : cfg.Drawn C66.tutorial ws) (hw : wd.Begins C66.tutorial) :
    SpringDamper cfg ws (fun s => (wd.sig s).ty) (14 / 5) (6 / 5) (fun t => if t < 1 then 0 else 4) 5 4 3 := by
  have hc := C66.tutorial_closed
  have p4 : (⟨5, .integrator 0, [3], 4⟩ : Piece) ∈ C66.tutorial.pieces := by simp [C66.tutorial]
  have p5 : (⟨6, .integrator 0, [4], 5⟩ : Piece) ∈ C66.tutorial.pieces := by simp [C66.tutorial]
  have st : ∀ p ∈ C66.tutorial.pieces, p.part.isIntegrator = true → (wd.sig p.out).ty = .scalar ∧ ∃ q ∈ ws, q.obj.isState = true ∧ q.Gives p.out := fun p hp hi => by
    obtain ⟨q, hq, e⟩ := h.wire p hp
    exact ⟨(hw.types p hp).2, q, hq, by rw [Piece.isState_eq e, hi], (Piece.gives_iff e _).2 rfl⟩
  refine ⟨st _ p5 rfl, st _ p4 rfl, ⟨?_, ?_⟩, ?_⟩
  · obtain ⟨x, e1, e2⟩ := h.derivs hc hw p5 rfl
    cases e1
    exact e2
  · obtain ⟨x, e1, e2⟩ := h.derivs hc hw p4 rfl
    cases e1
    exact e2
  · intro V mem t y val a b hV hs ha hb
    have key : ∀ p ∈ C66.tutorial.pieces, ∃ l : Leaf ℝ, p.Makes l.kind ∧ l.Solved t (mem l.id) val := fun p hp => by
      obtain ⟨l, hl, _, _, e⟩ := h.leaf_of hp
      exact ⟨l, e, all_solved (h.closed hc hw) hV hs l hl⟩
    have gain : ∀ (id : BlkId) (r : ℝ) (i o : SigId) (q : ℝ), (⟨id, .gain r, [i], o⟩ : Piece) ∈ C66.tutorial.pieces → val i = some (.scalar q) → val o = some (.scalar (r * q)) := by
      intro id r i o q hp hq
      obtain ⟨l, e1, e2⟩ := key _ hp
      have e1 : l.kind = .gain (.scalar r) i o := e1
      unfold Leaf.Solved at e2
      rw [e1] at e2
      obtain ⟨a', r', f1, f2, f3⟩ := e2
      rw [hq] at f1
      cases f1
      cases f2
      exact f3
    have minus : ∀ (id : BlkId) (i j o : SigId) (q r : ℝ), (⟨id, .subtract, [i, j], o⟩ : Piece) ∈ C66.tutorial.pieces → val i = some (.scalar q) → val j = some (.scalar r) →
        val o = some (.scalar (q - r)) := by
      intro id i j o q r hp hq hr
      obtain ⟨l, e1, e2⟩ := key _ hp
      have e1 : l.kind = .subtract i j o := e1
      unfold Leaf.Solved at e2
      rw [e1] at e2
      obtain ⟨a', b', r', f1, f2, f3, f4⟩ := e2
      rw [hq] at f1
      rw [hr] at f2
      cases f1
      cases f2
      cases f3
      exact f4
    have v0 : val 0 = some (.scalar (if t < 1 then 0 else 1)) := by
      obtain ⟨l, e1, e2⟩ := key ⟨1, .source (fun t => if t < 1 then 0 else 1), [], 0⟩ (by simp [C66.tutorial])
      have e1 : l.kind = .source (fun t => .ok (.scalar (if t < 1 then 0 else 1))) 0 := e1
      unfold Leaf.Solved at e2
      rw [e1] at e2
      obtain ⟨_, f1, f2⟩ := e2
      cases f1
      exact f2
    have v1 := gain 2 _ 0 1 _ (by simp [C66.tutorial]; rfl) v0
    have v7 := gain 7 (0.3 / 0.25) 4 7 _ (by simp [C66.tutorial]) hb
    have v6 := gain 8 (0.7 / 0.25) 5 6 _ (by simp [C66.tutorial]) ha
    have v2 := minus 3 1 7 2 _ _ (by simp [C66.tutorial]) v1 v7
    have v3 := minus 4 2 6 3 _ _ (by simp [C66.tutorial]) v2 v6
    rw [v3]
    congr 2
    by_cases ht : t < 1
    · simp only [if_pos ht]
      norm_num
      ring
    · simp only [if_neg ht]
      norm_num
      ring

/-- C91, the tutorial (samples/tut01_mass_spring_damper.cpp:66-76, with any times): before the force is switched on at time 1 the mass stays at 0, and afterwards it settles at 10/7.
For calls at most 1/2 apart its vigour never increases, for the calls of the sample it falls by a tenth at least in each step. -/
theorem C91_tutorial (cfg : Config ℝ) (h : cfg.Draws C66.tutorial) (hst : cfg.stepper = some rk4) (wd : World ℝ) (hw : wd.Begins C66.tutorial) (tPrev t0 minH maxH : ℝ) (h0 : 0 < minH)
    (h1 : minH < maxH) : ∃ m0, Call.exec cfg (.init t0) { w := wd, s := { tPrev := tPrev } } = .ok () m0 ∧ ∀ ts us : List ℝ, (t0 :: (ts ++ us)).Pairwise (· < ·) →
      (∃ m m', RunsTo cfg minH maxH m0 ts m ∧ RunsTo cfg minH maxH m us m') ∧ ∀ m m', RunsTo cfg minH maxH m0 ts m → RunsTo cfg minH maxH m us m' →
        ((t0 :: ts).getLast (by simp) < 1 → m.w.shown 5 = some (.scalar 0) ∧ m.w.shown 4 = some (.scalar 0)) ∧
        (1 ≤ (t0 :: ts).getLast (by simp) → ∃ x1 v1 x2 v2, m.w.shown 5 = some (.scalar x1) ∧ m.w.shown 4 = some (.scalar v1) ∧ m'.w.shown 5 = some (.scalar x2) ∧
          m'.w.shown 4 = some (.scalar v2) ∧
          (Dense (1 / 2) ((t0 :: ts).getLast (by simp)) us → vigour (14 / 5) (6 / 5) (x2 - 10 / 7) v2 ≤ vigour (14 / 5) (6 / 5) (x1 - 10 / 7) v1) ∧
          (((t0 :: ts).getLast (by simp) :: us).IsChain (fun s u => u - s = 1 / 10) →
            vigour (14 / 5) (6 / 5) (x2 - 10 / 7) v2 ≤ (9 / 10) ^ us.length * vigour (14 / 5) (6 / 5) (x1 - 10 / 7) v1)) := by
  obtain ⟨ws, hd⟩ := h.drawn
  have hc := C66.tutorial_closed
  have hcl := hd.closed hc hw
  have hpl : ∀ w ∈ ws, w.obj.Plain := fun w hm => by obtain ⟨p, _, e⟩ := hd.piece w hm; exact Piece.plain e
  have hm := tutorial_moves hd hw
  obtain ⟨m0, x0, v0, a1, a2, a3, a4, a5, a6⟩ := C91_settles cfg ws _ _ hcl hpl .rk4 hst _ _ _ _ _ _ hm wd (hd.new hw) hw.log tPrev t0 minH maxH h0 h1
  have k5 := kept_drawn hd hc hw (p := ⟨6, .integrator 0, [4], 5⟩) (by simp [C66.tutorial]) rfl
  have k4 := kept_drawn hd hc hw (p := ⟨5, .integrator 0, [3], 4⟩) (by simp [C66.tutorial]) rfl
  rw [a2] at k5
  rw [a3] at k4
  cases k5
  cases k4
  refine ⟨m0, a1, fun ts us hts => ?_⟩
  have hts1 : (t0 :: ts).Pairwise (· < ·) := List.Pairwise.sublist (by simp) hts
  have after : 1 ≤ (t0 :: ts).getLast (by simp) → ∀ s, (t0 :: ts).getLast (by simp) ≤ s → (∃ b ∈ t0 :: (ts ++ us), s ≤ b) → (if s < 1 then 0 else 4 : ℝ) = 14 / 5 * (10 / 7) := fun hl s hs _ => by
    rw [if_neg (by linarith)]
    norm_num
  refine ⟨?_, fun m m' r1 r2 => ⟨fun hl => ?_, fun hl => ?_⟩⟩
  · exact (a6 ts us hts).1
  · obtain ⟨x1, v1, x2, v2, r, e1, e2, e3, e4, _, _, e7⟩ := (a6 [] ts hts1).2 (fun e => by cases e) 0 (fun s _ ⟨b, hb, hs⟩ => by
      rw [if_pos (lt_of_le_of_lt (hs.trans (C67.le_last hts1 hb)) hl), mul_zero]) m0 m .nil r1
    rw [a4] at e1
    rw [a5] at e2
    cases e1
    cases e2
    obtain ⟨rfl, rfl⟩ := e7 rfl rfl
    exact ⟨e3, e4⟩
  · obtain ⟨x1, v1, x2, v2, e1, e2, e3, e4, e5, e6⟩ := C91_calm cfg ws _ _ hcl hpl .rk4 hst _ _ _ _ _ _ hm wd (hd.new hw) hw.log tPrev t0 minH maxH h0 h1 m0 m m' a1 ts us hts
      (fun e => by cases e) (10 / 7) (after hl) r1 r2
    refine ⟨x1, v1, x2, v2, e1, e2, e3, e4, fun hd => e5 (by norm_num) (by norm_num) (1 / 2) (by norm_num [Method.Calm]) hd, fun hh => ?_⟩
    rw [e6 (by simp) _ hh]
    refine mul_le_mul_of_nonneg_right (pow_le_pow_left₀ ?_ ?_ _) (vigour_nonneg (by norm_num) _ _) <;> norm_num [Method.damped]

/-- The tutorial can be built and run: the position after the first calls is 0, and nothing hinders it from being run for the times of the sample. -/
example (k : Strategy) : ∃ (cfg : Config ℝ) (wd : World ℝ) (m0 m : Machine ℝ), cfg.Draws C66.tutorial ∧ cfg.strategy = k ∧
    Call.exec cfg (.init 0) { w := wd, s := { tPrev := 0 } } = .ok () m0 ∧ RunsTo cfg 1 2 m0 [1 / 10, 2 / 10] m ∧ m.w.shown 5 = some (.scalar 0) := by
  obtain ⟨⟨cfg, h1, h2, h3⟩, wd, h4⟩ := C66.C66_buildable C66.tutorial _ C66.tutorial_closed (by simp [C66.tutorial, Piece.Fits]) k (some rk4) (.inr ⟨rk4, by simp, rfl⟩)
    (fun _ => ⟨⟨5, .integrator 0, [3], 4⟩, by simp [C66.tutorial], rfl⟩)
  obtain ⟨m0, a1, a2⟩ := C91_tutorial cfg h1 h3 wd h4 0 0 1 2 (by norm_num) (by norm_num)
  obtain ⟨b1, b2⟩ := a2 [1 / 10, 2 / 10] [] (by norm_num)
  obtain ⟨m, m', c1, c2⟩ := b1
  exact ⟨cfg, wd, m0, m, h1, h2, a1, c1, ((b2 m m' c1 c2).1 (by norm_num)).1⟩

/-- Begun at time 1, with any method, the mass goes from 0 towards 10/7 without ever being farther away than at the beginning, as the vigour measures it, if the calls are less than 1/10
apart. -/
example (k : Strategy) (M : Method) (us : List ℝ) (hus : Dense (1 / 10) 1 us) : ∃ (cfg : Config ℝ) (wd : World ℝ) (m0 m : Machine ℝ) (x v : ℝ), cfg.Draws C66.tutorial ∧ cfg.strategy = k ∧
    cfg.stepper = some M.stepper ∧ Call.exec cfg (.init 1) { w := wd, s := { tPrev := 0 } } = .ok () m0 ∧ RunsTo cfg 1 2 m0 us m ∧ m.w.shown 5 = some (.scalar x) ∧
      m.w.shown 4 = some (.scalar v) ∧ vigour (14 / 5) (6 / 5) (x - 10 / 7) v ≤ 14 / 5 * (10 / 7) ^ 2 := by
  obtain ⟨⟨cfg, h1, h2, h3⟩, wd, hw⟩ := C66.C66_buildable C66.tutorial _ C66.tutorial_closed (by simp [C66.tutorial, Piece.Fits]) k (some M.stepper) (.inr ⟨_, method_mem M, rfl⟩)
    (fun _ => ⟨⟨5, .integrator 0, [3], 4⟩, by simp [C66.tutorial], rfl⟩)
  obtain ⟨ws, hd⟩ := h1.drawn
  have hc := C66.tutorial_closed
  have hpl : ∀ w ∈ ws, w.obj.Plain := fun w hm => by obtain ⟨p, _, e⟩ := hd.piece w hm; exact Piece.plain e
  have hts : ((1 : ℝ) :: us).Pairwise (· < ·) := List.isChain_iff_pairwise.1 (List.IsChain.imp (fun _ _ e => e.1) hus)
  obtain ⟨m0, x0, v0, a1, a2, a3, a4, a5, a6⟩ := C91_settles cfg ws _ _ (hd.closed hc hw) hpl M h3 _ _ _ _ _ _ (tutorial_moves hd hw) wd (hd.new hw) hw.log 0 1 1 2 (by norm_num) (by norm_num)
  obtain ⟨_, m, c1, c2⟩ := (a6 [] us hts).1
  cases c1
  obtain ⟨x1, v1, x2, v2, e1, e2, e3, e4, e5, _⟩ := C91_calm cfg ws _ _ (hd.closed hc hw) hpl M h3 _ _ _ _ _ _ (tutorial_moves hd hw) wd (hd.new hw) hw.log 0 1 1 2 (by norm_num) (by norm_num)
    m0 m0 m a1 [] us hts (fun _ => rfl) (10 / 7) (fun s hs _ => by have hs' : (1 : ℝ) ≤ s := hs; rw [if_neg (not_lt.2 hs')]; norm_num) .nil c2
  have k5 := kept_drawn hd hc hw (p := ⟨6, .integrator 0, [4], 5⟩) (by simp [C66.tutorial]) rfl
  have k4 := kept_drawn hd hc hw (p := ⟨5, .integrator 0, [3], 4⟩) (by simp [C66.tutorial]) rfl
  rw [a2] at k5
  rw [a3] at k4
  cases k5
  cases k4
  rw [a4] at e1
  rw [a5] at e2
  cases e1
  cases e2
  refine ⟨cfg, wd, m0, m, x2, v2, h1, h2, h3, a1, c2, e3, e4, (e5 (by norm_num) (by norm_num) (1 / 10) ?_ hus).trans ?_⟩
  · cases M <;> norm_num [Method.Calm]
  · norm_num [vigour]

/-- Two simulations of the mass and the spring of C88, with different speeds at the beginning. -/
example (st : Strategy) (ts : List ℝ) (hts : ((0 : ℝ) :: ts).Pairwise (· < ·)) : ∃ (w w' : World ℝ) (m0 m0' m m' : Machine ℝ) (x v y z r : ℝ),
    Call.exec (C88.prog .rk4 st) (.init 0) { w := w, s := { tPrev := 0 } } = .ok () m0 ∧ Call.exec (C88.prog .rk4 st) (.init 0) { w := w', s := { tPrev := 0 } } = .ok () m0' ∧
      RunsTo (C88.prog .rk4 st) 1 2 m0 ts m ∧ RunsTo (C88.prog .rk4 st) 1 2 m0' ts m' ∧ m.w.shown 0 = some (.scalar x) ∧ m.w.shown 1 = some (.scalar v) ∧ m'.w.shown 0 = some (.scalar y) ∧
        m'.w.shown 1 = some (.scalar z) ∧ vigour 1 0 (x - y) (v - z) = r * vigour 1 0 0 (9 / 10) := by
  obtain ⟨s0, s1, _, c1, _⟩ := C88.states .rk4 st
  have hm : SpringDamper (C88.prog .rk4 st) C88.wired (fun _ => .scalar) 1 0 (fun _ => 0) 0 1 2 := ⟨⟨rfl, s0⟩, ⟨rfl, s1⟩, ⟨rfl, rfl⟩, fun V mem t y val a b hV hs ha hb => by
    rw [c1 V mem t y val a hV hs ha]
    congr 2
    ring⟩
  have hf : ({ C88.fresh with mem := fun b => if b = 1 then { value := .scalar 1 } else C88.fresh.mem b } : World ℝ).New (C88.prog .rk4 st) (fun _ => .scalar) := by
    refine ⟨⟨fun _ => rfl, fun _ => ⟨fun e => (by cases e), fun v e => (by cases e)⟩, fun l hl => ?_⟩, fun _ => rfl, fun l hl => ?_⟩ <;> rw [C88.leaves_eq] at hl <;>
      simp only [List.mem_cons, List.not_mem_nil, or_false] at hl
    · rcases hl with rfl | rfl | rfl | rfl | rfl <;> first | exact ⟨rfl, fun _ => rfl⟩ | trivial
    · rcases hl with rfl | rfl | rfl | rfl | rfl <;> exact fun e => (by cases e)
  obtain ⟨m0, m0', x0, v0, y0, z0, a1, a2, a3, a4, a5⟩ := C91_forgets (C88.prog .rk4 st) C88.wired _ _ (C88.closed .rk4 st) C88.plain .rk4 rfl (by simp) 1 0 (fun _ => 0) 0 1 2 hm _ C88.fresh hf rfl (C88.new .rk4 st) rfl
    0 0 1 2 (by norm_num) (by norm_num)
  obtain ⟨m, m', r1, r2⟩ := (a5 ts hts).1
  obtain ⟨x, v, y, z, r, e1, e2, e3, e4, e5, _⟩ := (a5 ts hts).2 m m' r1 r2
  refine ⟨_, C88.fresh, m0, m0', m, m', x, v, y, z, r, a1, a2, r1, r2, e1, e2, e3, e4, ?_⟩
  have hk : (C88.prog .rk4 st).keptVal { C88.fresh with mem := fun b => if b = 1 then { value := .scalar 1 } else C88.fresh.mem b } 0 = some (.scalar 0) ∧
      (C88.prog .rk4 st).keptVal { C88.fresh with mem := fun b => if b = 1 then { value := .scalar 1 } else C88.fresh.mem b } 1 = some (.scalar 1) := by
    constructor <;> (simp only [Config.keptVal, C88.leaves_eq]; rfl)
  obtain ⟨k0, k1, _⟩ := C88.kept .rk4 st
  rw [hk.1, hk.2] at a3
  rw [k0, k1] at a4
  obtain ⟨q1, q2⟩ := a3
  obtain ⟨q3, q4⟩ := a4
  cases q1
  cases q2
  cases q3
  cases q4
  rw [e5]
  norm_num

end
end Pooya.C91
