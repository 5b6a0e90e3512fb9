import Verif.Spec.Swing
import Verif.Props.C87

/-! # C88: simulated decay and oscillation -/

namespace Pooya.C88

open Pooya C60 C69 C72 C85 C87 Within

set_option linter.unusedSectionVars false

section
variable {F : Type} [_root_.Field F] [LinearOrder F] [IsStrictOrderedRing F] [Archimedean F]
attribute [local instance] Arith.exact
variable {cfg : Config F} {ps : List (Wire F)} {ty : SigId → Ty} {rank : BlkId → Nat} {V : Vars}

/-- The values of the signals `xs`, each by itself. -/
def each (xs : List SigId) : List (List (F × SigId × Nat)) := xs.map fun s => [(1, s, 0)]

theorem each_total (g : SigId × Nat → F) (xs : List SigId) : (each xs).map (Lump.total g) = xs.map fun s => g (s, 0) := by
  simp [each, Lump.total]

theorem read_each {xs : List SigId} (hs : ∀ s ∈ xs, s ∈ V.scalars) {val : SigId → Option (Val F)} {x q : List F} (h : Packed val V.size V.scalars V.arrays x)
    (hx : Lump.Of (Within.slots V) (each xs) x q) : List.Forall₂ (fun s v => val s = some (.scalar v)) xs q := by
  obtain ⟨g, e1, e2⟩ := hx
  rw [each_total] at e2
  obtain ⟨h1, _, h3⟩ := (packed_iff fun _ _ => rfl).1 h
  rw [h3] at e1
  subst e2
  rw [List.forall₂_map_right_iff, List.forall₂_same]
  intro s hss
  obtain ⟨v, hv⟩ := h1 s (hs s hss)
  have := List.map_inj_left.1 e1 (s, 0) (slot_mem (hs s hss))
  rw [hv, ← this]
  simp only [comp, hv]

variable {M : Method} {f : F → List F → List F} {xs : List SigId}

theorem evolves_each (hR : ∀ mem t v v' d, Lump.Of (Within.slots V) (each xs) v v' → Rhs cfg V mem t v d → Lump.Of (Within.slots V) (each xs) d (f t v'))
    {t s : F} {mem mem' : BlkId → Mem F} {x x' y : List F} {steps : List (F × F)} {val : SigId → Option (Val F)} (hx : Lump.Of (Within.slots V) (each xs) x x')
    (he : Evolves cfg V M.stepper t mem s x steps y val mem') :
    Lump.Of (Within.slots V) (each xs) y (M.stepper.over f x' steps) ∧ Packed val V.size V.scalars V.arrays y := by
  induction he generalizing x' with
  | last _ _ a3 a4 => exact ⟨Lump.step (hR _) (method_mem M) hx a3, a4.solution.state⟩
  | step _ _ a3 a4 _ ih => exact ih (Lump.step (hR _) (method_mem M) hx a3)

theorem passes_each (hs : ∀ s ∈ xs, s ∈ V.scalars) (hne : V.scalars ++ V.arrays ≠ []) (hM : cfg.stepper = some M.stepper)
    (hR : ∀ mem t v v' d, Lump.Of (Within.slots V) (each xs) v v' → Rhs cfg V mem t v d → Lump.Of (Within.slots V) (each xs) d (f t v'))
    {a b : Snapshot F} {ts q : List F} (hx : Lump.Of (Within.slots V) (each xs) a.state q) (hv : List.Forall₂ (fun s v => a.vals s = some (.scalar v)) xs q) (h : Passes cfg V a ts b) :
    ∃ y, M.Through f a.time q ts y ∧ List.Forall₂ (fun s v => b.vals s = some (.scalar v)) xs y := by
  induction h generalizing q with
  | nil => exact ⟨q, .nil, hv⟩
  | sample e => exact (hne e).elim
  | steps steps _ e1 e2 e3 e4 _ ih =>
    rw [hM] at e1
    cases e1
    obtain ⟨g1, g2⟩ := evolves_each hR hx e4
    obtain ⟨y, r1, r2⟩ := ih g1 (read_each hs g2 g1)
    refine ⟨y, .cons steps e2 (fun h => e3 ?_) r1, r2⟩
    cases M
    · simp [Method.stepper]
    · simp [Method.stepper]
    · exact (h rfl).elim

/-- C88, states: if the derivatives of some states `xs` with scalar values are `f` of the time and of these states whenever the equations of the diagram hold, the method computes them
by themselves, for `f`. -/
theorem C88_states (cfg : Config F) (ps : List (Wire F)) (ty : SigId → Ty) (rank : BlkId → Nat) (h : cfg.Sealed ps ty rank) (hpl : ∀ p ∈ ps, p.obj.Plain)
    (M : Method) (hM : cfg.stepper = some M.stepper) (xs : List SigId) (hne : xs ≠ []) (hxs : ∀ s ∈ xs, ty s = .scalar ∧ ∃ p ∈ ps, p.obj.isState = true ∧ p.Gives s)
    (f : F → List F → List F)
    (hrate : ∀ V mem t x val q, (∀ s, s ∈ V.scalars ++ V.arrays ↔ ∃ p ∈ ps, p.obj.isState = true ∧ p.Gives s) → Solution cfg V mem t x val →
      List.Forall₂ (fun s v => val s = some (.scalar v)) xs q → List.Forall₂ (fun s v => (cfg.deriv s).bind val = some (.scalar v)) xs (f t q))
    (w : World F) (hw : w.New cfg ty) (hlog : w.log = []) (tPrev t0 minH maxH : F) (h0 : 0 < minH) (h1 : minH < maxH) :
    ∃ (m0 : Machine F) (q0 : List F), Call.exec cfg (.init t0) { w := w, s := { tPrev := tPrev } } = .ok () m0 ∧
      List.Forall₂ (fun s v => cfg.keptVal w s = some (.scalar v)) xs q0 ∧ List.Forall₂ (fun s v => m0.w.shown s = some (.scalar v)) xs q0 ∧
      ∀ ts : List F, (t0 :: ts).Pairwise (· < ·) →
        (∃ m, RunsTo cfg minH maxH m0 ts m) ∧ ∀ m, RunsTo cfg minH maxH m0 ts m → ∃ q, List.Forall₂ (fun s v => m.w.shown s = some (.scalar v)) xs q ∧ M.Through f t0 q0 ts q := by
  obtain ⟨m0, V, y0, a1, rfl, a3, a4, a5, a6, a7⟩ := C69_passage cfg ps ty rank h hpl (fun st' e => by rw [hM] at e; cases e; exact method_mem M) w hw hlog tPrev t0 minH maxH h0 h1
  have hV : C72.Sorted ps ty m0.vars := sorted_of h (fun _ => C57.ordered_exact) hw a1 a3 a4
  have hs : ∀ s ∈ xs, s ∈ m0.vars.scalars := by
    intro s hss
    obtain ⟨ho, hg⟩ := hxs s hss
    rcases List.mem_append.1 ((a3 s).2 hg) with k | k
    · exact k
    · obtain ⟨n, e⟩ := hV.arrays s k
      rw [ho] at e
      cases e
  have hnv : m0.vars.scalars ++ m0.vars.arrays ≠ [] := by
    obtain ⟨s, hss⟩ := List.exists_mem_of_ne_nil xs hne
    exact List.ne_nil_of_mem (List.mem_append_left _ (hs s hss))
  have hof : Lump.Of (Within.slots m0.vars) (each xs) y0 (xs.map fun s => comp (cfg.keptVal w) (s, 0)) :=
    ⟨_, ((packed_iff fun _ _ => rfl).1 a5).2.2, (each_total _ _).symm⟩
  have hv0 := read_each hs a6.solution.state hof
  refine ⟨m0, _, a1, read_each hs a5 hof, hv0, fun ts hts => ⟨(a7 ts hts).1, fun m hm => ?_⟩⟩
  obtain ⟨y, hp⟩ := (a7 ts hts).2 m hm
  obtain ⟨q, r1, r2⟩ := passes_each (f := f) (a := ⟨m0.w.mem, t0, y0, m0.w.shown⟩) hs hnv hM (fun mem t v v' d hvv hr => by
    obtain ⟨val, k1, k2⟩ := hr
    refine ⟨comp fun s => (cfg.deriv s).bind val, ((packed_iff (size_same h hV)).1 k2).2.2, ?_⟩
    rw [each_total]
    have := hrate _ mem t v val v' a3 k1 (read_each hs k1.state hvv)
    clear hrate hvv hs hof hv0 hxs hne
    generalize f t v' = y at this
    induction this with
    | nil => rfl
    | cons e _ ih => rw [List.map_cons, ← ih]; simp only [comp, e]) hof hv0 hp
  exact ⟨q, r2, r1⟩

/-! ## The methods, applied to linear equations -/

theorem step_decay (M : Method) (c s u x : F) : ((M.stepper s [x] u).exec (m := Id) (fun _ q => q.map (c * ·))).1 = [M.factor (c * (u - s)) * x] := by
  cases M <;>
  · simp only [Method.stepper, euler, rk4, rkf45, StepProg.exec, vadd, vsub, vsmul, bind, pure, List.map_cons, List.map_nil, List.zipWith_cons_cons, List.zipWith_nil_left, exact_add, exact_sub, exact_mul,
      exact_div, exact_lit, Rat.cast_ofNat, Rat.cast_one, Method.factor, List.cons.injEq, and_true]
    ring

/-- The right-hand side of an oscillator. -/
def swing (k : F) : List F → List F
  | [x, v] => [v, -(k * x)]
  | _ => []

/-- What a step does with an oscillator. -/
theorem step_swing (M : Method) (k s u x v : F) : ∃ a b, ((M.stepper s [x, v] u).exec (m := Id) (fun _ => swing k)).1 = [a * x + b * v, a * v - k * b * x] ∧
    a ^ 2 + k * b ^ 2 = M.energy (k * (u - s) ^ 2) := by
  cases M
  · refine ⟨1, u - s, ?_, ?_⟩
    · simp only [Method.stepper, euler, swing, StepProg.exec, vadd, vsmul, bind, pure, List.map_cons, List.map_nil, List.zipWith_cons_cons, List.zipWith_nil_left, exact_add, exact_sub,
        exact_mul, List.cons.injEq, and_true]
      constructor <;> ring
    · simp only [Method.energy]; ring
  · refine ⟨1 - k * (u - s) ^ 2 / 2 + k ^ 2 * (u - s) ^ 4 / 24, (u - s) * (1 - k * (u - s) ^ 2 / 6), ?_, ?_⟩
    · simp only [Method.stepper, rk4, swing, StepProg.exec, vadd, vsmul, bind, pure, List.map_cons, List.map_nil, List.zipWith_cons_cons, List.zipWith_nil_left, exact_add, exact_sub,
        exact_mul, exact_div, exact_lit, Rat.cast_ofNat, Rat.cast_one, List.cons.injEq, and_true]
      constructor <;> ring
    · simp only [Method.energy]; ring
  · refine ⟨1 - k * (u - s) ^ 2 / 2 + k ^ 2 * (u - s) ^ 4 / 24, (u - s) * (1 - k * (u - s) ^ 2 / 6 + k ^ 2 * (u - s) ^ 4 / 104), ?_, ?_⟩
    · simp only [Method.stepper, rkf45, swing, StepProg.exec, vadd, vsub, vsmul, bind, pure, List.map_cons, List.map_nil, List.zipWith_cons_cons, List.zipWith_nil_left, exact_add, exact_sub,
        exact_mul, exact_div, exact_lit, Rat.cast_ofNat, Rat.cast_one, List.cons.injEq, and_true]
      constructor <;> ring
    · simp only [Method.energy]; ring

theorem through_decay {M : Method} {c t : F} {ts q y : List F} (h : M.Through (fun _ q => q.map (c * ·)) t q ts y) {x : F} (hq : q = [x]) :
    ∃ r, y = [r * x] ∧ M.Grows (fun h => M.factor (c * h)) t ts r := by
  have over : ∀ (steps : List (F × F)) (x : F), M.stepper.over (fun _ q => q.map (c * ·)) [x] steps = [(steps.map fun p => M.factor (c * (p.2 - p.1))).prod * x] := by
    intro steps
    induction steps with
    | nil => intro x; simp [Stepper.over]
    | cons p steps ih =>
      intro x
      have := ih (M.factor (c * (p.2 - p.1)) * x)
      unfold Stepper.over at this ⊢
      rw [List.foldl_cons, step_decay, this, List.map_cons, List.prod_cons]
      congr 1
      ring
  induction h generalizing x with
  | nil => exact ⟨1, by rw [hq, one_mul], .nil⟩
  | cons steps e1 e2 _ ih =>
    subst hq
    obtain ⟨r, r1, r2⟩ := ih (over steps x)
    refine ⟨_, ?_, .cons steps e1 e2 r2⟩
    rw [r1]
    congr 1
    ring

theorem through_swing {M : Method} {k t : F} {ts q y : List F} (h : M.Through (fun _ => swing k) t q ts y) {x v : F} (hq : q = [x, v]) :
    ∃ x' v' r, y = [x', v'] ∧ v' ^ 2 + k * x' ^ 2 = r * (v ^ 2 + k * x ^ 2) ∧ M.Grows (fun h => M.energy (k * h ^ 2)) t ts r := by
  have over : ∀ (steps : List (F × F)) (x v : F), ∃ x' v', M.stepper.over (fun _ => swing k) [x, v] steps = [x', v'] ∧
      v' ^ 2 + k * x' ^ 2 = (steps.map fun p => M.energy (k * (p.2 - p.1) ^ 2)).prod * (v ^ 2 + k * x ^ 2) := by
    intro steps
    induction steps with
    | nil => intro x v; exact ⟨x, v, rfl, by simp⟩
    | cons p steps ih =>
      intro x v
      obtain ⟨a, b, e1, e2⟩ := step_swing M k p.1 p.2 x v
      obtain ⟨x', v', e3, e4⟩ := ih (a * x + b * v) (a * v - k * b * x)
      refine ⟨x', v', ?_, ?_⟩
      · unfold Stepper.over at e3 ⊢
        rw [List.foldl_cons, e1, e3]
      · rw [e4, List.map_cons, List.prod_cons, ← e2]
        ring
  induction h generalizing x v with
  | nil => exact ⟨x, v, 1, hq, by rw [one_mul], .nil⟩
  | cons steps e1 e2 _ ih =>
    subst hq
    obtain ⟨x1, v1, k1, k2⟩ := over steps x v
    obtain ⟨x', v', r, r1, r2, r3⟩ := ih k1
    refine ⟨x', v', _, r1, ?_, .cons steps e1 e2 r3⟩
    rw [r2, k2]
    ring

/-- The output of a `Gain` is proportional to its input. -/
theorem C88_gain (h : cfg.Sealed ps ty rank) (l : Leaf F) (hl : l ∈ cfg.model.leaves) (c : F) (x d : SigId) (hk : l.kind = .gain (.scalar c) x d) : Proportional cfg ps c x d := by
  intro V mem t y val v hV hs hx
  have := all_solved h hV hs l hl
  unfold Leaf.Solved at this
  rw [hk] at this
  obtain ⟨a, r, h1, h2, h3⟩ := this
  rw [hx] at h1
  cases h1
  cases h2
  exact h3

/-- C88, decay and growth: an `Integrator` whose input is `c` times its output.  After each sequence of calls its output is the initial value times a product of factors, one for each
step. -/
theorem C88_decay (cfg : Config F) (ps : List (Wire F)) (ty : SigId → Ty) (rank : BlkId → Nat) (h : cfg.Sealed ps ty rank) (hpl : ∀ p ∈ ps, p.obj.Plain)
    (M : Method) (hM : cfg.stepper = some M.stepper) (x d : SigId) (hx : ty x = .scalar) (hg : ∃ p ∈ ps, p.obj.isState = true ∧ p.Gives x) (hd : cfg.deriv x = some d)
    (c : F) (hc : Proportional cfg ps c x d) (w : World F) (hw : w.New cfg ty) (hlog : w.log = []) (tPrev t0 minH maxH : F) (h0 : 0 < minH) (h1 : minH < maxH) :
    ∃ (m0 : Machine F) (x0 : F), Call.exec cfg (.init t0) { w := w, s := { tPrev := tPrev } } = .ok () m0 ∧ cfg.keptVal w x = some (.scalar x0) ∧ m0.w.shown x = some (.scalar x0) ∧
      ∀ ts : List F, (t0 :: ts).Pairwise (· < ·) →
        (∃ m, RunsTo cfg minH maxH m0 ts m) ∧ ∀ m, RunsTo cfg minH maxH m0 ts m → ∃ r, m.w.shown x = some (.scalar (r * x0)) ∧ M.Grows (fun h => M.factor (c * h)) t0 ts r := by
  obtain ⟨m0, q0, a1, a2, a3, a4⟩ := C88_states cfg ps ty rank h hpl M hM [x] (by simp) (by simpa using ⟨hx, hg⟩) (fun _ q => q.map (c * ·)) (fun V mem t y val q hV hs hq => by
    cases hq with
    | cons e1 e2 =>
      cases e2
      refine .cons ?_ .nil
      rw [hd]
      exact hc V mem t y val _ hV hs e1) w hw hlog tPrev t0 minH maxH h0 h1
  cases a2 with
  | @cons _ x0 _ _ b1 b2 =>
    cases b2
    cases a3 with
    | cons c1 _ =>
      refine ⟨m0, x0, a1, b1, c1, fun ts hts => ⟨(a4 ts hts).1, fun m hm => ?_⟩⟩
      obtain ⟨q, e1, e2⟩ := (a4 ts hts).2 m hm
      obtain ⟨r, rfl, r2⟩ := through_decay e2 rfl
      cases e1 with
      | cons e _ => exact ⟨r, e, r2⟩

/-- C88, oscillation: two `Integrator`s, the input of the first is the output `v` of the second, and the input of the second is `- k` times the output `x` of the first.
After each sequence of calls the energy `v ^ 2 + k x ^ 2` is the initial energy times a product of factors, one for each step. -/
theorem C88_oscillator (cfg : Config F) (ps : List (Wire F)) (ty : SigId → Ty) (rank : BlkId → Nat) (h : cfg.Sealed ps ty rank) (hpl : ∀ p ∈ ps, p.obj.Plain)
    (M : Method) (hM : cfg.stepper = some M.stepper) (x v d : SigId) (hx : ty x = .scalar) (hgx : ∃ p ∈ ps, p.obj.isState = true ∧ p.Gives x) (hdx : cfg.deriv x = some v)
    (hv : ty v = .scalar) (hgv : ∃ p ∈ ps, p.obj.isState = true ∧ p.Gives v) (hdv : cfg.deriv v = some d)
    (k : F) (hc : Proportional cfg ps (-k) x d) (w : World F) (hw : w.New cfg ty) (hlog : w.log = []) (tPrev t0 minH maxH : F) (h0 : 0 < minH) (h1 : minH < maxH) :
    ∃ (m0 : Machine F) (x0 v0 : F), Call.exec cfg (.init t0) { w := w, s := { tPrev := tPrev } } = .ok () m0 ∧ cfg.keptVal w x = some (.scalar x0) ∧ cfg.keptVal w v = some (.scalar v0) ∧
      ∀ ts : List F, (t0 :: ts).Pairwise (· < ·) →
        (∃ m, RunsTo cfg minH maxH m0 ts m) ∧ ∀ m, RunsTo cfg minH maxH m0 ts m → ∃ x1 v1 r, m.w.shown x = some (.scalar x1) ∧ m.w.shown v = some (.scalar v1) ∧
          v1 ^ 2 + k * x1 ^ 2 = r * (v0 ^ 2 + k * x0 ^ 2) ∧ M.Grows (fun h => M.energy (k * h ^ 2)) t0 ts r := by
  obtain ⟨m0, q0, a1, a2, a3, a4⟩ := C88_states cfg ps ty rank h hpl M hM [x, v] (by simp) (by simpa using ⟨⟨hx, hgx⟩, hv, hgv⟩) (fun _ => swing k) (fun V mem t y val q hV hs hq => by
    cases hq with
    | cons e1 e2 =>
      cases e2 with
      | cons e2 e3 =>
        cases e3
        refine .cons ?_ (.cons ?_ .nil)
        · rw [hdx]; exact e2
        · rw [hdv, ← neg_mul]
          exact hc V mem t y val _ hV hs e1) w hw hlog tPrev t0 minH maxH h0 h1
  cases a2 with
  | @cons _ x0 _ _ b1 b2 =>
    cases b2 with
    | @cons _ v0 _ _ b2 b3 =>
      cases b3
      refine ⟨m0, x0, v0, a1, b1, b2, fun ts hts => ⟨(a4 ts hts).1, fun m hm => ?_⟩⟩
      obtain ⟨q, e1, e2⟩ := (a4 ts hts).2 m hm
      obtain ⟨x1, v1, r, rfl, r2, r3⟩ := through_swing e2 rfl
      cases e1 with
      | cons e e' =>
        cases e' with
        | cons e' _ => exact ⟨x1, v1, r, e, e', r2, r3⟩

/-! ## What the factors amount to -/

/-- What holds for one and for the factors of steps not longer than `g`, and for products, holds for the product. -/
theorem grows_all {M : Method} {γ : F → F} {P : F → Prop} {g : F} (h1 : P 1) (hm : ∀ a b, P a → P b → P (a * b)) (hγ : ∀ h, 0 < h → h ≤ g → P (γ h)) {t r : F} {ts : List F}
    (hts : (t :: ts).IsChain fun s u => s < u ∧ u - s ≤ g) (h : M.Grows γ t ts r) : P r := by
  have tile : ∀ {s u : F} {steps : List (F × F)}, Tiles s u steps → u - s ≤ g → P (steps.map fun p => γ (p.2 - p.1)).prod := by
    intro s u steps h
    induction h with
    | done => intro _; exact h1
    | step k1 k2 ih =>
      intro hg
      have := tiles_le k2
      rw [List.map_cons, List.prod_cons]
      exact hm _ _ (hγ _ (sub_pos.2 k1) (by linarith)) (ih (by linarith))
  induction h with
  | nil => exact h1
  | cons steps e _ _ ih =>
    obtain ⟨⟨_, q2⟩, q3⟩ := List.isChain_cons_cons.1 hts
    exact hm _ _ (tile e q2) (ih q3)

/-- With equal steps the product is a power. -/
theorem grows_even {M : Method} (hM : M ≠ .rkf45) {γ : F → F} {h t r : F} {ts : List F} (hts : (t :: ts).IsChain fun s u => u - s = h) (hg : M.Grows γ t ts r) : r = γ h ^ ts.length := by
  induction hg with
  | nil => simp
  | cons steps _ e _ ih =>
    obtain ⟨q1, q2⟩ := List.isChain_cons_cons.1 hts
    rw [e hM, ih q2, List.length_cons, pow_succ']
    simp [q1]

/-- For negative `c` and steps shorter than `1 / |c|` the factor is positive and at most one, so that the output neither changes its sign nor grows. -/
theorem decays {M : Method} {c g : F} (hc : c ≤ 0) (hg : -c * g < 1) {t r : F} {ts : List F} (hts : (t :: ts).IsChain fun s u => s < u ∧ u - s ≤ g)
    (h : M.Grows (fun h => M.factor (c * h)) t ts r) : 0 < r ∧ r ≤ 1 := by
  refine grows_all (P := fun r : F => 0 < r ∧ r ≤ (1 : F)) ⟨zero_lt_one, le_refl _⟩ (fun a b ha hb => ⟨mul_pos ha.1 hb.1, mul_le_one₀ ha.2 hb.1.le hb.2⟩) (fun h h1 h2 => ?_) hts h
  have z0 : c * h ≤ 0 := mul_nonpos_of_nonpos_of_nonneg hc h1.le
  have z1 : -1 < c * h := by
    have := mul_le_mul_of_nonneg_left h2 (neg_nonneg.2 hc)
    linarith
  generalize c * h = z at z0 z1
  obtain ⟨y, rfl⟩ : ∃ y, z = -y := ⟨-z, by ring⟩
  have y0 : 0 ≤ y := by linarith
  have y1 : y < 1 := by linarith
  have p2 : y ^ 2 ≤ y := by nlinarith
  have p3 : y ^ 3 ≤ y ^ 2 := by nlinarith [pow_nonneg y0 2]
  have p4 : y ^ 4 ≤ y ^ 3 := by nlinarith [pow_nonneg y0 3]
  have p5 : y ^ 5 ≤ y ^ 4 := by nlinarith [pow_nonneg y0 4]
  have q2 := pow_nonneg y0 2
  have q3 := pow_nonneg y0 3
  have q4 := pow_nonneg y0 4
  have q5 := pow_nonneg y0 5
  cases M with
  | euler => simp only [Method.factor]; constructor <;> linarith
  | rk4 =>
    simp only [Method.factor]
    have e : 1 + -y + (-y) ^ 2 / 2 + (-y) ^ 3 / 6 + (-y) ^ 4 / 24 = 1 - y + y ^ 2 / 2 - y ^ 3 / 6 + y ^ 4 / 24 := by ring
    rw [e]
    constructor <;> linarith
  | rkf45 =>
    simp only [Method.factor]
    have e : 1 + -y + (-y) ^ 2 / 2 + (-y) ^ 3 / 6 + (-y) ^ 4 / 24 + (-y) ^ 5 / 104 = 1 - y + y ^ 2 / 2 - y ^ 3 / 6 + y ^ 4 / 24 - y ^ 5 / 104 := by ring
    rw [e]
    constructor <;> linarith

/-- `Rk4`: the sign does not change however long the steps are. -/
theorem rk4_sign {c t r : F} {ts : List F} (h : Method.rk4.Grows (fun h => Method.rk4.factor (c * h)) t ts r) : 0 < r := by
  have pos : ∀ z : F, 0 < Method.rk4.factor z := by
    intro z
    simp only [Method.factor]
    have e : 1 + z + z ^ 2 / 2 + z ^ 3 / 6 + z ^ 4 / 24 = (z ^ 2 + 2 * z) ^ 2 / 24 + (z + 3 / 2) ^ 2 / 3 + 1 / 4 := by ring
    rw [e]
    positivity
  induction h with
  | nil => exact zero_lt_one
  | cons steps _ _ _ ih => exact mul_pos (List.prod_pos (by simp only [List.mem_map]; rintro _ ⟨p, _, rfl⟩; exact pos _)) ih

/-- `Rk4` and oscillations: with steps up to `sqrt (8 / k)` the energy does not grow. -/
theorem rk4_energy {k g : F} (hk : 0 ≤ k) (hg : k * g ^ 2 ≤ 8) {t r : F} {ts : List F} (hts : (t :: ts).IsChain fun s u => s < u ∧ u - s ≤ g)
    (h : Method.rk4.Grows (fun h => Method.rk4.energy (k * h ^ 2)) t ts r) : 0 ≤ r ∧ r ≤ 1 := by
  refine grows_all (P := fun r : F => 0 ≤ r ∧ r ≤ (1 : F)) ⟨zero_le_one, le_refl _⟩ (fun a b ha hb => ⟨mul_nonneg ha.1 hb.1, mul_le_one₀ ha.2 hb.1 hb.2⟩) (fun h h1 h2 => ?_) hts h
  have w0 : 0 ≤ k * h ^ 2 := by positivity
  have w1 : k * h ^ 2 ≤ 8 := (mul_le_mul_of_nonneg_left (pow_le_pow_left₀ h1.le h2 2) hk).trans hg
  generalize k * h ^ 2 = w at w0 w1
  simp only [Method.energy]
  constructor
  · have e : 1 - w ^ 3 / 72 + w ^ 4 / 576 = (1 - w / 2 + w ^ 2 / 24) ^ 2 + w * (1 - w / 6) ^ 2 := by ring
    rw [e]
    positivity
  · have : 0 ≤ w ^ 3 * (8 - w) := mul_nonneg (pow_nonneg w0 3) (by linarith)
    nlinarith

/-- `Rkf45` and oscillations: with steps up to `sqrt (5 / k)` the energy never decreases. -/
theorem rkf45_energy {k g : F} (hk : 0 ≤ k) (hg : k * g ^ 2 ≤ 5) {t r : F} {ts : List F} (hts : (t :: ts).IsChain fun s u => s < u ∧ u - s ≤ g)
    (h : Method.rkf45.Grows (fun h => Method.rkf45.energy (k * h ^ 2)) t ts r) : 1 ≤ r := by
  refine grows_all (P := fun r : F => (1 : F) ≤ r) (le_refl _) (fun a b ha hb => one_le_mul_of_one_le_of_one_le ha hb) (fun h h1 h2 => ?_) hts h
  have w0 : 0 ≤ k * h ^ 2 := by positivity
  have w1 : k * h ^ 2 ≤ 5 := (mul_le_mul_of_nonneg_left (pow_le_pow_left₀ h1.le h2 2) hk).trans hg
  generalize k * h ^ 2 = w at w0 w1
  simp only [Method.energy]
  have : 0 ≤ w ^ 3 * (5 / 936 - 11 / 7488 * w + w ^ 2 / 10816) := mul_nonneg (pow_nonneg w0 3) (by nlinarith)
  nlinarith

theorem euler_energy {k : F} (hk : 0 ≤ k) {t r : F} {ts : List F} (h : Method.euler.Grows (fun h => Method.euler.energy (k * h ^ 2)) t ts r) : 1 ≤ r := by
  have one : ∀ h : F, 1 ≤ Method.euler.energy (k * h ^ 2) := fun h => by
    simp only [Method.energy]
    have : 0 ≤ k * h ^ 2 := by positivity
    linarith
  induction h with
  | nil => exact le_refl _
  | cons steps _ e _ ih =>
    rw [e (by simp)]
    simp only [List.map_cons, List.map_nil, List.prod_cons, List.prod_nil, mul_one]
    exact one_le_mul_of_one_le_of_one_le (one _) ih

/-- C88, the energy of an oscillator with `k ≥ 0` after calls with gaps of at most `g`: with `Euler` it never decreases; with `Rk4` it never increases, if `k g ^ 2 ≤ 8`; with `Rkf45`
it never decreases, if `k g ^ 2 ≤ 5`; with `Euler` or `Rk4` and equal gaps `h` it is multiplied by the same number in each step. -/
theorem C88_energy (cfg : Config F) (ps : List (Wire F)) (ty : SigId → Ty) (rank : BlkId → Nat) (h : cfg.Sealed ps ty rank) (hpl : ∀ p ∈ ps, p.obj.Plain)
    (M : Method) (hM : cfg.stepper = some M.stepper) (x v d : SigId) (hx : ty x = .scalar) (hgx : ∃ p ∈ ps, p.obj.isState = true ∧ p.Gives x) (hdx : cfg.deriv x = some v)
    (hv : ty v = .scalar) (hgv : ∃ p ∈ ps, p.obj.isState = true ∧ p.Gives v) (hdv : cfg.deriv v = some d) (k : F) (hk : 0 ≤ k) (hc : Proportional cfg ps (-k) x d)
    (w : World F) (hw : w.New cfg ty) (hlog : w.log = []) (tPrev t0 minH maxH : F) (h0 : 0 < minH) (h1 : minH < maxH) (m0 m : Machine F)
    (hi : Call.exec cfg (.init t0) { w := w, s := { tPrev := tPrev } } = .ok () m0) (g : F) (ts : List F) (hts : Dense g t0 ts) (hr : RunsTo cfg minH maxH m0 ts m) :
    ∃ x0 v0 x1 v1, cfg.keptVal w x = some (.scalar x0) ∧ cfg.keptVal w v = some (.scalar v0) ∧ m.w.shown x = some (.scalar x1) ∧ m.w.shown v = some (.scalar v1) ∧
      (M = .euler → v0 ^ 2 + k * x0 ^ 2 ≤ v1 ^ 2 + k * x1 ^ 2) ∧ (M = .rk4 → k * g ^ 2 ≤ 8 → v1 ^ 2 + k * x1 ^ 2 ≤ v0 ^ 2 + k * x0 ^ 2) ∧
      (M = .rkf45 → k * g ^ 2 ≤ 5 → v0 ^ 2 + k * x0 ^ 2 ≤ v1 ^ 2 + k * x1 ^ 2) ∧
      (M ≠ .rkf45 → ∀ h, ((t0 :: ts).IsChain fun s u => u - s = h) → v1 ^ 2 + k * x1 ^ 2 = M.energy (k * h ^ 2) ^ ts.length * (v0 ^ 2 + k * x0 ^ 2)) := by
  obtain ⟨m0', x0, v0, a1, a2, a3, a4⟩ := C88_oscillator cfg ps ty rank h hpl M hM x v d hx hgx hdx hv hgv hdv k hc w hw hlog tPrev t0 minH maxH h0 h1
  rw [hi] at a1
  cases a1
  obtain ⟨x1, v1, r, r1, r2, r3, r4⟩ := (a4 ts (List.isChain_iff_pairwise.1 (List.IsChain.imp (fun _ _ e => e.1) hts))).2 m hr
  have e0 : 0 ≤ v0 ^ 2 + k * x0 ^ 2 := by positivity
  refine ⟨x0, v0, x1, v1, a2, a3, r1, r2, ?_, ?_, ?_, ?_⟩
  · rintro rfl
    rw [r3]
    exact le_mul_of_one_le_left e0 (euler_energy hk r4)
  · rintro rfl hg
    rw [r3]
    exact mul_le_of_le_one_left e0 (rk4_energy hk hg hts r4).2
  · rintro rfl hg
    rw [r3]
    exact le_mul_of_one_le_left e0 (rkf45_energy hk hg hts r4)
  · intro hne h hh
    rw [r3, grows_even hne hh r4]

/-- C88, decay: the output of an `Integrator` whose input is `c` times its output, after calls with gaps of at most `g`.  For negative `c` and `|c| g < 1` it keeps its sign and does
not grow, with all methods; with `Rk4` it keeps its sign for all gaps; with `Euler` or `Rk4` and equal gaps `h` it is multiplied by the same number in each step. -/
theorem C88_exponential (cfg : Config F) (ps : List (Wire F)) (ty : SigId → Ty) (rank : BlkId → Nat) (h : cfg.Sealed ps ty rank) (hpl : ∀ p ∈ ps, p.obj.Plain)
    (M : Method) (hM : cfg.stepper = some M.stepper) (x d : SigId) (hx : ty x = .scalar) (hgx : ∃ p ∈ ps, p.obj.isState = true ∧ p.Gives x) (hdx : cfg.deriv x = some d)
    (c : F) (hc : Proportional cfg ps c x d)
    (w : World F) (hw : w.New cfg ty) (hlog : w.log = []) (tPrev t0 minH maxH : F) (h0 : 0 < minH) (h1 : minH < maxH) (m0 m : Machine F)
    (hi : Call.exec cfg (.init t0) { w := w, s := { tPrev := tPrev } } = .ok () m0) (g : F) (ts : List F) (hts : Dense g t0 ts) (hr : RunsTo cfg minH maxH m0 ts m) :
    ∃ x0 r, cfg.keptVal w x = some (.scalar x0) ∧ m.w.shown x = some (.scalar (r * x0)) ∧ (c ≤ 0 → -c * g < 1 → 0 < r ∧ r ≤ 1) ∧ (M = .rk4 → 0 < r) ∧
      (M ≠ .rkf45 → ∀ h, ((t0 :: ts).IsChain fun s u => u - s = h) → r = M.factor (c * h) ^ ts.length) := by
  obtain ⟨m0', x0, a1, a2, _, a4⟩ := C88_decay cfg ps ty rank h hpl M hM x d hx hgx hdx c hc w hw hlog tPrev t0 minH maxH h0 h1
  rw [hi] at a1
  cases a1
  obtain ⟨r, r1, r2⟩ := (a4 ts (List.isChain_iff_pairwise.1 (List.IsChain.imp (fun _ _ e => e.1) hts))).2 m hr
  refine ⟨x0, r, a2, r1, fun k1 k2 => decays k1 k2 hts r2, ?_, fun hne h hh => grows_even hne hh r2⟩
  rintro rfl
  exact rk4_sign r2

end

/-! ## Example: the mass and the spring of samples/test04_mass_spring.cpp, and a leak -/

section
attribute [local instance] Arith.exact

def speed : Leaf ℝ := { id := 1, links := [(2, Demo.inp), (1, Demo.st)], kind := .integrator 2 1 }
def place : Leaf ℝ := { id := 2, links := [(1, Demo.inp), (0, Demo.st)], kind := .integrator 1 0 }
noncomputable def force : Leaf ℝ := { id := 3, links := [(0, Demo.rq), (2, Demo.ot)], kind := .gain (.scalar (-1)) 0 2 }
def level : Leaf ℝ := { id := 4, links := [(4, Demo.inp), (3, Demo.st)], kind := .integrator 4 3 }
noncomputable def flow : Leaf ℝ := { id := 5, links := [(3, Demo.rq), (4, Demo.ot)], kind := .gain (.scalar (-2)) 3 4 }

noncomputable def prog (M : Method) (st : Strategy) : Config ℝ where
  dbg := true
  model := .sub 100 [] [.leaf speed, .leaf place, .leaf force, .leaf level, .leaf flow]
  deriv s := if s = 3 then some 4 else if s = 0 then some 1 else if s = 1 then some 2 else none
  inputs := none
  modelInput _ := ([], none)
  stepper := some M.stepper
  strategy := st
  hash := id

noncomputable def wired : List (Wire ℝ) :=
  [⟨1, .integrator .double, [C58.sc "in" 2], [C58.sc "out" 1]⟩, ⟨2, .integrator .double, [C58.sc "in" 1], [C58.sc "out" 0]⟩,
    ⟨3, .gain .double (.scalar (-1)), [C58.sc "in" 0], [C58.sc "out" 2]⟩, ⟨4, .integrator .double, [C58.sc "in" 4], [C58.sc "out" 3]⟩,
    ⟨5, .gain .double (.scalar (-2)), [C58.sc "in" 3], [C58.sc "out" 4]⟩]

/-- The speed is 1/10 at the beginning. -/
noncomputable def fresh : World ℝ where
  sig _ := { ty := .scalar }
  mem b := if b = 1 then { value := .scalar (1/10) } else if b = 4 then { value := .scalar 7 } else { value := .scalar 0 }
  done _ := false
  log := []

theorem leaves_eq (M : Method) (st : Strategy) : (prog M st).model.leaves = [speed, place, force, level, flow] := by simp [prog, Block.leaves, leavesL]

theorem closed (M : Method) (st : Strategy) : (prog M st).Sealed wired (fun _ => .scalar) (fun b => b) := by
  have hg : ∀ p ∈ wired, ∀ i, p.Gives i → (p.id, i) ∈ [((1 : Nat), (1 : Nat)), (2, 0), (3, 2), (4, 3), (5, 4)] := by
    intro p hp i hi
    obtain ⟨k, t, hi⟩ := hi
    simp only [wired, List.mem_cons, List.not_mem_nil, or_false] at hp
    rcases hp with rfl | rfl | rfl | rfl | rfl <;> (simp only [C58.sc, List.mem_cons, List.not_mem_nil, or_false] at hi; cases hi; decide)
  have hk : ∀ t, (prog M st).inputKeys t = [] := fun t => rfl
  exact {
    dbg := rfl
    assembled := ⟨[speed, place, force, level, flow], by with_unfolding_all rfl, by rw [leaves_eq]⟩
    proper := by
      have : (prog M st).model.ids = [100, 1, 2, 3, 4, 5] := by simp [prog, speed, place, force, level, flow, Block.ids, Block.all, allL, Block.id]
      unfold Block.Proper
      rw [this]
      decide
    hash := fun _ => .refl _
    sane := by
      intro p hp
      have ha : ∀ es : Entries, (∀ q ∈ es, ∃ k i, q = C58.sc k i) → Agrees (fun _ => .scalar) es ∧ Sized 1 es := by
        intro es hes
        refine ⟨fun q hq i t e => ?_, fun q hq i m e => ?_⟩ <;> (obtain ⟨k, j, rfl⟩ := hes q hq; cases e)
        rfl
      have h1 : ∀ a i, ∀ q ∈ [C58.sc a i], ∃ k i, q = C58.sc k i := fun a i q hq => by
        rw [List.mem_singleton] at hq; exact ⟨_, _, hq⟩
      simp only [wired, List.mem_cons, List.not_mem_nil, or_false] at hp
      rcases hp with rfl | rfl | rfl | rfl | rfl <;> first
        | exact ⟨(ha _ (h1 _ _)).1, (ha _ (h1 _ _)).1, .inl ⟨1, Nat.one_pos, trivial, trivial, (ha _ (h1 _ _)).2, (ha _ (h1 _ _)).2⟩⟩
        | exact ⟨(ha _ (h1 _ _)).1, (ha _ (h1 _ _)).1, .inl ⟨1, Nat.one_pos, .inl ⟨trivial, _, rfl⟩, trivial, (ha _ (h1 _ _)).2, (ha _ (h1 _ _)).2⟩⟩
    once := by
      intro p hp q hq i h1 h2
      have key : ∀ a ∈ [((1 : Nat), (1 : Nat)), (2, 0), (3, 2), (4, 3), (5, 4)], ∀ b ∈ [((1 : Nat), (1 : Nat)), (2, 0), (3, 2), (4, 3), (5, 4)], a.2 = b.2 → a.1 = b.1 := by decide
      exact key _ (hg p hp i h1) _ (hg q hq i h2) rfl
    provided := fun p hp i hi => by
      right
      obtain ⟨k, t, hi⟩ := hi
      simp only [wired, List.mem_cons, List.not_mem_nil, or_false] at hp
      rcases hp with rfl | rfl | rfl | rfl | rfl <;> (simp only [C58.sc, List.mem_cons, List.not_mem_nil, or_false] at hi; cases hi)
      · exact ⟨_, .tail _ (.tail _ (.head _)), str "out", .scalar, .head _⟩
      · exact ⟨_, .head _, str "out", .scalar, .head _⟩
      · exact ⟨_, .tail _ (.head _), str "out", .scalar, .head _⟩
      · exact ⟨_, .tail _ (.tail _ (.tail _ (.tail _ (.head _)))), str "out", .scalar, .head _⟩
      · exact ⟨_, .tail _ (.tail _ (.tail _ (.head _))), str "out", .scalar, .head _⟩
    loops := by
      intro p hp i hn q hq hgi
      left
      have : i = 0 ∨ i = 3 := by
        simp only [wired, List.mem_cons, List.not_mem_nil, or_false] at hp
        rcases hp with rfl | rfl | rfl | rfl | rfl
        · exact hn.elim
        · exact hn.elim
        · obtain ⟨k, t, hi⟩ := hn
          simp only [C58.sc, List.mem_cons, List.not_mem_nil, or_false] at hi
          cases hi; exact .inl rfl
        · exact hn.elim
        · obtain ⟨k, t, hi⟩ := hn
          simp only [C58.sc, List.mem_cons, List.not_mem_nil, or_false] at hi
          cases hi; exact .inr rfl
      have G := hg q hq i hgi
      simp only [wired, List.mem_cons, List.not_mem_nil, or_false] at hq
      rcases hq with rfl | rfl | rfl | rfl | rfl
      · rfl
      · rfl
      · rcases this with rfl | rfl <;> exact absurd G (by decide)
      · rfl
      · rcases this with rfl | rfl <;> exact absurd G (by decide)
    inputs := fun f e => by cases e
    modelInput := ⟨fun t => ⟨fun p hp => (by cases hp), fun e h => (by cases h)⟩, fun _ => rfl⟩
    inputOnce := fun t => by rw [hk]; decide
    inputFree := fun t s hs => by rw [hk] at hs; cases hs
    stepper := fun st e => by
      cases e
      cases M
      · exact C26.dim_provided.1
      · exact C26.dim_provided.2.1
      · exact C26.dim_provided.2.2
    stepped := fun _ => rfl
    reuse := fun _ => ⟨_, .head _, rfl⟩ }

theorem new (M : Method) (st : Strategy) : fresh.New (prog M st) (fun _ => .scalar) where
  fine := {
    types := fun _ => rfl
    cells := fun _ => ⟨fun e => (by cases e), fun v e => (by cases e)⟩
    members := by
      intro l hl
      rw [leaves_eq] at hl
      simp only [List.mem_cons, List.not_mem_nil, or_false] at hl
      rcases hl with rfl | rfl | rfl | rfl | rfl <;> first | exact ⟨rfl, fun _ => rfl⟩ | trivial }
  done := fun _ => rfl
  record := fun l hl => by
    rw [leaves_eq] at hl
    simp only [List.mem_cons, List.not_mem_nil, or_false] at hl
    rcases hl with rfl | rfl | rfl | rfl | rfl <;> exact fun e => (by cases e)

theorem plain : ∀ p ∈ wired, p.obj.Plain := by simp [wired, Make.Plain]

theorem kept (M : Method) (st : Strategy) : (prog M st).keptVal fresh 0 = some (.scalar 0) ∧ (prog M st).keptVal fresh 1 = some (.scalar (1/10)) ∧
    (prog M st).keptVal fresh 3 = some (.scalar 7) := by
  unfold Config.keptVal
  rw [leaves_eq]
  exact ⟨rfl, rfl, rfl⟩

theorem states (M : Method) (st : Strategy) : (∃ p ∈ wired, p.obj.isState = true ∧ p.Gives 0) ∧ (∃ p ∈ wired, p.obj.isState = true ∧ p.Gives 1) ∧
    (∃ p ∈ wired, p.obj.isState = true ∧ p.Gives 3) ∧ Proportional (prog M st) wired (-1) 0 2 ∧ Proportional (prog M st) wired (-2) 3 4 :=
  ⟨⟨_, .tail _ (.head _), rfl, str "out", .scalar, .head _⟩, ⟨_, .head _, rfl, str "out", .scalar, .head _⟩, ⟨_, .tail _ (.tail _ (.tail _ (.head _))), rfl, str "out", .scalar, .head _⟩,
    C88_gain (closed M st) force (by rw [leaves_eq]; simp) _ _ _ rfl, C88_gain (closed M st) flow (by rw [leaves_eq]; simp) _ _ _ rfl⟩

/-- The energy of the mass and the spring is 1/100 at the beginning and the level in the leaking vessel is 7.  With calls less than 1/2 apart the energy never increases with `Rk4` and
never decreases with the other methods, and the vessel never runs empty. -/
example (M : Method) (st : Strategy) (g : ℝ) (h0 : 0 ≤ g) (hg : g < 1 / 2) (ts : List ℝ) (hts : Dense g 0 ts) :
    ∃ m0 m x v r, Call.exec (prog M st) (.init 0) { w := fresh, s := { tPrev := 0 } } = .ok () m0 ∧ RunsTo (prog M st) 1 2 m0 ts m ∧
      m.w.shown 0 = some (.scalar x) ∧ m.w.shown 1 = some (.scalar v) ∧ m.w.shown 3 = some (.scalar (r * 7)) ∧ (M = .rk4 → v ^ 2 + 1 * x ^ 2 ≤ 1 / 100) ∧
      (M ≠ .rk4 → 1 / 100 ≤ v ^ 2 + 1 * x ^ 2) ∧ 0 < r ∧ r ≤ 1 := by
  obtain ⟨s0, s1, s3, c1, c2⟩ := states M st
  obtain ⟨m0, _, a1, _, _, a4⟩ := C88_decay (prog M st) wired _ _ (closed M st) plain M rfl 3 4 rfl s3 rfl (-2) c2 fresh (new M st) rfl 0 0 1 2 (by norm_num) (by norm_num)
  obtain ⟨m, hm⟩ := (a4 ts (List.isChain_iff_pairwise.1 (List.IsChain.imp (fun _ _ e => e.1) hts))).1
  obtain ⟨x0, v0, x, v, e1, e2, e3, e4, e5, e6, e7, _⟩ := C88_energy (prog M st) wired _ _ (closed M st) plain M rfl 0 1 2 rfl s0 rfl rfl s1 rfl 1 (by norm_num) c1 fresh (new M st) rfl 0 0 1 2
    (by norm_num) (by norm_num) m0 m a1 g ts hts hm
  obtain ⟨l, r, d1, d2, d3, _⟩ := C88_exponential (prog M st) wired _ _ (closed M st) plain M rfl 3 4 rfl s3 rfl (-2) c2 fresh (new M st) rfl 0 0 1 2
    (by norm_num) (by norm_num) m0 m a1 g ts hts hm
  obtain ⟨k0, k1, k3⟩ := kept M st
  rw [k0] at e1
  rw [k1] at e2
  rw [k3] at d1
  cases e1
  cases e2
  cases d1
  refine ⟨m0, m, x, v, r, a1, hm, e3, e4, d2, fun hM => (e6 hM (by nlinarith)).trans (by norm_num), fun hM => ?_, d3 (by norm_num) (by linarith)⟩
  cases M with
  | euler => exact le_trans (by norm_num) (e5 rfl)
  | rk4 => exact absurd rfl hM
  | rkf45 => exact le_trans (by norm_num) (e7 rfl (by nlinarith))

end
end Pooya.C88
