import Verif.Spec.Quad
import Verif.Proof.Simpson
import Verif.Props.C77
import Verif.Props.C85

/-! # C87: an Integrator of a function of time adds up a rule for integrals -/

namespace Pooya.C87

open Pooya C60 C69 C72 C85 Within

set_option linter.unusedSectionVars false

section
variable {F : Type} [_root_.Field F] [LinearOrder F] [IsStrictOrderedRing F] [Archimedean F]
attribute [local instance] Arith.exact
variable {cfg : Config F} {ps : List (Wire F)} {ty : SigId → Ty} {rank : BlkId → Nat} {V : Vars}

theorem method_mem (M : Method) : (M.stepper : Stepper F) ∈ [euler, rk4, rkf45] := by cases M <;> simp [Method.stepper]

/-- One step of a method for `y' = g(t)`. -/
theorem step_rule (M : Method) (g : F → F) (s u q : F) : ((M.stepper s [q] u).exec (m := Id) (fun t _ => [g t])).1 = [q + M.rule g s u] := by
  cases M with
  | euler => rfl
  | rk4 =>
    show [q + Arith.lit 1 / Arith.lit 3 * ((u - s) / Arith.lit 2 * g s) + Arith.lit 2 / Arith.lit 3 * ((u - s) / Arith.lit 2 * g (s + (u - s) / Arith.lit 2)) +
      Arith.lit 1 / Arith.lit 3 * ((u - s) * g (s + (u - s) / Arith.lit 2)) + Arith.lit 1 / Arith.lit 6 * ((u - s) * g (s + (u - s)))] = _
    have e : s + (u - s) / 2 = (s + u) / 2 := by ring
    have e' : s + (u - s) = u := by ring
    simp only [Arith.lit, Rat.cast_ofNat, Rat.cast_one, e, e', Method.rule]
    congr 1
    ring
  | rkf45 =>
    show [q + Arith.lit 2375 / Arith.lit 20520 * ((u - s) * g s) + Arith.lit 11264 / Arith.lit 20520 * ((u - s) * g (s + (Arith.lit 3 / Arith.lit 8) * (u - s))) +
      Arith.lit 10985 / Arith.lit 20520 * ((u - s) * g (s + (Arith.lit 12 / Arith.lit 13) * (u - s))) - Arith.lit 4104 / Arith.lit 20520 * ((u - s) * g u)] = _
    simp only [Arith.lit, Rat.cast_ofNat, Method.rule]
    congr 1
    ring

/-- The value of the signal `o` alone. -/
def one (o : SigId) : List (List (F × SigId × Nat)) := [[(1, o, 0)]]

theorem one_total (g : SigId × Nat → F) (o : SigId) : (one o).map (Lump.total g) = [g (o, 0)] := by simp [one, Lump.total]

theorem slot_mem {o : SigId} (ho : o ∈ V.scalars) : (o, 0) ∈ Within.slots V := by
  unfold Within.slots
  exact List.mem_append_left _ (List.mem_map.2 ⟨o, ho, rfl⟩)

theorem read_one {o : SigId} (ho : o ∈ V.scalars) {val : SigId → Option (Val F)} {x : List F} {z : F} (h : Packed val V.size V.scalars V.arrays x)
    (hx : Lump.Of (Within.slots V) (one o) x [z]) : val o = some (.scalar z) := by
  obtain ⟨g, e1, e2⟩ := hx
  rw [one_total] at e2
  obtain ⟨h1, _, h3⟩ := (packed_iff fun _ _ => rfl).1 h
  obtain ⟨v, hv⟩ := h1 o ho
  rw [h3] at e1
  have := List.map_inj_left.1 e1 (o, 0) (slot_mem ho)
  cases e2
  rw [hv, ← this]
  simp only [comp, hv]

variable {o : SigId} {φ : F → F → F} {Inv : F → (BlkId → Mem F) → Prop} {M : Method}

theorem evolves (ho : o ∈ V.scalars) (hsz : ∀ s ∈ V.arrays, (cfg.deriv s).elim 0 V.size = V.size s)
    (hrate : ∀ mem s v x val, Inv s mem → Solution cfg V mem v x val → (cfg.deriv o).bind val = some (.scalar (φ s v)))
    (hkeep : ∀ mem s u x val mem', Inv s mem → s < u → Committed cfg V mem u x val mem' → Inv u mem')
    {t s q : F} {mem mem' : BlkId → Mem F} {x y : List F} {steps : List (F × F)} {val : SigId → Option (Val F)} (ht : Tiles s t steps) (hi : Inv s mem)
    (hx : Lump.Of (Within.slots V) (one o) x [q]) (he : Evolves cfg V M.stepper t mem s x steps y val mem') :
    Lump.Of (Within.slots V) (one o) y [q + (steps.map fun p => M.rule (φ p.1) p.1 p.2).sum] ∧
      val o = some (.scalar (q + (steps.map fun p => M.rule (φ p.1) p.1 p.2).sum)) ∧ Inv t mem' := by
  have one_step : ∀ {mem : BlkId → Mem F} {s u q h : F} {x y : List F}, Inv s mem → Lump.Of (Within.slots V) (one o) x [q] → (M.stepper s x u).By (Rhs cfg V mem) (y, h) →
      Lump.Of (Within.slots V) (one o) y [q + M.rule (φ s) s u] := by
    intro mem s u q h x y hi hx hb
    have := Lump.step (f := fun t _ => [φ s t]) (fun v x x' d _ hr => by
      obtain ⟨val, h1, h2⟩ := hr
      refine ⟨comp fun s => (cfg.deriv s).bind val, ((packed_iff hsz).1 h2).2.2, ?_⟩
      rw [one_total]
      simp only [comp, hrate _ _ _ _ _ hi h1]) (method_mem M) hx hb
    rwa [step_rule] at this
  induction he generalizing q with
  | last h1 _ h3 h4 =>
    cases ht with
    | step k1 k2 =>
      cases k2
      have := one_step hi hx h3
      simp only [List.map_cons, List.map_nil, List.sum_cons, List.sum_nil, add_zero]
      exact ⟨this, read_one ho h4.solution.state this, hkeep _ _ _ _ _ _ hi k1 h4⟩
  | step _ _ h3 h4 _ ih =>
    cases ht with
    | step k1 k2 =>
      obtain ⟨g1, g2, g3⟩ := ih k2 (hkeep _ _ _ _ _ _ hi k1 h4) (one_step hi hx h3)
      rw [add_assoc, ← List.sum_cons] at g1 g2
      exact ⟨g1, g2, g3⟩

theorem passes (ho : o ∈ V.scalars) (hsz : ∀ s ∈ V.arrays, (cfg.deriv s).elim 0 V.size = V.size s) (hs : cfg.stepper = some M.stepper)
    (hrate : ∀ mem s v x val, Inv s mem → Solution cfg V mem v x val → (cfg.deriv o).bind val = some (.scalar (φ s v)))
    (hkeep : ∀ mem s u x val mem', Inv s mem → s < u → Committed cfg V mem u x val mem' → Inv u mem')
    {a b : Snapshot F} {ts : List F} {q : F} (hi : Inv a.time a.mem) (hx : Lump.Of (Within.slots V) (one o) a.state [q]) (hv : a.vals o = some (.scalar q)) (h : Passes cfg V a ts b) :
    ∃ r, M.Sums φ a.time ts r ∧ b.vals o = some (.scalar (q + r)) := by
  induction h generalizing q with
  | nil => exact ⟨0, .nil, by rw [hv, add_zero]⟩
  | sample e =>
    rw [List.append_eq_nil_iff] at e
    rw [e.1] at ho
    cases ho
  | steps steps _ e1 e2 e3 e4 _ ih =>
    rw [hs] at e1
    cases e1
    obtain ⟨g1, g2, g3⟩ := evolves ho hsz hrate hkeep e2 hi hx e4
    obtain ⟨r, r1, r2⟩ := ih g3 g1 g2
    refine ⟨_, .cons steps e2 (fun h => e3 ?_) r1, by rw [r2, add_assoc]⟩
    cases M
    · simp [Method.stepper]
    · simp [Method.stepper]
    · exact (h rfl).elim

/-- C87: an `Integrator` whose input is `φ s u` at time `u` of the step that begins at `s`.  Its output starts with its initial value, and after each sequence of calls it is the
initial value plus the sum of what the rule of the method gives for the steps. -/
theorem C87_sums (cfg : Config F) (ps : List (Wire F)) (ty : SigId → Ty) (rank : BlkId → Nat) (h : cfg.Sealed ps ty rank) (hpl : ∀ p ∈ ps, p.obj.Plain)
    (M : Method) (hM : cfg.stepper = some M.stepper) (o d : SigId) (ho : ty o = .scalar) (hg : ∃ p ∈ ps, p.obj.isState = true ∧ p.Gives o) (hd : cfg.deriv o = some d)
    (φ : F → F → F) (Inv : F → (BlkId → Mem F) → Prop) (w : World F) (hw : w.New cfg ty) (hlog : w.log = []) (tPrev t0 minH maxH : F) (h0 : 0 < minH) (h1 : minH < maxH)
    (hfirst : ∀ V x val mem', (∀ s, s ∈ V.scalars ++ V.arrays ↔ ∃ p ∈ ps, p.obj.isState = true ∧ p.Gives s) → Committed cfg V w.mem t0 x val mem' → Inv t0 mem')
    (hkeep : ∀ V mem s u x val mem', (∀ s, s ∈ V.scalars ++ V.arrays ↔ ∃ p ∈ ps, p.obj.isState = true ∧ p.Gives s) → Inv s mem → s < u → Committed cfg V mem u x val mem' → Inv u mem')
    (hrate : ∀ V mem s u x val, (∀ s, s ∈ V.scalars ++ V.arrays ↔ ∃ p ∈ ps, p.obj.isState = true ∧ p.Gives s) → Inv s mem → Solution cfg V mem u x val → val d = some (.scalar (φ s u))) :
    ∃ (m0 : Machine F) (x0 : F), Call.exec cfg (.init t0) { w := w, s := { tPrev := tPrev } } = .ok () m0 ∧ cfg.keptVal w o = some (.scalar x0) ∧ m0.w.shown o = some (.scalar x0) ∧
      ∀ ts : List F, (t0 :: ts).Pairwise (· < ·) →
        (∃ m, RunsTo cfg minH maxH m0 ts m) ∧ ∀ m, RunsTo cfg minH maxH m0 ts m → ∃ r, M.Sums φ t0 ts r ∧ m.w.shown o = some (.scalar (x0 + r)) := by
  obtain ⟨m0, V, y0, a1, rfl, a3, a4, a5, a6, a7⟩ := C69_passage cfg ps ty rank h hpl (fun st' e => by rw [hM] at e; cases e; exact method_mem M) w hw hlog tPrev t0 minH maxH h0 h1
  have hV : C72.Sorted ps ty m0.vars := sorted_of h (fun _ => C57.ordered_exact) hw a1 a3 a4
  have hs : o ∈ m0.vars.scalars := by
    rcases List.mem_append.1 ((a3 o).2 hg) with k | k
    · exact k
    · obtain ⟨n, e⟩ := hV.arrays o k
      rw [ho] at e
      cases e
  obtain ⟨k1, _, k3⟩ := (packed_iff fun _ _ => rfl).1 a5
  obtain ⟨x0, hx0⟩ := k1 o hs
  have hof : Lump.Of (Within.slots m0.vars) (one o) y0 [x0] := ⟨_, k3, by rw [one_total]; simp only [comp, hx0]⟩
  have hv0 := read_one hs a6.solution.state hof
  refine ⟨m0, x0, a1, hx0, hv0, fun ts hts => ⟨(a7 ts hts).1, fun m hm => ?_⟩⟩
  obtain ⟨y, hp⟩ := (a7 ts hts).2 m hm
  exact passes (a := ⟨m0.w.mem, t0, y0, m0.w.shown⟩) hs (size_same h hV) hM (fun mem s v x val hi hsol => by rw [hd]; exact hrate _ mem s v x val a3 hi hsol)
    (fun mem s u x val mem' => hkeep _ mem s u x val mem' a3) (hfirst _ _ _ _ a3 a6) hof hv0 hp

theorem sums_euler {φ : F → F → F} {t r : F} {ts : List F} (h : Method.euler.Sums φ t ts r) : r = leftSum (fun s => φ s s) t ts := by
  induction h with
  | nil => rfl
  | cons steps _ e _ ih =>
    rw [e (by simp), ih]
    simp [leftSum, Method.rule]

theorem sums_rk4 {f : F → F} {t r : F} {ts : List F} (h : Method.rk4.Sums (fun _ => f) t ts r) : r = simpsonSum f t ts := by
  induction h with
  | nil => rfl
  | cons steps _ e _ ih =>
    rw [e (by simp), ih]
    simp [simpsonSum, Method.rule]

/-- C87, functions of time: an `Integrator` whose input is the function `f` of time adds up the rule of the method for `f`. -/
theorem C87_timed (cfg : Config F) (ps : List (Wire F)) (ty : SigId → Ty) (rank : BlkId → Nat) (h : cfg.Sealed ps ty rank) (hpl : ∀ p ∈ ps, p.obj.Plain)
    (M : Method) (hM : cfg.stepper = some M.stepper) (o d : SigId) (ho : ty o = .scalar) (hg : ∃ p ∈ ps, p.obj.isState = true ∧ p.Gives o) (hd : cfg.deriv o = some d)
    (f : F → F) (hf : Timed cfg ps d f) (w : World F) (hw : w.New cfg ty) (hlog : w.log = []) (tPrev t0 minH maxH : F) (h0 : 0 < minH) (h1 : minH < maxH) :
    ∃ (m0 : Machine F) (x0 : F), Call.exec cfg (.init t0) { w := w, s := { tPrev := tPrev } } = .ok () m0 ∧ cfg.keptVal w o = some (.scalar x0) ∧ m0.w.shown o = some (.scalar x0) ∧
      ∀ ts : List F, (t0 :: ts).Pairwise (· < ·) →
        (∃ m, RunsTo cfg minH maxH m0 ts m) ∧ ∀ m, RunsTo cfg minH maxH m0 ts m → ∃ r, m.w.shown o = some (.scalar (x0 + r)) ∧ M.Sums (fun _ => f) t0 ts r ∧
          (M = .euler → r = leftSum f t0 ts) ∧ (M = .rk4 → r = simpsonSum f t0 ts) := by
  obtain ⟨m0, x0, a1, a2, a3, a4⟩ := C87_sums cfg ps ty rank h hpl M hM o d ho hg hd (fun _ => f) (fun _ _ => True) w hw hlog tPrev t0 minH maxH h0 h1
    (fun _ _ _ _ _ _ => trivial) (fun _ _ _ _ _ _ _ _ _ _ _ => trivial) (fun V mem s u x val hV _ hs => hf V mem u x val hV hs)
  refine ⟨m0, x0, a1, a2, a3, fun ts hts => ⟨(a4 ts hts).1, fun m hm => ?_⟩⟩
  obtain ⟨r, r1, r2⟩ := (a4 ts hts).2 m hm
  refine ⟨r, r2, r1, ?_, ?_⟩
  · rintro rfl; exact sums_euler r1
  · rintro rfl; exact sums_rk4 r1

/-- The antiderivative of a polynomial of degree three. -/
def cubicArea (a b c d t : F) : F := a * t + b / 2 * t ^ 2 + c / 3 * t ^ 3 + d / 4 * t ^ 4

theorem rule_cubic {M : Method} (hM : M ≠ .euler) (a b c d s u : F) :
    M.rule (fun t => a + b * t + c * t ^ 2 + d * t ^ 3) s u = cubicArea a b c d u - cubicArea a b c d s := by
  cases M with
  | euler => exact (hM rfl).elim
  | rk4 => simp only [Method.rule, cubicArea]; ring
  | rkf45 => simp only [Method.rule, cubicArea]; ring

/-- Where the rule is the increase of a function, so is the sum. -/
theorem sums_increase {M : Method} {φ : F → F → F} {G : F → F} (hG : ∀ s u, s < u → M.rule (φ s) s u = G u - G s) {t r : F} {ts : List F} (h : M.Sums φ t ts r) :
    r = G ((t :: ts).getLast (by simp)) - G t := by
  have tile : ∀ {s u : F} {steps : List (F × F)}, Tiles s u steps → (steps.map fun p => M.rule (φ p.1) p.1 p.2).sum = G u - G s := by
    intro s u steps h
    induction h with
    | done => simp
    | step h1 _ ih => rw [List.map_cons, List.sum_cons, ih, hG _ _ h1]; ring
  induction h with
  | nil => simp
  | cons steps e _ _ ih => rw [tile e, ih, List.getLast_cons_cons]; ring

/-- C87, polynomials: with `Rk4` or `Rkf45` an `Integrator` of a polynomial of degree three in time shows the exact integral, whatever the times and the steps. -/
theorem C87_cubic (cfg : Config F) (ps : List (Wire F)) (ty : SigId → Ty) (rank : BlkId → Nat) (h : cfg.Sealed ps ty rank) (hpl : ∀ p ∈ ps, p.obj.Plain)
    (M : Method) (hM : cfg.stepper = some M.stepper) (hme : M ≠ .euler) (o e : SigId) (ho : ty o = .scalar) (hg : ∃ p ∈ ps, p.obj.isState = true ∧ p.Gives o) (hd : cfg.deriv o = some e)
    (a b c d : F) (hf : Timed cfg ps e fun t => a + b * t + c * t ^ 2 + d * t ^ 3) (w : World F) (hw : w.New cfg ty) (hlog : w.log = []) (tPrev t0 minH maxH : F)
    (h0 : 0 < minH) (h1 : minH < maxH) :
    ∃ (m0 : Machine F) (x0 : F), Call.exec cfg (.init t0) { w := w, s := { tPrev := tPrev } } = .ok () m0 ∧ cfg.keptVal w o = some (.scalar x0) ∧ m0.w.shown o = some (.scalar x0) ∧
      ∀ ts : List F, (t0 :: ts).Pairwise (· < ·) → (∃ m, RunsTo cfg minH maxH m0 ts m) ∧ ∀ m, RunsTo cfg minH maxH m0 ts m →
        m.w.shown o = some (.scalar (x0 + (cubicArea a b c d ((t0 :: ts).getLast (by simp)) - cubicArea a b c d t0))) := by
  obtain ⟨m0, x0, a1, a2, a3, a4⟩ := C87_timed cfg ps ty rank h hpl M hM o e ho hg hd _ hf w hw hlog tPrev t0 minH maxH h0 h1
  refine ⟨m0, x0, a1, a2, a3, fun ts hts => ⟨(a4 ts hts).1, fun m hm => ?_⟩⟩
  obtain ⟨r, r1, r2, _⟩ := (a4 ts hts).2 m hm
  rw [r1, sums_increase (fun s u _ => rule_cubic hme a b c d s u) r2]

/-- What a `Derivative` with the input `f` shows at time `u` of the step that begins at `s`: at the beginning of the step it shows its input. -/
def chordSlope (f : F → F) (s u : F) : F := if u = s then f s else (f u - f s) / (u - s)

/-- C87, `Derivative`: an `Integrator` of the `Derivative` of a function `f` of time adds up the rule of the method for the slopes of chords, except that the integrand at the
beginning of each step is `f` itself. -/
theorem C87_derivative (cfg : Config F) (ps : List (Wire F)) (ty : SigId → Ty) (rank : BlkId → Nat) (h : cfg.Sealed ps ty rank) (hpl : ∀ p ∈ ps, p.obj.Plain)
    (M : Method) (hM : cfg.stepper = some M.stepper) (o d x : SigId) (ho : ty o = .scalar) (hg : ∃ p ∈ ps, p.obj.isState = true ∧ p.Gives o) (hd : cfg.deriv o = some d)
    (l : Leaf F) (hl : l ∈ cfg.model.leaves) (hk : l.kind = .derivative x d) (f : F → F) (hf : Timed cfg ps x f)
    (w : World F) (hw : w.New cfg ty) (hlog : w.log = []) (tPrev t0 minH maxH : F) (h0 : 0 < minH) (h1 : minH < maxH) :
    ∃ (m0 : Machine F) (x0 : F), Call.exec cfg (.init t0) { w := w, s := { tPrev := tPrev } } = .ok () m0 ∧ cfg.keptVal w o = some (.scalar x0) ∧ m0.w.shown o = some (.scalar x0) ∧
      ∀ ts : List F, (t0 :: ts).Pairwise (· < ·) → (∃ m, RunsTo cfg minH maxH m0 ts m) ∧ ∀ m, RunsTo cfg minH maxH m0 ts m → ∃ r, m.w.shown o = some (.scalar (x0 + r)) ∧
        M.Sums (chordSlope f) t0 ts r ∧ (M = .euler → r = leftSum f t0 ts) := by
  have store : ∀ {V mem t y val mem'}, (∀ s, s ∈ V.scalars ++ V.arrays ↔ ∃ p ∈ ps, p.obj.isState = true ∧ p.Gives s) → Committed cfg V mem t y val mem' →
      (mem' l.id).firstStep = false ∧ (mem' l.id).t = some t ∧ (mem' l.id).x = some (.scalar (f t)) ∧ (mem' l.id).value = .scalar (f t) := by
    intro V mem t y val mem' hV hcm
    have := hcm.stored l hl
    unfold Leaf.Stored at this
    rw [hk] at this
    obtain ⟨v, e1, e2⟩ := this
    rw [hf V _ _ _ _ hV hcm.solution] at e1
    cases e1
    rw [e2]
    exact ⟨rfl, rfl, rfl, rfl⟩
  obtain ⟨m0, x0, a1, a2, a3, a4⟩ := C87_sums cfg ps ty rank h hpl M hM o d ho hg hd (chordSlope f)
    (fun t mem => (mem l.id).firstStep = false ∧ (mem l.id).t = some t ∧ (mem l.id).x = some (.scalar (f t)) ∧ (mem l.id).value = .scalar (f t)) w hw hlog tPrev t0 minH maxH h0 h1
    (fun V x val mem' hV hcm => store hV hcm) (fun V mem s u x val mem' hV _ _ hcm => store hV hcm) (fun V mem s u y val hV hi hsol => by
      obtain ⟨i1, i2, i3, i4⟩ := hi
      have := all_solved h hV hsol l hl
      unfold Leaf.Solved at this
      rw [hk] at this
      simp only [i1, Bool.false_eq_true, if_false] at this
      obtain ⟨t1, e1, e2⟩ := this
      rw [i2] at e1
      cases e1
      unfold chordSlope
      by_cases hsu : s = u
      · have hne : (s ==. u) = true := decide_eq_true hsu
        simp only [hne, if_true] at e2
        rw [e2, i4, if_pos hsu.symm]
      · have hne : (s ==. u) = false := decide_eq_false hsu
        simp only [hne, Bool.false_eq_true, if_false] at e2
        obtain ⟨v, v0, r, e3, e4, e5, e6⟩ := e2
        rw [hf V _ _ _ _ hV hsol] at e3
        rw [i3] at e4
        cases e3; cases e4
        rw [e6, if_neg (Ne.symm hsu)]
        cases e5
        rfl)
  refine ⟨m0, x0, a1, a2, a3, fun ts hts => ⟨(a4 ts hts).1, fun m hm => ?_⟩⟩
  obtain ⟨r, r1, r2⟩ := (a4 ts hts).2 m hm
  refine ⟨r, r2, r1, ?_⟩
  rintro rfl
  rw [sums_euler r1]
  simp only [chordSlope, if_true]

/-- The share of the integrand at the beginning of a step in the rule. -/
def Method.share : Method → F
  | .euler => 1
  | .rk4 => 1 / 6
  | .rkf45 => 25 / 216

/-- C87, refuted: the `Integrator` of the `Derivative` of a constant `c` should keep its initial value; it grows with the time, by `c` per second with `Euler`, a sixth of it with
`Rk4`, and 25/216 of it with `Rkf45`. -/
theorem C87_constant_refuted (cfg : Config F) (ps : List (Wire F)) (ty : SigId → Ty) (rank : BlkId → Nat) (h : cfg.Sealed ps ty rank) (hpl : ∀ p ∈ ps, p.obj.Plain)
    (M : Method) (hM : cfg.stepper = some M.stepper) (o d x : SigId) (ho : ty o = .scalar) (hg : ∃ p ∈ ps, p.obj.isState = true ∧ p.Gives o) (hd : cfg.deriv o = some d)
    (l : Leaf F) (hl : l ∈ cfg.model.leaves) (hk : l.kind = .derivative x d) (c : F) (hf : Timed cfg ps x fun _ => c)
    (w : World F) (hw : w.New cfg ty) (hlog : w.log = []) (tPrev t0 minH maxH : F) (h0 : 0 < minH) (h1 : minH < maxH) :
    ∃ (m0 : Machine F) (x0 : F), Call.exec cfg (.init t0) { w := w, s := { tPrev := tPrev } } = .ok () m0 ∧ cfg.keptVal w o = some (.scalar x0) ∧ m0.w.shown o = some (.scalar x0) ∧
      ∀ ts : List F, (t0 :: ts).Pairwise (· < ·) → (∃ m, RunsTo cfg minH maxH m0 ts m) ∧ ∀ m, RunsTo cfg minH maxH m0 ts m →
        m.w.shown o = some (.scalar (x0 + Method.share M * c * ((t0 :: ts).getLast (by simp) - t0))) := by
  obtain ⟨m0, x0, a1, a2, a3, a4⟩ := C87_derivative cfg ps ty rank h hpl M hM o d x ho hg hd l hl hk _ hf w hw hlog tPrev t0 minH maxH h0 h1
  refine ⟨m0, x0, a1, a2, a3, fun ts hts => ⟨(a4 ts hts).1, fun m hm => ?_⟩⟩
  obtain ⟨r, r1, r2, _⟩ := (a4 ts hts).2 m hm
  rw [r1, sums_increase (G := fun t => Method.share M * c * t) (fun s u hsu => ?_) r2]
  · congr 3; ring
  · have hp := sub_pos.2 hsu
    have n1 : u ≠ s := hsu.ne'
    have n2 : (s + u) / 2 ≠ s := fun e => by linarith
    have n3 : s + 3 / 8 * (u - s) ≠ s := fun e => by linarith
    have n4 : s + 12 / 13 * (u - s) ≠ s := fun e => by linarith
    cases M <;> simp only [Method.rule, chordSlope, Method.share, if_true, if_neg n1, if_neg n2, if_neg n3, if_neg n4, sub_self, zero_div] <;> ring

end

/-! ## Real functions -/

noncomputable section
open Set
attribute [local instance] Arith.exact

theorem chain_last {h t0 : ℝ} {ts : List ℝ} (hts : Dense h t0 ts) : t0 ≤ (t0 :: ts).getLast (by simp) := by
  by_cases e : ts = []
  · subst e; exact le_refl _
  · rw [List.getLast_cons e]; exact first_le hts e

/-- Errors of the rule add up. -/
theorem sum_near {h lo hi E : ℝ} (S : ℝ → List ℝ → ℝ) (R : ℝ → ℝ → ℝ) (hS0 : ∀ t, S t [] = 0) (hS : ∀ t u us, S t (u :: us) = R t u + S u us) (G : ℝ → ℝ)
    (hE : ∀ s u, lo ≤ s → s < u → u ≤ hi → u - s ≤ h → |G u - G s - R s u| ≤ E * (u - s)) {t : ℝ} {ts : List ℝ} (hts : Dense h t ts) (hlo : lo ≤ t)
    (hhi : (t :: ts).getLast (by simp) ≤ hi) : |S t ts - (G ((t :: ts).getLast (by simp)) - G t)| ≤ E * ((t :: ts).getLast (by simp) - t) := by
  induction ts generalizing t with
  | nil => simp [hS0]
  | cons u us ih =>
    obtain ⟨⟨q1, q2⟩, q3⟩ := List.isChain_cons_cons.1 hts
    have := chain_last (h := h) q3
    simp only [List.getLast_cons_cons] at hhi ⊢
    have g1 := ih q3 (hlo.trans q1.le) hhi
    have g2 := hE t u hlo q1 (this.trans hhi) q2
    rw [hS, abs_le] at *
    constructor <;> linarith [g1.1, g1.2, g2.1, g2.2]

/-- C87, `Euler`: for an input with the Lipschitz constant `L` and the antiderivative `G`, the `Integrator` is wrong by at most half the constant times the largest gap of the times,
times the time passed. -/
theorem C87_euler_near (cfg : Config ℝ) (ps : List (Wire ℝ)) (ty : SigId → Ty) (rank : BlkId → Nat) (hc : cfg.Sealed ps ty rank) (hpl : ∀ p ∈ ps, p.obj.Plain)
    (hM : cfg.stepper = some euler) (o d : SigId) (ho : ty o = .scalar) (hg : ∃ p ∈ ps, p.obj.isState = true ∧ p.Gives o) (hd : cfg.deriv o = some d)
    (f : ℝ → ℝ) (hf : Timed cfg ps d f) (w : World ℝ) (hw : w.New cfg ty) (hlog : w.log = []) (tPrev t0 minH maxH : ℝ) (h0 : 0 < minH) (h1 : minH < maxH) (m0 m : Machine ℝ)
    (hx : Call.exec cfg (.init t0) { w := w, s := { tPrev := tPrev } } = .ok () m0) (h : ℝ) (ts : List ℝ) (hts : Dense h t0 ts) (hr : RunsTo cfg minH maxH m0 ts m)
    (G : ℝ → ℝ) (hG : ∀ x ∈ Icc t0 ((t0 :: ts).getLast (by simp)), HasDerivWithinAt G (f x) (Icc t0 ((t0 :: ts).getLast (by simp))) x)
    (L : ℝ) (hL0 : 0 ≤ L) (hL : ∀ x ∈ Icc t0 ((t0 :: ts).getLast (by simp)), ∀ y ∈ Icc t0 ((t0 :: ts).getLast (by simp)), |f x - f y| ≤ L * |x - y|) :
    ∃ x0 z, cfg.keptVal w o = some (.scalar x0) ∧ m.w.shown o = some (.scalar z) ∧
      |z - (x0 + (G ((t0 :: ts).getLast (by simp)) - G t0))| ≤ L / 2 * h * ((t0 :: ts).getLast (by simp) - t0) := by
  obtain ⟨m0', x0, a1, a2, _, a4⟩ := C87_timed cfg ps ty rank hc hpl .euler hM o d ho hg hd f hf w hw hlog tPrev t0 minH maxH h0 h1
  rw [hx] at a1
  cases a1
  obtain ⟨r, r1, _, r3, _⟩ := (a4 ts (List.isChain_iff_pairwise.1 (List.IsChain.imp (fun _ _ e => e.1) hts))).2 m hr
  refine ⟨x0, _, a2, r1, ?_⟩
  rw [add_sub_add_left_eq_sub, r3 rfl]
  refine sum_near (lo := t0) (hi := (t0 :: ts).getLast (by simp)) (leftSum f) (fun t u => (u - t) * f t) (fun _ => rfl) (fun _ _ _ => rfl) G (fun s u k1 k2 k3 k4 => ?_) hts (le_refl _) (le_refl _)
  have := Chord.tangent hG hL ⟨k1, k2.le.trans k3⟩ ⟨k1.trans k2.le, k3⟩
  rw [mul_comm (f s)] at this
  refine this.trans ?_
  have : L / 2 * (u - s) ^ 2 = L / 2 * (u - s) * (u - s) := by ring
  rw [this]
  exact mul_le_mul_of_nonneg_right (mul_le_mul_of_nonneg_left k4 (by linarith)) (by linarith)

/-- C87, `Rk4`: for an input whose third derivative has the Lipschitz constant `L`, with the antiderivative `G`, the `Integrator` is wrong by at most the constant over 2880 times the
fourth power of the largest gap, times the time passed. -/
theorem C87_rk4_near (cfg : Config ℝ) (ps : List (Wire ℝ)) (ty : SigId → Ty) (rank : BlkId → Nat) (hc : cfg.Sealed ps ty rank) (hpl : ∀ p ∈ ps, p.obj.Plain)
    (hM : cfg.stepper = some rk4) (o d : SigId) (ho : ty o = .scalar) (hg : ∃ p ∈ ps, p.obj.isState = true ∧ p.Gives o) (hd : cfg.deriv o = some d)
    (f : ℝ → ℝ) (hf : Timed cfg ps d f) (w : World ℝ) (hw : w.New cfg ty) (hlog : w.log = []) (tPrev t0 minH maxH : ℝ) (h0 : 0 < minH) (h1 : minH < maxH) (m0 m : Machine ℝ)
    (hx : Call.exec cfg (.init t0) { w := w, s := { tPrev := tPrev } } = .ok () m0) (h : ℝ) (ts : List ℝ) (hts : Dense h t0 ts) (hr : RunsTo cfg minH maxH m0 ts m)
    (G f1 f2 f3 : ℝ → ℝ) (hG : ∀ x, HasDerivAt G (f x) x) (hf1 : ∀ x, HasDerivAt f (f1 x) x) (hf2 : ∀ x, HasDerivAt f1 (f2 x) x) (hf3 : ∀ x, HasDerivAt f2 (f3 x) x)
    (L : ℝ) (hL0 : 0 ≤ L) (hL : ∀ x ∈ Icc t0 ((t0 :: ts).getLast (by simp)), ∀ y ∈ Icc t0 ((t0 :: ts).getLast (by simp)), |f3 x - f3 y| ≤ L * |x - y|) :
    ∃ x0 z, cfg.keptVal w o = some (.scalar x0) ∧ m.w.shown o = some (.scalar z) ∧
      |z - (x0 + (G ((t0 :: ts).getLast (by simp)) - G t0))| ≤ L / 2880 * h ^ 4 * ((t0 :: ts).getLast (by simp) - t0) := by
  obtain ⟨m0', x0, a1, a2, _, a4⟩ := C87_timed cfg ps ty rank hc hpl .rk4 hM o d ho hg hd f hf w hw hlog tPrev t0 minH maxH h0 h1
  rw [hx] at a1
  cases a1
  obtain ⟨r, r1, _, _, r3⟩ := (a4 ts (List.isChain_iff_pairwise.1 (List.IsChain.imp (fun _ _ e => e.1) hts))).2 m hr
  refine ⟨x0, _, a2, r1, ?_⟩
  rw [add_sub_add_left_eq_sub, r3 rfl]
  refine sum_near (lo := t0) (hi := (t0 :: ts).getLast (by simp)) (simpsonSum f) (fun t u => (u - t) / 6 * (f t + 4 * f ((t + u) / 2) + f u)) (fun _ => rfl) (fun _ _ _ => rfl) G
    (fun s u k1 k2 k3 k4 => ?_) hts (le_refl _) (le_refl _)
  have hs : Icc s u ⊆ Icc t0 ((t0 :: ts).getLast (by simp)) := Icc_subset_Icc k1 k3
  refine (Simpson.simpson hG hf1 hf2 hf3 k2.le fun x hx y hy => hL x (hs hx) y (hs hy)).trans ?_
  have : L / 2880 * (u - s) ^ 5 = L / 2880 * (u - s) ^ 4 * (u - s) := by ring
  rw [this]
  exact mul_le_mul_of_nonneg_right (mul_le_mul_of_nonneg_left (pow_le_pow_left₀ (by linarith) k4 4) (by linarith)) (by linarith)

/-! ## Example -/

def area : Leaf ℝ := { id := 1, links := [(0, Demo.inp), (1, Demo.st)], kind := .integrator 0 1 }
def rate : Leaf ℝ := { id := 2, links := [(0, Demo.rq), (2, Demo.ot)], kind := .derivative 0 2 }
def back : Leaf ℝ := { id := 3, links := [(2, Demo.inp), (3, Demo.st)], kind := .integrator 2 3 }

/-- The function `f` of time (signal 0) goes to an `Integrator`, and by way of a `Derivative` to another one. -/
def prog (f : ℝ → ℝ) (M : Method) (st : Strategy) : Config ℝ where
  dbg := true
  model := .sub 100 [] [.leaf back, .leaf rate, .leaf area]
  deriv s := if s = 3 then some 2 else if s = 1 then some 0 else none
  inputs := none
  modelInput t := ([(0, .scalar (f t))], none)
  stepper := some M.stepper
  strategy := st
  hash := id

def wired : List (Wire ℝ) :=
  [⟨1, .integrator .double, [C58.sc "in" 0], [C58.sc "out" 1]⟩, ⟨2, .derivative .double, [C58.sc "in" 0], [C58.sc "out" 2]⟩, ⟨3, .integrator .double, [C58.sc "in" 2], [C58.sc "out" 3]⟩]

def fresh : World ℝ where
  sig _ := { ty := .scalar }
  mem _ := { value := .scalar 5 }
  done _ := false
  log := []

theorem leaves_eq (f : ℝ → ℝ) (M : Method) (st : Strategy) : (prog f M st).model.leaves = [back, rate, area] := by simp [prog, Block.leaves, leavesL]

theorem closed (f : ℝ → ℝ) (M : Method) (st : Strategy) (hst : st ≠ .reuse) : (prog f M st).Sealed wired (fun _ => .scalar) (fun b => b) := by
  have hg : ∀ p ∈ wired, ∀ i, p.Gives i → (p.id, i) ∈ [((1 : Nat), (1 : Nat)), (2, 2), (3, 3)] := by
    intro p hp i hi
    obtain ⟨k, t, hi⟩ := hi
    simp only [wired, List.mem_cons, List.not_mem_nil, or_false] at hp
    rcases hp with rfl | rfl | rfl <;> (simp only [C58.sc, List.mem_cons, List.not_mem_nil, or_false] at hi; cases hi; decide)
  have ht : ∀ p ∈ wired, ∀ i, p.Takes i → (p.id, i) ∈ [((1 : Nat), (0 : Nat)), (2, 0), (3, 2)] := by
    intro p hp i hi
    obtain ⟨k, t, hi⟩ := hi
    simp only [wired, List.mem_cons, List.not_mem_nil, or_false] at hp
    rcases hp with rfl | rfl | rfl <;> (simp only [C58.sc, List.mem_cons, List.not_mem_nil, or_false] at hi; cases hi; decide)
  have hk : ∀ t, (prog f M st).inputKeys t = [0] := fun t => rfl
  have apart : ∀ a ∈ [((1 : Nat), (1 : Nat)), (2, 2), (3, 3)], ¬ a.2 ∈ [0] := by decide
  exact {
    dbg := rfl
    assembled := ⟨[area, rate, back], by with_unfolding_all rfl, by
      rw [leaves_eq]
      exact (List.reverse_perm [area, rate, back])⟩
    proper := by
      have : (prog f M st).model.ids = [100, 3, 2, 1] := by simp [prog, area, rate, back, Block.ids, Block.all, allL, Block.id]
      unfold Block.Proper
      rw [this]
      decide
    hash := fun _ => .refl _
    sane := by
      intro p hp
      have ha : ∀ es : Entries, (∀ q ∈ es, ∃ k i, q = C58.sc k i) → Agrees (fun _ => .scalar) es ∧ Sized 1 es := by
        intro es hes
        refine ⟨fun q hq i t e => ?_, fun q hq i m e => ?_⟩ <;> (obtain ⟨k, j, rfl⟩ := hes q hq; cases e)
        rfl
      have h1 : ∀ a i, ∀ q ∈ [C58.sc a i], ∃ k i, q = C58.sc k i := fun a i q hq => by
        rw [List.mem_singleton] at hq; exact ⟨_, _, hq⟩
      simp only [wired, List.mem_cons, List.not_mem_nil, or_false] at hp
      rcases hp with rfl | rfl | rfl <;>
        exact ⟨(ha _ (h1 _ _)).1, (ha _ (h1 _ _)).1, .inl ⟨1, Nat.one_pos, trivial, trivial, (ha _ (h1 _ _)).2, (ha _ (h1 _ _)).2⟩⟩
    once := by
      intro p hp q hq i h1 h2
      have key : ∀ a ∈ [((1 : Nat), (1 : Nat)), (2, 2), (3, 3)], ∀ b ∈ [((1 : Nat), (1 : Nat)), (2, 2), (3, 3)], a.2 = b.2 → a.1 = b.1 := by decide
      exact key _ (hg p hp i h1) _ (hg q hq i h2) rfl
    provided := fun p hp i hi => by
      have := ht p hp i hi
      simp only [List.mem_cons, Prod.mk.injEq, List.not_mem_nil, or_false] at this
      rcases this with ⟨_, rfl⟩ | ⟨_, rfl⟩ | ⟨_, rfl⟩
      · exact .inl fun t => by rw [hk]; simp
      · exact .inl fun t => by rw [hk]; simp
      · exact .inr ⟨_, .tail _ (.head _), str "out", .scalar, .head _⟩
    loops := by
      intro p hp i hn q hq hgi
      have G := apart _ (hg q hq i hgi)
      have T := ht p hp i
      simp only [wired, List.mem_cons, List.not_mem_nil, or_false] at hp
      rcases hp with rfl | rfl | rfl
      · exact hn.elim
      · have := T hn
        simp only [List.mem_cons, Prod.mk.injEq, List.not_mem_nil, or_false] at this
        rcases this with ⟨_, rfl⟩ | ⟨_, rfl⟩ | ⟨e, rfl⟩
        · exact absurd (.head _) G
        · exact absurd (.head _) G
        · cases e
      · exact hn.elim
    inputs := fun f e => by cases e
    modelInput := ⟨fun t => ⟨fun p hp => by
      simp only [prog, List.mem_cons, List.not_mem_nil, or_false] at hp
      subst hp
      exact ⟨rfl, fun _ => rfl⟩, fun e h => (by cases h)⟩, fun _ => rfl⟩
    inputOnce := fun t => by rw [hk]; decide
    inputFree := fun t s hs => by
      rw [hk] at hs
      refine ⟨⟨_, .head _, ?_⟩, fun p hp hgi => apart _ (hg p hp s hgi) hs⟩
      simp only [List.mem_cons, List.not_mem_nil, or_false] at hs
      subst hs
      exact ⟨str "in", .scalar, .head _⟩
    stepper := fun st e => by
      cases e
      cases M
      · exact C26.dim_provided.1
      · exact C26.dim_provided.2.1
      · exact C26.dim_provided.2.2
    stepped := fun _ => rfl
    reuse := fun e => (hst e).elim }

theorem new (f : ℝ → ℝ) (M : Method) (st : Strategy) : fresh.New (prog f M st) (fun _ => .scalar) where
  fine := {
    types := fun _ => rfl
    cells := fun _ => ⟨fun e => (by cases e), fun v e => (by cases e)⟩
    members := by
      intro l hl
      rw [leaves_eq] at hl
      simp only [List.mem_cons, List.not_mem_nil, or_false] at hl
      rcases hl with rfl | rfl | rfl
      · exact ⟨rfl, fun _ => rfl⟩
      · exact ⟨⟨rfl, fun _ => rfl⟩, fun e => (by cases e), fun v e => (by cases e)⟩
      · exact ⟨rfl, fun _ => rfl⟩ }
  done := fun _ => rfl
  record := fun _ _ _ => rfl

theorem plain : ∀ p ∈ wired, p.obj.Plain := by simp [wired, Make.Plain]

theorem timed (f : ℝ → ℝ) (M : Method) (st : Strategy) : Timed (prog f M st) wired 0 f := C85_input 0 f fun t => by
  show _ ∈ [((0 : Nat), Val.scalar (f t))]
  simp

theorem kept (f : ℝ → ℝ) (M : Method) (st : Strategy) : (prog f M st).keptVal fresh 1 = some (.scalar 5) ∧ (prog f M st).keptVal fresh 3 = some (.scalar 5) := by
  unfold Config.keptVal
  rw [leaves_eq]
  exact ⟨rfl, rfl⟩

theorem gives_area : ∃ p ∈ wired, p.obj.isState = true ∧ p.Gives 1 := ⟨_, .head _, rfl, str "out", .scalar, .head _⟩

theorem gives_back : ∃ p ∈ wired, p.obj.isState = true ∧ p.Gives 3 := ⟨_, .tail _ (.tail _ (.head _)), rfl, str "out", .scalar, .head _⟩

/-- The integral of the sine with `Euler` and with `Rk4`. -/
example (M : Method) (st : Strategy) (hst : st ≠ .reuse) (h : ℝ) (ts : List ℝ) (hts : Dense h 0 ts) :
    ∃ m0 m z, Call.exec (prog Real.sin M st) (.init 0) { w := fresh, s := { tPrev := 0 } } = .ok () m0 ∧ RunsTo (prog Real.sin M st) 1 2 m0 ts m ∧ m.w.shown 1 = some (.scalar z) ∧
      (M = .euler → |z - (5 + (1 - Real.cos ((0 :: ts).getLast (by simp))))| ≤ 1 / 2 * h * (0 :: ts).getLast (by simp)) ∧
      (M = .rk4 → |z - (5 + (1 - Real.cos ((0 :: ts).getLast (by simp))))| ≤ 1 / 2880 * h ^ 4 * (0 :: ts).getLast (by simp)) := by
  have hp := List.isChain_iff_pairwise.1 (List.IsChain.imp (fun _ _ e => e.1) hts : (0 :: ts).IsChain (· < ·))
  obtain ⟨m0, x0, a1, a2, _, a4⟩ := C87_timed (prog Real.sin M st) wired _ _ (closed _ M st hst) plain M rfl 1 0 rfl gives_area rfl Real.sin (timed _ M st) fresh (new _ M st) rfl 0 0 1 2
    (by norm_num) (by norm_num)
  obtain ⟨⟨m, hm⟩, b⟩ := a4 ts hp
  obtain ⟨r, r1, _⟩ := b m hm
  have dG : ∀ x, HasDerivAt (fun x => -Real.cos x) (Real.sin x) x := fun x => by
    have := (Real.hasDerivAt_cos x).neg
    rwa [neg_neg] at this
  refine ⟨m0, m, _, a1, hm, r1, ?_, ?_⟩
  · rintro rfl
    obtain ⟨x1, z, e1, e2, e3⟩ := C87_euler_near _ wired _ _ (closed _ _ st hst) plain rfl 1 0 rfl gives_area rfl Real.sin (timed _ _ st) fresh (new _ _ st) rfl 0 0 1 2 (by norm_num)
      (by norm_num) m0 m a1 h ts hts hm (fun x => -Real.cos x) (fun x _ => (dG x).hasDerivWithinAt) 1 zero_le_one (fun x _ y _ => gently Real.hasDerivAt_sin Real.abs_cos_le_one x y)
    rw [(kept Real.sin .euler st).1] at e1
    rw [r1] at e2
    cases e1; cases e2
    rw [Real.cos_zero, sub_zero] at e3
    convert e3 using 3
    ring
  · rintro rfl
    obtain ⟨x1, z, e1, e2, e3⟩ := C87_rk4_near _ wired _ _ (closed _ _ st hst) plain rfl 1 0 rfl gives_area rfl Real.sin (timed _ _ st) fresh (new _ _ st) rfl 0 0 1 2 (by norm_num)
      (by norm_num) m0 m a1 h ts hts hm (fun x => -Real.cos x) Real.cos (fun x => -Real.sin x) (fun x => -Real.cos x) dG Real.hasDerivAt_sin Real.hasDerivAt_cos
      (fun x => (Real.hasDerivAt_sin x).neg) 1 zero_le_one (fun x _ y _ => gently (f := fun x => -Real.cos x) dG Real.abs_sin_le_one x y)
    rw [(kept Real.sin .rk4 st).1] at e1
    rw [r1] at e2
    cases e1; cases e2
    rw [Real.cos_zero, sub_zero] at e3
    convert e3 using 3
    ring

/-- The integral of a cubic with `Rk4` or `Rkf45`. -/
example (M : Method) (hM : M ≠ .euler) (st : Strategy) (hst : st ≠ .reuse) (ts : List ℝ) (hts : (0 :: ts).Pairwise (· < ·)) :
    ∃ m0 m, Call.exec (prog (fun t => 1 + 0 * t + 3 * t ^ 2 + 4 * t ^ 3) M st) (.init 0) { w := fresh, s := { tPrev := 0 } } = .ok () m0 ∧
      RunsTo (prog (fun t => 1 + 0 * t + 3 * t ^ 2 + 4 * t ^ 3) M st) 1 2 m0 ts m ∧
      m.w.shown 1 = some (.scalar (5 + ((0 :: ts).getLast (by simp) + (0 :: ts).getLast (by simp) ^ 3 + (0 :: ts).getLast (by simp) ^ 4))) := by
  obtain ⟨m0, x0, a1, a2, _, a4⟩ := C87_cubic _ wired _ _ (closed _ M st hst) plain M rfl hM 1 0 rfl gives_area rfl 1 0 3 4 (timed _ M st) fresh (new _ M st) rfl 0 0 1 2
    (by norm_num) (by norm_num)
  obtain ⟨⟨m, hm⟩, b⟩ := a4 ts hts
  rw [(kept _ M st).1] at a2
  cases a2
  refine ⟨m0, m, a1, hm, (b m hm).trans ?_⟩
  simp only [cubicArea]
  congr 3
  ring

/-- The `Derivative` of 1 is integrated. -/
example (M : Method) (st : Strategy) (hst : st ≠ .reuse) : ∃ m0 m, Call.exec (prog (fun _ => 1) M st) (.init 0) { w := fresh, s := { tPrev := 0 } } = .ok () m0 ∧
    RunsTo (prog (fun _ => 1) M st) 1 2 m0 [2, 3, 6] m ∧ m.w.shown 3 = some (.scalar (5 + Method.share M * 6)) := by
  obtain ⟨m0, x0, a1, a2, _, a4⟩ := C87_constant_refuted _ wired _ _ (closed _ M st hst) plain M rfl 3 2 0 rfl gives_back rfl rate (by rw [leaves_eq]; simp) rfl 1 (timed _ M st) fresh
    (new _ M st) rfl 0 0 1 2 (by norm_num) (by norm_num)
  obtain ⟨⟨m, hm⟩, b⟩ := a4 [2, 3, 6] (by norm_num)
  rw [(kept _ M st).2] at a2
  cases a2
  refine ⟨m0, m, a1, hm, (b m hm).trans ?_⟩
  simp

end

end Pooya.C87
