import Verif.Proof.Tempo
import Verif.Proof.Restrict

/-! Step size control with the state variables in another order, and its determinism. -/

namespace Pooya.Within

open Pooya C60 C69

set_option linter.unusedSectionVars false

section
variable {K : Type} [Arith K] {V V' : Vars} {cfg cfg' : Config K} {κ : (BlkId → Mem K) → BlkId → Mem K} {C : SigId → Prop}
variable {mem mem' : BlkId → Mem K} {t u : K} {x d : List K} {val : SigId → Option (Val K)} {g : SigId × Nat → K}

/-- A step of any of the methods, with the proposed step size. -/
theorem Contains.tries (h : Contains κ C cfg cfg' V V') (hmax : ∀ f : SigId × Nat → K, maxAbs ((slots V).map f) = maxAbs ((slots V').map f))
    {st : Stepper K} (hst : st ∈ [euler, rk4, rkf45]) {y : List K} {q : K} (hs : (st t ((slots V').map g) u).By (Rhs cfg' V' mem) (y, q)) :
    ∃ f, y = (slots V').map f ∧ (st t ((slots V).map g) u).By (Rhs cfg V (κ mem)) ((slots V).map f, q) := by
  simp only [List.mem_cons, List.not_mem_nil, or_false] at hst
  rcases hst with rfl | rfl | rfl
  · exact h.step (by simp) hs
  · exact h.step (by simp) hs
  · obtain ⟨d1, h1, hs⟩ := hs
    obtain ⟨f1, rfl, k1⟩ := h.rhs h1
    obtain ⟨d2, h2, hs⟩ := hs
    simp only [vsmul_slots, vadd_slots] at h2
    obtain ⟨f2, rfl, k2⟩ := h.rhs h2
    obtain ⟨d3, h3, hs⟩ := hs
    simp only [vsmul_slots, vadd_slots] at h3
    obtain ⟨f3, rfl, k3⟩ := h.rhs h3
    obtain ⟨d4, h4, hs⟩ := hs
    simp only [vsmul_slots, vadd_slots, vsub_slots] at h4
    obtain ⟨f4, rfl, k4⟩ := h.rhs h4
    obtain ⟨d5, h5, hs⟩ := hs
    simp only [vsmul_slots, vadd_slots, vsub_slots] at h5
    obtain ⟨f5, rfl, k5⟩ := h.rhs h5
    obtain ⟨d6, h6, e⟩ := hs
    simp only [vsmul_slots, vadd_slots, vsub_slots] at h6
    obtain ⟨f6, rfl, k6⟩ := h.rhs h6
    simp only [vsmul_slots, vadd_slots, vsub_slots] at e
    have e : (y, q) = _ := e
    obtain ⟨e1, e2⟩ := Prod.mk.inj e
    rw [← hmax] at e2
    suffices hr : ∃ r : List K × K, (rkf45 t ((slots V).map g) u).By (Rhs cfg V (κ mem)) r ∧ r.1 = (slots V).map (fun s => g s +. Arith.lit 2375 /. Arith.lit 20520 *. ((u -. t) *. f1 s) +.
        Arith.lit 11264 /. Arith.lit 20520 *. ((u -. t) *. f3 s) +. Arith.lit 10985 /. Arith.lit 20520 *. ((u -. t) *. f4 s) -. Arith.lit 4104 /. Arith.lit 20520 *. ((u -. t) *. f5 s)) ∧ r.2 = q by
      obtain ⟨⟨_, q'⟩, hr, rfl, rfl⟩ := hr
      exact ⟨_, e1, hr⟩
    refine ⟨(_, _), ⟨_, k1, (slots V).map f2, ?_, (slots V).map f3, ?_, (slots V).map f4, ?_, (slots V).map f5, ?_, (slots V).map f6, ?_, rfl⟩, ?_, ?_⟩
    iterate 5 (simp only [vsmul_slots, vadd_slots, vsub_slots]; assumption)
    · simp only [vsmul_slots, vadd_slots, vsub_slots]
    · rw [e2]
      simp only [vsmul_slots, vadd_slots, vsub_slots]

theorem Contains.adapts (h : Contains κ C cfg cfg' V V') (hmax : ∀ f : SigId × Nat → K, maxAbs ((slots V).map f) = maxAbs ((slots V').map f))
    {st : Stepper K} (hst : st ∈ [euler, rk4, rkf45]) {minH maxH t1 t2 : K} {force : Bool} {y : List K} {es : List (StepEv K)}
    (ha : Adapts cfg' V' st minH maxH t mem t1 t2 force x es y val mem') : ∀ {g}, x = (slots V').map g →
      ∃ f v1, y = (slots V').map f ∧ (∀ s, C s → v1 s = val s) ∧ Adapts cfg V st minH maxH t (κ mem) t1 t2 force ((slots V).map g) es ((slots V).map f) v1 (κ mem') := by
  induction ha with
  | reject a1 a2 a3 _ ih =>
    rintro g rfl
    obtain ⟨_, rfl, k⟩ := h.tries hmax hst a2
    obtain ⟨f, v1, e, ev, r⟩ := ih rfl
    exact ⟨f, v1, e, ev, .reject a1 k a3 r⟩
  | step a1 a2 a3 a4 a5 _ ih =>
    rintro g rfl
    obtain ⟨_, rfl, k⟩ := h.tries hmax hst a2
    obtain ⟨_, _, k5⟩ := h.committed a5
    obtain ⟨f, v1, e, ev, r⟩ := ih rfl
    exact ⟨f, v1, e, ev, .step a1 k a3 a4 k5 r⟩
  | last a1 a2 a3 a4 a5 =>
    rintro g rfl
    obtain ⟨f, rfl, k⟩ := h.tries hmax hst a2
    obtain ⟨v1, ev, k5⟩ := h.committed a5
    exact ⟨f, v1, rfl, ev, .last a1 k a3 a4 k5⟩

theorem Contains.paces (h : Contains κ C cfg cfg' V V') (hmax : ∀ f : SigId × Nat → K, maxAbs ((slots V).map f) = maxAbs ((slots V').map f))
    (hss : V.scalars ++ V.arrays = [] ↔ V'.scalars ++ V'.arrays = []) (hst : V.scalars ++ V.arrays ≠ [] → cfg.stepper = cfg'.stepper)
    (he : ∀ st, cfg'.stepper = some st → st ∈ [euler, rk4, rkf45]) {minH maxH : K} {a b : Snapshot K} {ts : List K} {es : List (StepEv K)}
    (hp : Paces cfg' V' minH maxH a ts es b) : ∀ {g v0}, a.state = (slots V').map g → (∀ s, C s → v0 s = a.vals s) → ∃ f v1, b.state = (slots V').map f ∧ (∀ s, C s → v1 s = b.vals s) ∧
      Paces cfg V minH maxH ⟨κ a.mem, a.time, (slots V).map g, v0⟩ ts es ⟨κ b.mem, b.time, (slots V).map f, v1⟩ := by
  induction hp with
  | nil => exact fun {g v0} e ev => ⟨g, v0, e, ev, .nil⟩
  | @steps a c b ts st es es' k1 k2 k3 k4 ih =>
    intro g v0 e ev
    have hne : V.scalars ++ V.arrays ≠ [] := fun e => k1 (hss.1 e)
    obtain ⟨f, v2, e2, ev2, k7⟩ := h.adapts hmax (he _ k2) k3 e
    obtain ⟨f', v1, e3, ev3, k8⟩ := ih e2 ev2
    exact ⟨f', v1, e3, ev3, .steps (b := ⟨κ c.mem, c.time, (slots V).map f, v2⟩) hne ((hst hne).trans k2) k7 k8⟩
  | @sample a c b ts es k1 k2 k3 ih =>
    intro g v0 e ev
    have e2 := ((packed_iff fun _ _ => rfl).1 k2.solution.state).2.2
    rw [e2] at k2
    obtain ⟨v2, ev2, k2⟩ := h.committed k2
    obtain ⟨f', v1, e3, ev3, k8⟩ := ih e2 ev2
    exact ⟨f', v1, e3, ev3, .sample (b := ⟨κ c.mem, c.time, (slots V).map (comp c.vals), v2⟩) (hss.2 k1) k2 k8⟩

/-! ### Determinism -/

variable {ps : List (Wire K)} {ty : SigId → Ty} {rank : BlkId → Nat}

theorem adapts_unique (h : cfg.Sealed ps ty rank) (hV : ∀ s, s ∈ V.scalars ++ V.arrays ↔ ∃ p ∈ ps, p.obj.isState = true ∧ p.Gives s) {st : Stepper K} {minH maxH t1 t2 : K} {force : Bool}
    {y : List K} {es : List (StepEv K)} (ha : Adapts cfg V st minH maxH t mem t1 t2 force x es y val mem') : ∀ {mem2 mem2' : BlkId → Mem K} {es2 y2 val2},
      (∀ l ∈ cfg.model.leaves, mem l.id = mem2 l.id) → Adapts cfg V st minH maxH t mem2 t1 t2 force x es2 y2 val2 mem2' →
      es = es2 ∧ y = y2 ∧ (∀ l ∈ cfg.model.leaves, mem' l.id = mem2' l.id) ∧ ∀ s, (∃ p ∈ ps, p.Takes s ∨ p.Gives s) → val s = val2 s := by
  have hp := C59.C59_complete cfg ps ty rank h
  have hby : ∀ {mem mem2 : BlkId → Mem K} {p : StepProg K} {r r' : List K × K}, (∀ l ∈ cfg.model.leaves, mem l.id = mem2 l.id) → p.By (Rhs cfg V mem) r → p.By (Rhs cfg V mem2) r' → r = r' :=
    fun {mem mem2 _ _ _} hm => by_unique (R := Rhs cfg V mem) (R' := Rhs cfg V mem2) fun t x d d' r r' => (rhs_mem hm r).unique (explicit_sealed h hV) hp.complete r'
  induction ha with
  | reject a1 a2 a3 a4 ih =>
    intro mem2 mem2' es2 y2 val2 hm h2
    obtain ⟨_, _, b1, b2, -, -⟩ := Superpose.Adapts.inv h2
    obtain ⟨rfl, rfl⟩ := Prod.mk.inj (hby hm a2 b1)
    obtain ⟨es', rfl, b3⟩ := b2 a3
    obtain ⟨rfl, r⟩ := ih hm b3
    exact ⟨rfl, r⟩
  | step a1 a2 a3 a4 a5 a6 ih =>
    intro mem2 mem2' es2 y2 val2 hm h2
    obtain ⟨_, _, b1, -, b2, -⟩ := Superpose.Adapts.inv h2
    obtain ⟨rfl, rfl⟩ := Prod.mk.inj (hby hm a2 b1)
    obtain ⟨_, _, es', rfl, b3, b4⟩ := b2 a3 a4
    obtain ⟨rfl, r⟩ := ih (committed_unique h hV hm a5 b3).1 b4
    exact ⟨rfl, r⟩
  | last a1 a2 a3 a4 a5 =>
    intro mem2 mem2' es2 y2 val2 hm h2
    obtain ⟨_, _, b1, -, -, b2⟩ := Superpose.Adapts.inv h2
    obtain ⟨rfl, rfl⟩ := Prod.mk.inj (hby hm a2 b1)
    obtain ⟨rfl, rfl, b3⟩ := b2 a3 a4
    exact ⟨rfl, rfl, committed_unique h hV hm a5 b3⟩

theorem paces_unique (h : cfg.Sealed ps ty rank) (hV : ∀ s, s ∈ V.scalars ++ V.arrays ↔ ∃ p ∈ ps, p.obj.isState = true ∧ p.Gives s) {minH maxH : K} {ts : List K} {a b : Snapshot K}
    {es : List (StepEv K)} (hp : Paces cfg V minH maxH a ts es b) : ∀ {a' b' : Snapshot K} {es' : List (StepEv K)}, C69.Alike cfg ps a a' → Paces cfg V minH maxH a' ts es' b' →
      es = es' ∧ C69.Alike cfg ps b b' := by
  induction hp with
  | nil =>
    intro a' b' es' ha h2
    generalize hl : ([] : List K) = l at h2
    cases h2 with
    | nil => exact ⟨rfl, ha⟩
    | steps => cases hl
    | sample => cases hl
  | @steps a b c ts st es1 es2 k1 k2 k3 k4 ih =>
    intro a' c' es' ha h2
    generalize hl : b.time :: ts = l at h2
    cases h2 with
    | nil => cases hl
    | @steps _ b' _ _ st' es1' es2' q1 q2 q3 q4 =>
      obtain ⟨e, rfl⟩ := List.cons_eq_cons.1 hl
      rw [k2] at q2
      cases q2
      rw [← e, ← ha.time, ← ha.state] at q3
      obtain ⟨rfl, r1, r2, r3⟩ := adapts_unique h hV k3 ha.mem q3
      obtain ⟨rfl, r⟩ := ih ⟨e, r1, r2, r3⟩ q4
      exact ⟨rfl, r⟩
    | sample q => exact (k1 q).elim
  | @sample a b c ts es k1 k2 k3 ih =>
    intro a' c' es' ha h2
    generalize hl : b.time :: ts = l at h2
    cases h2 with
    | nil => cases hl
    | steps q => exact (q k1).elim
    | @sample _ b' _ _ es q1 q2 q3 =>
      obtain ⟨e, rfl⟩ := List.cons_eq_cons.1 hl
      have e1 := (packed_nil k1).1 k2.solution.state
      have e2 := (packed_nil k1).1 q2.solution.state
      rw [← e, e2] at q2
      rw [e1] at k2
      obtain ⟨r2, r3⟩ := committed_unique h hV ha.mem k2 q2
      exact ih ⟨e, e1.trans e2.symm, r2, r3⟩ q3

end

end Pooya.Within
