import Verif.Spec.Near
import Verif.Props.C93
import Verif.Props.C88
import Mathlib.Analysis.Complex.Exponential

/-!
# C94 — nearby beginnings stay near

Full statement: let the derivatives of two states that differ by at most `δ` differ by at most `L δ`.  Then two simulations of the diagram from initial values that differ by at most `δ`,
asked for the same times with Euler or Rk4, differ after every call of `run` by at most `δ` times what the method makes of 1 with the differential equation `x' = L x`, and so by at most
`δ e^(L (t - t0))`.  If with Euler two states are never farther apart after following their derivatives for the time `g`, then two simulations asked for times with gaps of at most `g` are
never farther apart than their initial values.

Proved: `C94_near`, `C94_exp`, `C94_closing` (and `C94_sharp`: the bound can be reached), for all closed diagrams without TriggeredIntegrators, with scalars and arrays, in exact arithmetic.  Rkf45 chooses different steps for the two
simulations, so nothing of the kind is claimed for it.
-/

namespace Pooya.C94

open Pooya C60 C69 C72 Within

set_option linter.unusedSectionVars false

section
variable {F : Type} [_root_.Field F] [LinearOrder F] [IsStrictOrderedRing F] [Archimedean F]
attribute [local instance] Arith.exact
variable {cfg : Config F} {ps : List (Wire F)} {ty : SigId → Ty} {rank : BlkId → Nat} {V : Vars} {t0 g : F}

/-- Numbers for the state signals. -/
structure Flat (V : Vars) (z : SigId → Nat → F) : Prop where
  none : ∀ s, s ∉ V.scalars ++ V.arrays → ∀ i, z s i = 0
  scalar : ∀ s ∈ V.scalars, ∀ i, z s i = z s 0
  array : ∀ s ∈ V.arrays, ∀ i, V.size s ≤ i → z s i = 0

theorem Flat.comb {z y : SigId → Nat → F} (hz : Flat V z) (hy : Flat V y) (k : F) : Flat V fun s i => z s i + k * y s i where
  none s hs i := by rw [hz.none s hs, hy.none s hs]; simp
  scalar s hs i := by rw [hz.scalar s hs i, hy.scalar s hs i]
  array s hs i hi := by rw [hz.array s hs i hi, hy.array s hs i hi]; simp

theorem Flat.ext {z y : SigId → Nat → F} (hz : Flat V z) (hy : Flat V y) (h : (Within.slots V).map (fun q => z q.1 q.2) = (Within.slots V).map (fun q => y q.1 q.2)) : z = y := by
  have key := List.map_inj_left.1 h
  funext s i
  by_cases hs : s ∈ V.scalars ++ V.arrays
  · rcases List.mem_append.1 hs with hs | hs
    · rw [hz.scalar s hs, hy.scalar s hs]
      exact key (s, 0) (by unfold Within.slots; simp [hs])
    · by_cases hi : i < V.size s
      · exact key (s, i) (by unfold Within.slots; simp [hs, hi])
      · rw [hz.array s hs i (by omega), hy.array s hs i (by omega)]
  · rw [hz.none s hs, hy.none s hs]

theorem is_state (h : cfg.Sealed ps ty rank) (hV : C72.Sorted ps ty V) (s : SigId) : s ∈ V.scalars ++ V.arrays ↔ (cfg.deriv s).isSome := by
  constructor
  · intro hs
    obtain ⟨p, hp, hst, hg⟩ := (hV.mem s).1 hs
    obtain ⟨l, hl, e⟩ := state_leaf h hp hst hg
    exact (C58_states cfg ps h.assembled (C59.sealed_proper h)).2.1 l hl s e
  · intro e
    obtain ⟨l, hl, e'⟩ := C59.deriv_state h e
    obtain ⟨p, hp, hf⟩ := C59.leaf_wire h hl
    exact (hV.mem s).2 ⟨p, hp, (hf.state s e').2, (hf.state s e').1⟩

theorem flat_states (h : cfg.Sealed ps ty rank) (hV : C72.Sorted ps ty V) {val : SigId → Option (Val F)} {x : List F} (hx : Packed val V.size V.scalars V.arrays x) :
    Flat V (cfg.states val) ∧ x = (Within.slots V).map fun q => cfg.states val q.1 q.2 := by
  obtain ⟨x1, x2, x3⟩ := (packed_iff fun _ _ => rfl).1 hx
  refine ⟨⟨fun s hs i => ?_, fun s hs i => ?_, fun s hs i hi => ?_⟩, ?_⟩
  · rw [is_state h hV] at hs
    exact if_neg hs
  · obtain ⟨v, e⟩ := x1 s hs
    simp [Config.states, e, Val.part]
  · obtain ⟨v, e, e'⟩ := x2 s hs
    simp only [Config.states, e, Option.elim_some, Val.part]
    rw [List.getD_eq_default _ _ (by omega), ite_self]
  · rw [x3]
    refine List.map_congr_left fun q hq => ?_
    have hs : (cfg.deriv q.1).isSome := by
      rw [← is_state h hV]
      unfold Within.slots at hq
      simp only [List.mem_append, List.mem_map, List.mem_flatMap] at hq
      rcases hq with ⟨s, hs, rfl⟩ | ⟨s, hs, i, -, rfl⟩
      · exact List.mem_append.2 (.inl hs)
      · exact List.mem_append.2 (.inr hs)
    show comp val (q.1, q.2) = _
    rw [C93.comp_part, Config.states, if_pos hs]

theorem flat_slopes (h : cfg.Sealed ps ty rank) (hV : C72.Sorted ps ty V) {val : SigId → Option (Val F)} {d : List F}
    (hd : Packed (fun s => (cfg.deriv s).bind val) (fun s => (cfg.deriv s).elim 0 V.size) V.scalars V.arrays d) :
    Flat V (cfg.slopes val) ∧ d = (Within.slots V).map fun q => cfg.slopes val q.1 q.2 := by
  obtain ⟨x1, x2, x3⟩ := (packed_iff (size_same h hV)).1 hd
  have key : ∀ s i, cfg.slopes val s i = ((cfg.deriv s).bind val).elim 0 (Val.part i) := fun s i => by
    unfold Config.slopes
    cases cfg.deriv s <;> rfl
  refine ⟨⟨fun s hs i => ?_, fun s hs i => ?_, fun s hs i hi => ?_⟩, ?_⟩
  · rw [is_state h hV, Bool.not_eq_true, Option.isSome_eq_false_iff, Option.isNone_iff_eq_none] at hs
    rw [key, hs]
    rfl
  · obtain ⟨v, e⟩ := x1 s hs
    simp only [key, e, Option.elim_some, Val.part]
  · obtain ⟨v, e, e'⟩ := x2 s hs
    rw [size_same h hV s hs] at e'
    simp only [key, e, Option.elim_some, Val.part]
    rw [List.getD_eq_default _ _ (by omega)]
  · rw [x3]
    refine List.map_congr_left fun q hq => ?_
    show comp _ (q.1, q.2) = _
    rw [C93.comp_part, key]

theorem map_comb {α : Type} {l : List α} {z d : α → F} {k : F} : vadd (l.map z) (vsmul k (l.map d)) = l.map fun q => z q + k * d q := by
  unfold vadd vsmul
  rw [List.map_map, List.zipWith_map_left, List.zipWith_map_right, List.zipWith_self]
  rfl

theorem map_comb' {α : Type} {l : List α} {z d : α → F} {k c : F} : vadd (l.map z) (vsmul k (vsmul c (l.map d))) = l.map fun q => z q + k * c * d q := by
  have : vsmul k (vsmul c (l.map d)) = vsmul (k * c) (l.map d) := by
    unfold vsmul
    rw [List.map_map]
    exact List.map_congr_left fun q _ => (mul_assoc k c q).symm
  rw [this, map_comb]

/-- A step of the method from the state `z` at the time `t` to the state `y` at the time `u`. -/
def Moved (cfg : Config F) (ty : SigId → Ty) (t u : F) (z y : SigId → Nat → F) : Method → Prop
  | .euler => ∃ v, cfg.Solves ty t v ∧ cfg.states v = z ∧ y = fun s i => z s i + (u - t) * cfg.slopes v s i
  | .rk4 => ∃ v1 v2 v3 v4, cfg.Solves ty t v1 ∧ cfg.Solves ty (t + (u - t) / 2) v2 ∧ cfg.Solves ty (t + (u - t) / 2) v3 ∧ cfg.Solves ty (t + (u - t)) v4 ∧ cfg.states v1 = z ∧
      (cfg.states v2 = fun s i => z s i + (u - t) / 2 * cfg.slopes v1 s i) ∧ (cfg.states v3 = fun s i => z s i + (u - t) / 2 * cfg.slopes v2 s i) ∧
      (cfg.states v4 = fun s i => z s i + (u - t) * cfg.slopes v3 s i) ∧
      y = fun s i => z s i + (u - t) / 6 * (cfg.slopes v1 s i + 2 * cfg.slopes v2 s i + 2 * cfg.slopes v3 s i + cfg.slopes v4 s i)
  | .rkf45 => False

/-- Steps of the method from time to time. -/
inductive Walk (cfg : Config F) (ty : SigId → Ty) (M : Method) : F → (SigId → Nat → F) → List F → (SigId → Nat → F) → Prop
  | nil {t : F} {z : SigId → Nat → F} : Walk cfg ty M t z [] z
  | cons {t u : F} {z y x : SigId → Nat → F} {ts : List F} : Moved cfg ty t u z y M → Walk cfg ty M u y ts x → Walk cfg ty M t z (u :: ts) x

theorem moved (h : cfg.Sealed ps ty rank) (hV : C72.Sorted ps ty V) {M : Method} (hM : M ≠ .rkf45) {t u : F} {mem : BlkId → Mem F} {x : List F} {y : List F} {k : F}
    {val val' : SigId → Option (Val F)} (hx : Packed val V.size V.scalars V.arrays x) (hs : (M.stepper t x u).By (Rhs cfg V mem) (y, k)) (hy : Packed val' V.size V.scalars V.arrays y) :
    Moved cfg ty t u (cfg.states val) (cfg.states val') M := by
  obtain ⟨f0, e0⟩ := flat_states h hV hx
  obtain ⟨f', e'⟩ := flat_states h hV hy
  cases M with
  | rkf45 => exact absurd rfl hM
  | euler =>
    obtain ⟨d, ⟨v, q1, q2⟩, e⟩ := hs
    obtain ⟨f1, e1⟩ := flat_states h hV q1.state
    obtain ⟨g1, d1⟩ := flat_slopes h hV q2
    refine ⟨v, C93.solves h hV q1, f1.ext f0 (e1.symm.trans e0), f'.ext (f0.comb g1 _) ?_⟩
    rw [← e', show y = _ from congrArg Prod.fst e, e0, d1, map_comb]
    rfl
  | rk4 =>
    obtain ⟨d1, ⟨v1, p1, q1⟩, d2, ⟨v2, p2, q2⟩, d3, ⟨v3, p3, q3⟩, d4, ⟨v4, p4, q4⟩, e⟩ := hs
    obtain ⟨f1, e1⟩ := flat_states h hV p1.state
    obtain ⟨f2, e2⟩ := flat_states h hV p2.state
    obtain ⟨f3, e3⟩ := flat_states h hV p3.state
    obtain ⟨f4, e4⟩ := flat_states h hV p4.state
    obtain ⟨g1, r1⟩ := flat_slopes h hV q1
    obtain ⟨g2, r2⟩ := flat_slopes h hV q2
    obtain ⟨g3, r3⟩ := flat_slopes h hV q3
    obtain ⟨g4, r4⟩ := flat_slopes h hV q4
    have two : ((u -. t) /. Arith.lit 2 : F) = (u - t) / 2 := by simp [exact_sub, exact_div, exact_lit]
    refine ⟨v1, v2, v3, v4, C93.solves h hV p1, ?_, ?_, C93.solves h hV p4, f1.ext f0 (e1.symm.trans e0), f2.ext (f0.comb g1 _) ?_, f3.ext (f0.comb g2 _) ?_, f4.ext (f0.comb g3 _) ?_, ?_⟩
    · have := C93.solves h hV p2
      rwa [two] at this
    · have := C93.solves h hV p3
      rwa [two] at this
    · rw [← e2, two, e0, r1, map_comb]
    · rw [← e3, two, e0, r2, map_comb]
    · rw [← e4, e0, r3, map_comb]
      rfl
    · have fin := (((f0.comb g1 (1 / 3 * ((u - t) / 2))).comb g2 (2 / 3 * ((u - t) / 2))).comb g3 (1 / 3 * (u - t))).comb g4 (1 / 6 * (u - t))
      have : cfg.states val' = _ := f'.ext fin (by
        rw [← e', show y = _ from congrArg Prod.fst e, two, e0, r1, r2, r3, r4, map_comb', map_comb', map_comb', map_comb']
        refine List.map_congr_left fun q _ => ?_
        simp only [exact_div, exact_lit, exact_sub]
        norm_num)
      rw [this]
      funext s i
      ring

theorem walks (h : cfg.Sealed ps ty rank) (hV : C72.Sorted ps ty V) {M : Method} (hM : M ≠ .rkf45) (he : ∀ st, cfg.stepper = some st → st = M.stepper) (hne : V.scalars ++ V.arrays ≠ [])
    {a b : Snapshot F} {ts : List F} (hp : Passes cfg V a ts b) (ha : Packed a.vals V.size V.scalars V.arrays a.state) :
    Walk cfg ty M a.time (cfg.states a.vals) ts (cfg.states b.vals) := by
  induction hp with
  | nil => exact .nil
  | @steps a b c ts st steps k1 k2 k3 k4 k5 k6 ih =>
    obtain rfl := he st k2
    rw [k4 (by cases M <;> simp [Method.stepper] at hM ⊢)] at k5
    cases k5 with
    | last a1 a2 a3 a4 => exact .cons (moved h hV hM ha a3 a4.solution.state) (ih a4.solution.state)
    | step a1 a2 a3 a4 a5 => cases a5
  | sample k1 => exact absurd k1 hne

/-! ## Two simulations -/

theorem Nearby.comb {δ ε k : F} {z y d e : SigId → Nat → F} (h1 : Nearby δ z y) (h2 : Nearby ε d e) (hk : 0 ≤ k) : Nearby (δ + k * ε) (fun s i => z s i + k * d s i) (fun s i => y s i + k * e s i) := by
  intro s i
  have : z s i + k * d s i - (y s i + k * e s i) = (z s i - y s i) + k * (d s i - e s i) := by ring
  rw [this]
  refine (abs_add_le _ _).trans (add_le_add (h1 s i) ?_)
  rw [abs_mul, abs_of_nonneg hk]
  exact mul_le_mul_of_nonneg_left (h2 s i) hk

theorem moved_near {L : F} (hL : cfg.Lipschitz ty t0 L) {M : Method} {t u δ : F} (ht : t0 ≤ t) (hu : t < u) {z y z' y' : SigId → Nat → F} (h1 : Moved cfg ty t u z z' M)
    (h2 : Moved cfg ty t u y y' M) (hn : Nearby δ z y) : Nearby (M.factor (L * (u - t)) * δ) z' y' := by
  have hh : 0 ≤ u - t := sub_nonneg.2 hu.le
  cases M with
  | rkf45 => exact h1.elim
  | euler =>
    obtain ⟨v, a1, rfl, rfl⟩ := h1
    obtain ⟨w, b1, rfl, rfl⟩ := h2
    have := Nearby.comb hn (hL t v w δ ht a1 b1 hn) hh
    rwa [show δ + (u - t) * (L * δ) = Method.euler.factor (L * (u - t)) * δ by unfold Method.factor; ring] at this
  | rk4 =>
    obtain ⟨v1, v2, v3, v4, a1, a2, a3, a4, rfl, a6, a7, a8, rfl⟩ := h1
    obtain ⟨w1, w2, w3, w4, b1, b2, b3, b4, rfl, b6, b7, b8, rfl⟩ := h2
    have hh2 : 0 ≤ (u - t) / 2 := by linarith
    have n1 := hL _ _ _ _ ht a1 b1 hn
    have m2 := Nearby.comb hn n1 hh2
    rw [← a6, ← b6] at m2
    have n2 := hL _ _ _ _ (by linarith) a2 b2 m2
    have m3 := Nearby.comb hn n2 hh2
    rw [← a7, ← b7] at m3
    have n3 := hL _ _ _ _ (by linarith) a3 b3 m3
    have m4 := Nearby.comb hn n3 hh
    rw [← a8, ← b8] at m4
    have n4 := hL _ _ _ _ (by linarith) a4 b4 m4
    have := Nearby.comb (Nearby.comb (Nearby.comb (Nearby.comb hn n1 (k := (u - t) / 6) (by linarith)) n2 (k := (u - t) / 3) (by linarith)) n3 (k := (u - t) / 3) (by linarith)) n4
      (k := (u - t) / 6) (by linarith)
    intro s i
    refine le_of_eq_of_le ?_ ((this s i).trans_eq ?_)
    · congr 1
      ring
    · unfold Method.factor
      ring

theorem walk_near {L : F} (hL : cfg.Lipschitz ty t0 L) {M : Method} {t : F} {ts : List F} {z z' : SigId → Nat → F} (h1 : Walk cfg ty M t z ts z') :
    ∀ {y y' : SigId → Nat → F} {δ : F}, Walk cfg ty M t y ts y' → t0 ≤ t → (t :: ts).IsChain (· < ·) → Nearby δ z y → Nearby (M.spread L t ts * δ) z' y' := by
  induction h1 with
  | nil =>
    intro y y' δ h2 _ _ hn
    cases h2
    simpa [Method.spread] using hn
  | cons k1 _ ih =>
    intro y y' δ h2 ht hts hn
    cases h2 with
    | cons j1 j2 =>
      obtain ⟨g1, g2⟩ := List.isChain_cons_cons.1 hts
      have := ih j2 (ht.trans g1.le) g2 (moved_near hL ht g1 k1 j1 hn)
      rwa [show ∀ a b c : F, a * (b * c) = b * a * c from fun a b c => by ring] at this

theorem walk_closing (hL : cfg.Closing ty t0 g) {t δ : F} {ts : List F} {z z' : SigId → Nat → F} (h1 : Walk cfg ty .euler t z ts z') :
    ∀ {y y' : SigId → Nat → F}, Walk cfg ty .euler t y ts y' → t0 ≤ t → (t :: ts).IsChain (fun s u => s < u ∧ u - s ≤ g) → Nearby δ z y → Nearby δ z' y' := by
  induction h1 with
  | nil =>
    intro y y' h2 _ _ hn
    cases h2
    exact hn
  | cons k1 _ ih =>
    intro y y' h2 ht hts hn
    cases h2 with
    | cons j1 j2 =>
      obtain ⟨⟨g1, g2⟩, g3⟩ := List.isChain_cons_cons.1 hts
      refine ih j2 (ht.trans g1.le) g3 ?_
      obtain ⟨v, a1, rfl, rfl⟩ := k1
      obtain ⟨w, b1, rfl, rfl⟩ := j1
      rename_i t u _ _ _
      have hg : 0 < g := (sub_pos.2 g1).trans_le g2
      have := hL t v w δ ht a1 b1 hn
      intro s i
      have c1 := hn s i
      have c2 := this s i
      have hθ : 0 ≤ (u - t) / g ∧ (u - t) / g ≤ 1 := ⟨div_nonneg (sub_nonneg.2 g1.le) hg.le, (div_le_one hg).2 g2⟩
      have e : cfg.states v s i + (u - t) * cfg.slopes v s i - (cfg.states w s i + (u - t) * cfg.slopes w s i) =
          (1 - (u - t) / g) * (cfg.states v s i - cfg.states w s i) + (u - t) / g * (cfg.states v s i + g * cfg.slopes v s i - (cfg.states w s i + g * cfg.slopes w s i)) := by
        field_simp
        ring
      rw [e]
      refine (abs_add_le _ _).trans ?_
      rw [abs_mul, abs_mul, abs_of_nonneg hθ.1, abs_of_nonneg (sub_nonneg.2 hθ.2)]
      nlinarith [mul_le_mul_of_nonneg_left c1 (sub_nonneg.2 hθ.2), mul_le_mul_of_nonneg_left c2 hθ.1]

/-- A simulation walks, or has no states. -/
theorem simulated (h : cfg.Sealed ps ty rank) (hpl : ∀ p ∈ ps, p.obj.Plain) {M : Method} (hM : M ≠ .rkf45) (he : ∀ st, cfg.stepper = some st → st = M.stepper) {w : World F} (hw : w.New cfg ty)
    (hlog : w.log = []) (tPrev t0 minH maxH : F) (h0 : 0 < minH) (h1 : minH < maxH) :
    ∃ m0 : Machine F, Call.exec cfg (.init t0) { w := w, s := { tPrev := tPrev } } = .ok () m0 ∧
      ∀ ts : List F, (t0 :: ts).IsChain (· < ·) → (∃ m, RunsTo cfg minH maxH m0 ts m) ∧ ∀ m, RunsTo cfg minH maxH m0 ts m →
        Walk cfg ty M t0 (cfg.states (cfg.keptVal w)) ts (cfg.states m.w.shown) ∨ ∀ s, (cfg.deriv s).isSome = false := by
  obtain ⟨m0, V, y0, a1, rfl, a3, a4, a5, a6, a7⟩ := C69_passage cfg ps ty rank h hpl (fun st e => by rw [he st e]; cases M <;> simp [Method.stepper]) w hw hlog tPrev t0 minH maxH h0 h1
  have hV : C72.Sorted ps ty m0.vars := sorted_of h (fun _ => C57.ordered_exact) hw a1 a3 a4
  refine ⟨m0, a1, fun ts hts => ⟨(a7 ts (List.isChain_iff_pairwise.1 hts)).1, fun m hm => ?_⟩⟩
  obtain ⟨y, hp⟩ := (a7 ts (List.isChain_iff_pairwise.1 hts)).2 m hm
  by_cases hne : m0.vars.scalars ++ m0.vars.arrays = []
  · refine .inr fun s => ?_
    have := (is_state h hV s).not.1 (by rw [hne]; exact List.not_mem_nil)
    simpa using this
  · have := walks h hV hM he hne hp a6.solution.state
    rw [C93.same_states h a3 a5 a6.solution.state] at this
    exact .inl this

theorem stateless (hn : ∀ s, (cfg.deriv s).isSome = false) (val : SigId → Option (Val F)) : cfg.states val = fun _ _ => 0 := by
  funext s i
  simp [Config.states, hn s]

theorem spread_pos {M : Method} {L : F} (hL : 0 ≤ L) : ∀ {ts : List F} {t : F}, (t :: ts).IsChain (· < ·) → 0 ≤ M.spread L t ts
  | [], _, _ => zero_le_one
  | u :: ts, t, h => by
    obtain ⟨g1, g2⟩ := List.isChain_cons_cons.1 h
    have : 0 ≤ L * (u - t) := mul_nonneg hL (sub_nonneg.2 g1.le)
    refine mul_nonneg ?_ (spread_pos hL g2)
    cases M <;> simp only [Method.factor] <;> positivity

/-- C94: two simulations of a diagram differ by no more than the method makes of the difference of the initial values with the differential equation `x' = L x`. -/
theorem C94_near (cfg : Config F) (ps : List (Wire F)) (ty : SigId → Ty) (rank : BlkId → Nat) (h : cfg.Sealed ps ty rank) (hpl : ∀ p ∈ ps, p.obj.Plain) (M : Method) (hM : M ≠ .rkf45)
    (he : ∀ st, cfg.stepper = some st → st = M.stepper) (w w' : World F) (hw : w.New cfg ty) (hw' : w'.New cfg ty) (hlog : w.log = []) (hlog' : w'.log = []) (tPrev tPrev' t0 minH maxH : F)
    (h0 : 0 < minH) (h1 : minH < maxH) (L δ : F) (hL0 : 0 ≤ L) (hL : cfg.Lipschitz ty t0 L) (hn : Nearby δ (cfg.states (cfg.keptVal w)) (cfg.states (cfg.keptVal w'))) :
    ∃ m0 m0' : Machine F, Call.exec cfg (.init t0) { w := w, s := { tPrev := tPrev } } = .ok () m0 ∧ Call.exec cfg (.init t0) { w := w', s := { tPrev := tPrev' } } = .ok () m0' ∧
      ∀ ts : List F, (t0 :: ts).IsChain (· < ·) → (∃ m, RunsTo cfg minH maxH m0 ts m) ∧ (∃ m', RunsTo cfg minH maxH m0' ts m') ∧
        ∀ m m', RunsTo cfg minH maxH m0 ts m → RunsTo cfg minH maxH m0' ts m' → Nearby (M.spread L t0 ts * δ) (cfg.states m.w.shown) (cfg.states m'.w.shown) := by
  obtain ⟨m0, a1, a2⟩ := simulated h hpl hM he hw hlog tPrev t0 minH maxH h0 h1
  obtain ⟨m0', b1, b2⟩ := simulated h hpl hM he hw' hlog' tPrev' t0 minH maxH h0 h1
  refine ⟨m0, m0', a1, b1, fun ts hts => ⟨(a2 ts hts).1, (b2 ts hts).1, fun m m' hm hm' => ?_⟩⟩
  have hz : ∀ hs : ∀ s, (cfg.deriv s).isSome = false, Nearby (M.spread L t0 ts * δ) (cfg.states m.w.shown) (cfg.states m'.w.shown) := fun hs => by
    have hδ : 0 ≤ δ := (abs_nonneg _).trans (hn 0 0)
    rw [stateless hs, stateless hs]
    intro s i
    simpa using mul_nonneg (spread_pos hL0 hts) hδ
  rcases (a2 ts hts).2 m hm with k1 | k1
  · rcases (b2 ts hts).2 m' hm' with k2 | k2
    · exact walk_near hL k1 k2 le_rfl hts hn
    · exact hz k2
  · exact hz k1

/-- C94: with Euler, what does not move apart in steps of the length `g` does not move apart in shorter steps. -/
theorem C94_closing (cfg : Config F) (ps : List (Wire F)) (ty : SigId → Ty) (rank : BlkId → Nat) (h : cfg.Sealed ps ty rank) (hpl : ∀ p ∈ ps, p.obj.Plain)
    (he : ∀ st, cfg.stepper = some st → st = euler) (w w' : World F) (hw : w.New cfg ty) (hw' : w'.New cfg ty) (hlog : w.log = []) (hlog' : w'.log = []) (tPrev tPrev' t0 minH maxH : F)
    (h0 : 0 < minH) (h1 : minH < maxH) (g δ : F) (hg : cfg.Closing ty t0 g) (hn : Nearby δ (cfg.states (cfg.keptVal w)) (cfg.states (cfg.keptVal w'))) :
    ∃ m0 m0' : Machine F, Call.exec cfg (.init t0) { w := w, s := { tPrev := tPrev } } = .ok () m0 ∧ Call.exec cfg (.init t0) { w := w', s := { tPrev := tPrev' } } = .ok () m0' ∧
      ∀ ts : List F, (t0 :: ts).IsChain (fun s u => s < u ∧ u - s ≤ g) → (∃ m, RunsTo cfg minH maxH m0 ts m) ∧ (∃ m', RunsTo cfg minH maxH m0' ts m') ∧
        ∀ m m', RunsTo cfg minH maxH m0 ts m → RunsTo cfg minH maxH m0' ts m' → Nearby δ (cfg.states m.w.shown) (cfg.states m'.w.shown) := by
  obtain ⟨m0, a1, a2⟩ := simulated (M := .euler) h hpl (by simp) he hw hlog tPrev t0 minH maxH h0 h1
  obtain ⟨m0', b1, b2⟩ := simulated (M := .euler) h hpl (by simp) he hw' hlog' tPrev' t0 minH maxH h0 h1
  refine ⟨m0, m0', a1, b1, fun ts hts => ?_⟩
  have hlt : (t0 :: ts).IsChain (· < ·) := hts.imp fun _ _ k => k.1
  refine ⟨(a2 ts hlt).1, (b2 ts hlt).1, fun m m' hm hm' => ?_⟩
  have hz : ∀ hs : ∀ s, (cfg.deriv s).isSome = false, Nearby δ (cfg.states m.w.shown) (cfg.states m'.w.shown) := fun hs => by
    rw [stateless hs, stateless hs]
    intro s i
    simpa using (abs_nonneg _).trans (hn 0 0)
  rcases (a2 ts hlt).2 m hm with k1 | k1
  · rcases (b2 ts hlt).2 m' hm' with k2 | k2
    · exact walk_closing hg k1 k2 le_rfl hts hn
    · exact hz k2
  · exact hz k1

end

section
attribute [local instance] Arith.exact

theorem spread_exp {M : Method} (hM : M ≠ .rkf45) {L : ℝ} (hL : 0 ≤ L) : ∀ {ts : List ℝ} {t : ℝ}, (t :: ts).IsChain (· < ·) → M.spread L t ts ≤ Real.exp (L * ((t :: ts).getLast (by simp) - t))
  | [], _, _ => by simp [Method.spread]
  | u :: ts, t, h => by
    obtain ⟨g1, g2⟩ := List.isChain_cons_cons.1 h
    have hz : 0 ≤ L * (u - t) := mul_nonneg hL (sub_nonneg.2 g1.le)
    have f : M.factor (L * (u - t)) ≤ Real.exp (L * (u - t)) := by
      cases M with
      | euler => simpa [Method.factor, add_comm] using Real.add_one_le_exp (L * (u - t))
      | rk4 =>
        have := Real.sum_le_exp_of_nonneg hz 5
        simp only [Finset.sum_range_succ, Finset.sum_range_zero, Nat.factorial] at this
        norm_num at this
        simpa [Method.factor] using this
      | rkf45 => exact absurd rfl hM
    rw [List.getLast_cons (by simp)]
    have := mul_le_mul f (spread_exp hM hL g2) (spread_pos hL g2) (Real.exp_pos _).le
    rw [← Real.exp_add] at this
    refine this.trans (le_of_eq ?_)
    congr 1
    ring

/-- C94: two simulations of a diagram with Euler or Rk4 differ at the time `t` by at most `δ e^(L (t - t0))`. -/
theorem C94_exp (cfg : Config ℝ) (ps : List (Wire ℝ)) (ty : SigId → Ty) (rank : BlkId → Nat) (h : cfg.Sealed ps ty rank) (hpl : ∀ p ∈ ps, p.obj.Plain)
    (he : ∀ st, cfg.stepper = some st → st ∈ [euler, rk4]) (w w' : World ℝ) (hw : w.New cfg ty) (hw' : w'.New cfg ty) (hlog : w.log = []) (hlog' : w'.log = []) (tPrev tPrev' t0 minH maxH : ℝ)
    (h0 : 0 < minH) (h1 : minH < maxH) (L δ : ℝ) (hL0 : 0 ≤ L) (hL : cfg.Lipschitz ty t0 L) (hn : Nearby δ (cfg.states (cfg.keptVal w)) (cfg.states (cfg.keptVal w'))) :
    ∃ m0 m0' : Machine ℝ, Call.exec cfg (.init t0) { w := w, s := { tPrev := tPrev } } = .ok () m0 ∧ Call.exec cfg (.init t0) { w := w', s := { tPrev := tPrev' } } = .ok () m0' ∧
      ∀ ts : List ℝ, (t0 :: ts).IsChain (· < ·) → (∃ m, RunsTo cfg minH maxH m0 ts m) ∧ (∃ m', RunsTo cfg minH maxH m0' ts m') ∧
        ∀ m m', RunsTo cfg minH maxH m0 ts m → RunsTo cfg minH maxH m0' ts m' →
          Nearby (Real.exp (L * ((t0 :: ts).getLast (by simp) - t0)) * δ) (cfg.states m.w.shown) (cfg.states m'.w.shown) := by
  obtain ⟨M, hM, hM'⟩ : ∃ M : Method, M ≠ .rkf45 ∧ ∀ st, cfg.stepper = some st → st = M.stepper := by
    cases e : cfg.stepper with
    | none => exact ⟨.euler, by simp, fun st k => by cases k⟩
    | some st =>
      have := he st e
      simp only [List.mem_cons, List.not_mem_nil, or_false] at this
      rcases this with rfl | rfl
      · exact ⟨.euler, by simp, fun st k => (Option.some_inj.1 k).symm⟩
      · exact ⟨.rk4, by simp, fun st k => (Option.some_inj.1 k).symm⟩
  obtain ⟨m0, m0', a1, a2, a3⟩ := C94_near cfg ps ty rank h hpl M hM hM' w w' hw hw' hlog hlog' tPrev tPrev' t0 minH maxH h0 h1 L δ hL0 hL hn
  refine ⟨m0, m0', a1, a2, fun ts hts => ⟨(a3 ts hts).1, (a3 ts hts).2.1, fun m m' hm hm' s i => ((a3 ts hts).2.2 m m' hm hm' s i).trans ?_⟩⟩
  exact mul_le_mul_of_nonneg_right (spread_exp hM hL0 hts) ((abs_nonneg _).trans (hn 0 0))

end

/-! ## Example: `x' = c x` for two numbers -/

section
attribute [local instance] Arith.exact

def gain (c : ℚ) : Leaf ℚ := { id := 2, links := [(0, Demo.rq), (1, Demo.ot)], kind := .gain (.scalar c) 0 1 }

def prog (c : ℚ) (stp : Stepper ℚ) (st : Strategy) : Config ℚ where
  dbg := true
  model := .sub 100 [] [.leaf C80.integ, .leaf (gain c)]
  deriv s := if s = 0 then some 1 else none
  inputs := none
  modelInput _ := ([], none)
  stepper := some stp
  strategy := st
  hash := id

def sg (l : String) (i : SigId) : Str × Signal := (str l, .val i (.array 2))

def wires (c : ℚ) : List (Wire ℚ) :=
  [⟨1, .integrator .array, [sg "in" 1], [sg "out" 0]⟩, ⟨2, .gain .array (.scalar c), [sg "in" 0], [sg "out" 1]⟩]

def world (a b : ℚ) : World ℚ where
  sig _ := { ty := .array 2 }
  mem _ := { value := .array [a, b] }
  done _ := false
  log := []

theorem leaves_eq (c : ℚ) (stp : Stepper ℚ) (st : Strategy) : (prog c stp st).model.leaves = [C80.integ, gain c] := by simp [prog, Block.leaves, leavesL]

theorem wires_mem (c : ℚ) : ∀ p ∈ wires c, (∀ i, p.Gives i → i = p.id - 1) ∧ (∀ i, p.Takes i → i = 2 - p.id) ∧ (p.obj.isState = true ↔ p.id = 1) ∧
    (p.obj.isState = true → ∀ i, ¬ p.Needs i) ∧ (∀ i, p.Needs i → p.Takes i) ∧ (p.id = 1 ∨ p.id = 2) := by
  intro p hp
  simp only [wires, List.mem_cons, List.not_mem_nil, or_false] at hp
  rcases hp with rfl | rfl
  · refine ⟨?_, ?_, by simp [Make.isState], fun _ i h => h, fun i h => h.elim, .inl rfl⟩ <;>
      (rintro i ⟨k, t, hi⟩; simp only [sg, List.mem_cons, List.not_mem_nil, or_false] at hi; cases hi; rfl)
  · refine ⟨?_, ?_, by simp [Make.isState], ?_, fun i h => h, .inr rfl⟩ <;> first | (intro e; cases e; done) |
      (rintro i ⟨k, t, hi⟩; simp only [sg, List.mem_cons, List.not_mem_nil, or_false] at hi; cases hi; rfl)
theorem sealed (c : ℚ) (stp : Stepper ℚ) (hst : stp ∈ [euler, rk4, rkf45]) (st : Strategy) : (prog c stp st).Sealed (wires c) (fun _ => .array 2) (fun b => b) := by
  have hs : ∀ l i, Agrees (fun _ => .array 2) [sg l i] ∧ Sized 2 [sg l i] := by
    intro l i
    refine ⟨fun q hq j t e => ?_, fun q hq j m e => ?_⟩ <;> (rw [List.mem_singleton] at hq; subst hq)
    · cases e; rfl
    · cases e; rfl
  exact {
    dbg := rfl
    assembled := by
      refine ⟨[C80.integ, gain c], by with_unfolding_all rfl, ?_⟩
      rw [leaves_eq]
    proper := by
      unfold Block.Proper
      have : (prog c stp st).model.ids = [100, 1, 2] := by simp [prog, C80.integ, gain, Block.ids, Block.all, allL, Block.id]
      rw [this]; decide
    hash := fun _ => .refl _
    sane := by
      intro p hp
      simp only [wires, List.mem_cons, List.not_mem_nil, or_false] at hp
      rcases hp with rfl | rfl
      · exact ⟨(hs _ _).1, (hs _ _).1, .inl ⟨2, by decide, trivial, trivial, (hs _ _).2, (hs _ _).2⟩⟩
      · exact ⟨(hs _ _).1, (hs _ _).1, .inl ⟨2, by decide, .inl ⟨trivial, _, rfl⟩, trivial, (hs _ _).2, (hs _ _).2⟩⟩
    once := by
      intro p hp q hq i h1 h2
      have e1 := (wires_mem c p hp).1 i h1
      have e2 := (wires_mem c q hq).1 i h2
      rcases (wires_mem c p hp).2.2.2.2.2 with g1 | g1 <;> rcases (wires_mem c q hq).2.2.2.2.2 with g2 | g2 <;> rw [g1] at e1 <;> rw [g2] at e2 <;> first | exact absurd (e1.symm.trans e2) (by decide) | rw [g1, g2]
    provided := by
      intro p hp i hi
      simp only [wires, List.mem_cons, List.not_mem_nil, or_false] at hp
      rcases hp with rfl | rfl
      · obtain rfl := (wires_mem c _ (.head _)).2.1 i hi
        exact .inr ⟨_, .tail _ (.head _), str "out", .array 2, .head _⟩
      · obtain rfl := (wires_mem c _ (.tail _ (.head _))).2.1 i hi
        exact .inr ⟨_, .head _, str "out", .array 2, .head _⟩
    loops := by
      intro p hp i hn q hq hg
      obtain ⟨_, k2, k3, k4, k5, k6⟩ := wires_mem c p hp
      obtain ⟨g1, _, g3, _, _, g6⟩ := wires_mem c q hq
      rcases k6 with e | e
      · exact (k4 (k3.2 e) i hn).elim
      · refine .inl (g3.2 ?_)
        have e1 := k2 i (k5 i hn)
        have e2 := g1 i hg
        rw [e] at e1
        rcases g6 with g | g <;> rw [g] at e2
        · exact g
        · exact absurd (e1.symm.trans e2) (by decide)
    inputs := fun f e => by cases e
    modelInput := ⟨fun t => ⟨fun p hp => (List.not_mem_nil hp).elim, fun e h => (by cases h)⟩, fun _ => rfl⟩
    inputOnce := fun t => List.nodup_nil
    inputFree := fun t s hs => (List.not_mem_nil hs).elim
    stepper := fun s e => by
      obtain rfl := Option.some_inj.1 e
      simp only [List.mem_cons, List.not_mem_nil, or_false] at hst
      rcases hst with rfl | rfl | rfl
      · exact C26.dim_provided.1
      · exact C26.dim_provided.2.1
      · exact C26.dim_provided.2.2
    stepped := fun _ => rfl
    reuse := fun _ => ⟨_, .head _, rfl⟩ }

theorem new (c a b : ℚ) (stp : Stepper ℚ) (st : Strategy) : (world a b).New (prog c stp st) (fun _ => .array 2) where
  fine := {
    types := fun _ => rfl
    cells := fun _ => ⟨fun e => (by cases e), fun v e => (by cases e)⟩
    members := by
      intro l hl
      rw [leaves_eq] at hl
      simp only [List.mem_cons, List.not_mem_nil, or_false] at hl
      rcases hl with rfl | rfl
      · exact ⟨rfl, fun _ => rfl⟩
      · trivial }
  done := fun _ => rfl
  record := fun _ _ _ => rfl

theorem slopes_eq (c : ℚ) (stp : Stepper ℚ) (st : Strategy) {t : ℚ} {val : SigId → Option (Val ℚ)} (h : (prog c stp st).Solves (fun _ => .array 2) t val) (s : SigId) (i : Nat) :
    (prog c stp st).slopes val s i = c * (prog c stp st).states val s i := by
  obtain ⟨⟨V, mem, x, hs⟩, hv⟩ := h
  by_cases h0 : s = 0
  · subst h0
    obtain ⟨v, e0, f0⟩ := hv 0 rfl
    obtain ⟨a', r, h3, hr, h4⟩ : (gain c).Solved t (mem 2) val := hs.block (gain c) (by rw [leaves_eq]; simp) fun s f hm hf => by
      simp only [gain, List.mem_cons, List.not_mem_nil, or_false] at hm
      rcases hm with hm | hm <;> cases hm
      · exact ⟨_, e0⟩
      · cases hf
    show (val 1).elim 0 (Val.part i) = c * (val 0).elim 0 (Val.part i)
    rw [h4, h3]
    cases hr with
    | scalar k a => rfl
    | array k a =>
      show (List.ofFn fun i => c * a i).getD i 0 = c * (List.ofFn a).getD i 0
      rw [List.getD_eq_getElem?_getD, List.getD_eq_getElem?_getD, List.getElem?_ofFn, List.getElem?_ofFn]
      split <;> simp
  · have e1 : (prog c stp st).deriv s = none := if_neg h0
    simp [Config.states, Config.slopes, e1]

theorem kept (c a b : ℚ) (stp : Stepper ℚ) (st : Strategy) (i : Nat) : (prog c stp st).states ((prog c stp st).keptVal (world a b)) 0 i = [a, b].getD i 0 := rfl

theorem near (c : ℚ) (stp : Stepper ℚ) (st : Strategy) {a b a' b' δ : ℚ} (h1 : |a - a'| ≤ δ) (h2 : |b - b'| ≤ δ) :
    Nearby δ ((prog c stp st).states ((prog c stp st).keptVal (world a b))) ((prog c stp st).states ((prog c stp st).keptVal (world a' b'))) := by
  intro s i
  have hδ : 0 ≤ δ := (abs_nonneg _).trans h1
  by_cases h0 : s = 0
  · subst h0
    rw [kept, kept]
    rcases i with _ | _ | i
    · exact h1
    · exact h2
    · simpa using hδ
  · have e1 : (prog c stp st).deriv s = none := if_neg h0
    simpa [Config.states, e1] using hδ

/-- The hypotheses of `C94_near` hold for `x' = c x` with an array of two numbers, and `L = |c|`. -/
example (c a b a' b' δ : ℚ) (h1 : |a - a'| ≤ δ) (h2 : |b - b'| ≤ δ) (st : Strategy) :
    ∃ m0 m0' : Machine ℚ, Call.exec (prog c rk4 st) (.init 0) { w := world a b, s := { tPrev := 0 } } = .ok () m0 ∧
      Call.exec (prog c rk4 st) (.init 0) { w := world a' b', s := { tPrev := 0 } } = .ok () m0' ∧
      ∀ ts : List ℚ, (0 :: ts).IsChain (· < ·) → (∃ m, RunsTo (prog c rk4 st) (1 / 2 ^ 20) 1 m0 ts m) ∧ (∃ m', RunsTo (prog c rk4 st) (1 / 2 ^ 20) 1 m0' ts m') ∧
        ∀ m m', RunsTo (prog c rk4 st) (1 / 2 ^ 20) 1 m0 ts m → RunsTo (prog c rk4 st) (1 / 2 ^ 20) 1 m0' ts m' →
          Nearby (Method.rk4.spread |c| 0 ts * δ) ((prog c rk4 st).states m.w.shown) ((prog c rk4 st).states m'.w.shown) :=
  C94_near (prog c rk4 st) (wires c) _ _ (sealed c rk4 (by simp) st) (by simp [wires, Make.Plain]) .rk4 (by simp) (fun s e => (Option.some_inj.1 e).symm) (world a b) (world a' b') (new c a b rk4 st)
    (new c a' b' rk4 st) rfl rfl 0 0 0 (1 / 2 ^ 20) 1 (by norm_num) (by norm_num) |c| δ (abs_nonneg c) (fun t v v' δ _ k1 k2 k3 s i => by
      rw [slopes_eq c rk4 st k1, slopes_eq c rk4 st k2, ← mul_sub, abs_mul]
      exact mul_le_mul_of_nonneg_left (k3 s i) (abs_nonneg c)) (near c rk4 st h1 h2)

/-- The hypotheses of `C94_closing` hold for `x' = - 2 x` with an array of two numbers, and gaps of at most 1. -/
example (a b a' b' δ : ℚ) (h1 : |a - a'| ≤ δ) (h2 : |b - b'| ≤ δ) (st : Strategy) :
    ∃ m0 m0' : Machine ℚ, Call.exec (prog (-2) euler st) (.init 0) { w := world a b, s := { tPrev := 0 } } = .ok () m0 ∧
      Call.exec (prog (-2) euler st) (.init 0) { w := world a' b', s := { tPrev := 0 } } = .ok () m0' ∧
      ∀ ts : List ℚ, (0 :: ts).IsChain (fun s u => s < u ∧ u - s ≤ 1) → (∃ m, RunsTo (prog (-2) euler st) (1 / 2 ^ 20) 1 m0 ts m) ∧ (∃ m', RunsTo (prog (-2) euler st) (1 / 2 ^ 20) 1 m0' ts m') ∧
        ∀ m m', RunsTo (prog (-2) euler st) (1 / 2 ^ 20) 1 m0 ts m → RunsTo (prog (-2) euler st) (1 / 2 ^ 20) 1 m0' ts m' →
          Nearby δ ((prog (-2) euler st).states m.w.shown) ((prog (-2) euler st).states m'.w.shown) :=
  C94_closing (prog (-2) euler st) (wires (-2)) _ _ (sealed (-2) euler (by simp) st) (by simp [wires, Make.Plain]) (fun s e => (Option.some_inj.1 e).symm) (world a b) (world a' b')
    (new (-2) a b euler st) (new (-2) a' b' euler st) rfl rfl 0 0 0 (1 / 2 ^ 20) 1 (by norm_num) (by norm_num) 1 δ (fun t v v' δ _ k1 k2 k3 s i => by
      have e := k3 s i
      rw [← abs_neg] at e
      refine le_of_eq_of_le (congrArg abs ?_) e
      simp only [slopes_eq (-2) euler st k1, slopes_eq (-2) euler st k2]
      ring) (near (-2) euler st h1 h2)

theorem swing_slopes (M : Method) (st : Strategy) {t : ℝ} {val : SigId → Option (Val ℝ)} (h : (C88.prog M st).Solves (fun _ => .scalar) t val) (s : SigId) (i : Nat) :
    (C88.prog M st).slopes val s i = if s = 3 then -2 * (C88.prog M st).states val 3 i else if s = 0 then (C88.prog M st).states val 1 i else if s = 1 then -(C88.prog M st).states val 0 i else 0 := by
  obtain ⟨⟨V, mem, x, hs⟩, hv⟩ := h
  obtain ⟨v0, e0, f0⟩ := hv 0 rfl
  obtain ⟨v3, e3, f3⟩ := hv 3 rfl
  obtain ⟨a, r, h1, hr, h2⟩ : C88.force.Solved t (mem 3) val := hs.block C88.force (by simp [C88.prog, Block.leaves, leavesL]) fun s f hm hf => by
    simp only [C88.force, List.mem_cons, List.not_mem_nil, or_false] at hm
    rcases hm with hm | hm <;> cases hm
    · exact ⟨_, e0⟩
    · cases hf
  obtain ⟨b, q, h3, hq, h4⟩ : C88.flow.Solved t (mem 5) val := hs.block C88.flow (by simp [C88.prog, Block.leaves, leavesL]) fun s f hm hf => by
    simp only [C88.flow, List.mem_cons, List.not_mem_nil, or_false] at hm
    rcases hm with hm | hm <;> cases hm
    · exact ⟨_, e3⟩
    · cases hf
  rw [h1] at e0
  cases e0
  rw [h3] at e3
  cases e3
  split_ifs with k3 k0 k1
  · subst k3
    show (val 4).elim 0 (Val.part i) = -2 * (val 3).elim 0 (Val.part i)
    rw [h4, h3]
    cases hq with
    | scalar => rfl
    | array => simp [Val.Fits, Val.hasTag] at f3
  · subst k0
    rfl
  · subst k1
    show (val 2).elim 0 (Val.part i) = -(val 0).elim 0 (Val.part i)
    rw [h2, h1]
    cases hr with
    | scalar k a => exact neg_one_mul a
    | array => simp [Val.Fits, Val.hasTag] at f0
  · have e1 : (C88.prog M st).deriv s = none := by
      show (if s = 3 then some 4 else if s = 0 then some 1 else if s = 1 then some 2 else none) = none
      rw [if_neg k3, if_neg k0, if_neg k1]
    simp [Config.slopes, e1]

theorem swing_lipschitz (M : Method) (st : Strategy) : (C88.prog M st).Lipschitz (fun _ => .scalar) 0 2 := by
  intro t v v' δ _ k1 k2 k3 s i
  have hδ : 0 ≤ δ := (abs_nonneg _).trans (k3 0 0)
  rw [swing_slopes M st k1, swing_slopes M st k2]
  split_ifs
  · rw [← mul_sub, abs_mul, abs_neg, abs_two]
    exact mul_le_mul_of_nonneg_left (k3 3 i) (by norm_num)
  · have := k3 1 i
    linarith
  · have := k3 0 i
    rw [← neg_sub', abs_neg]
    linarith
  · simpa using hδ

/-- The hypotheses of `C94_exp` hold for the mass with the spring and the leak of C88, with `L = 2`. -/
example (w' : World ℝ) (hw' : w'.New (C88.prog .rk4 .plain) (fun _ => .scalar)) (hlog' : w'.log = []) (δ : ℝ)
    (hn : Nearby δ ((C88.prog .rk4 .plain).states ((C88.prog .rk4 .plain).keptVal C88.fresh)) ((C88.prog .rk4 .plain).states ((C88.prog .rk4 .plain).keptVal w'))) :
    ∃ m0 m0' : Machine ℝ, Call.exec (C88.prog .rk4 .plain) (.init 0) { w := C88.fresh, s := { tPrev := 0 } } = .ok () m0 ∧
      Call.exec (C88.prog .rk4 .plain) (.init 0) { w := w', s := { tPrev := 0 } } = .ok () m0' ∧
      ∀ ts : List ℝ, (0 :: ts).IsChain (· < ·) → (∃ m, RunsTo (C88.prog .rk4 .plain) (1 / 2) 1 m0 ts m) ∧ (∃ m', RunsTo (C88.prog .rk4 .plain) (1 / 2) 1 m0' ts m') ∧
        ∀ m m', RunsTo (C88.prog .rk4 .plain) (1 / 2) 1 m0 ts m → RunsTo (C88.prog .rk4 .plain) (1 / 2) 1 m0' ts m' →
          Nearby (Real.exp (2 * ((0 :: ts).getLast (by simp) - 0)) * δ) ((C88.prog .rk4 .plain).states m.w.shown) ((C88.prog .rk4 .plain).states m'.w.shown) :=
  C94_exp (C88.prog .rk4 .plain) C88.wired _ _ (C88.closed .rk4 .plain) (by simp [C88.wired, Make.Plain]) (fun s e => by obtain rfl := Option.some_inj.1 e; simp [Method.stepper]) C88.fresh w'
    (C88.new .rk4 .plain) hw' rfl hlog' 0 0 0 (1 / 2) 1 (by norm_num) (by norm_num) 2 δ (by norm_num) (swing_lipschitz .rk4 .plain) hn

/-- The bound of `C94_near` cannot be improved: with Euler, `x' = x` and one gap of 1 the difference of the first numbers grows from 1 to 2. -/
theorem C94_sharp (st : Strategy) : ∃ m0 m0' m m' : Machine ℚ, Call.exec (prog 1 euler st) (.init 0) { w := world 3 0, s := { tPrev := 0 } } = .ok () m0 ∧
    Call.exec (prog 1 euler st) (.init 0) { w := world 4 0, s := { tPrev := 0 } } = .ok () m0' ∧ RunsTo (prog 1 euler st) (1 / 2 ^ 20) 1 m0 [1] m ∧
    RunsTo (prog 1 euler st) (1 / 2 ^ 20) 1 m0' [1] m' ∧ Method.euler.spread (1 : ℚ) 0 [1] = 2 ∧ m.w.shown 0 = some (.array [6, 0]) ∧ m'.w.shown 0 = some (.array [8, 0]) := by
  refine ⟨_, _, _, _, eq_of_returns (by cases st <;> decide +kernel), eq_of_returns (by cases st <;> decide +kernel), .cons 10 (eq_of_returns (by cases st <;> decide +kernel)) .nil,
    .cons 10 (eq_of_returns (by cases st <;> decide +kernel)) .nil, by norm_num [Method.spread, Method.factor], ?_, ?_⟩ <;> cases st <;> decide +kernel

end
end Pooya.C94
