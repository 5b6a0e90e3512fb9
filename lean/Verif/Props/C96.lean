import Verif.Spec.Coarse
import Verif.Props.C92
import Verif.Props.C93
import Verif.Props.C94

/-!
# C96 — what must not be negative does not become negative by rounding

Full statement: let some outputs of Integrators be such that, where they are not negative, the straight way along the computed derivatives for the time `g` does not make them negative.
Then a simulation with Euler in `double` numbers that is asked for times with gaps of at most `g` shows no negative value of them after any call of `run`, if none is negative at the beginning.

Proved: `C96_region`, for all closed diagrams without TriggeredIntegrators, with scalars and arrays, for all monotone roundings: no step leaves a set that computed steps of at most `g` do not
leave; `C96_positive`: the statement above, for all monotone roundings that do not depend on the sign; `C96_sinks`: what has no positive derivative does not rise above its initial value; `C96_double`, `C96_decay`: examples
with `double` numbers. These are numbers with 53 binary digits and an unbounded exponent: overflow and underflow are not modelled here.
-/

namespace Pooya.C96

open Pooya C60 C69 C70 C72 Within

set_option linter.unusedSectionVars false

section
variable {F : Type} [_root_.Field F] [LinearOrder F] [IsStrictOrderedRing F] [Archimedean F] [A : Arith F] {rnd : F → F} {R ρ : F}
variable {cfg : Config F} {ps : List (Wire F)} {ty : SigId → Ty} {rank : BlkId → Nat} {V : Vars} {S : (SigId → Nat → F) → Prop} {t0 g : F}

theorem comp_part (hz : (Arith.lit 0 : F) = 0) {val : SigId → Option (Val F)} {s : SigId} {i : Nat} (hv : (∃ v, val s = some (.scalar v)) ∨ ∃ v, val s = some (.array v)) :
    comp val (s, i) = (val s).elim 0 (Val.part i) := by
  unfold comp
  rcases hv with ⟨v, e⟩ | ⟨v, e⟩ <;> simp [e, Val.part, hz]

/-- The states after a step. -/
theorem step_states (hz : (Arith.lit 0 : F) = 0) (h00 : ∀ k : F, (0 : F) +. k *. 0 = 0) (h : cfg.Sealed ps ty rank)
    (hV : ∀ s, s ∈ V.scalars ++ V.arrays ↔ ∃ p ∈ ps, p.obj.isState = true ∧ p.Gives s)
    (hsz : ∀ s ∈ V.arrays, (cfg.deriv s).elim 0 V.size = V.size s) {x d : List F} {val val' : SigId → Option (Val F)} (k : F) (hx : Packed val V.size V.scalars V.arrays x)
    (hd : Packed (fun s => (cfg.deriv s).bind val) (fun s => (cfg.deriv s).elim 0 V.size) V.scalars V.arrays d)
    (hy : Packed val' V.size V.scalars V.arrays (vadd x (vsmul k d))) : cfg.states val' = fun s i => cfg.states val s i +. k *. cfg.slopes val s i := by
  obtain ⟨x1, x2, x3⟩ := (packed_iff fun _ _ => rfl).1 hx
  obtain ⟨d1, d2, d3⟩ := (packed_iff hsz).1 hd
  obtain ⟨y1, y2, y3⟩ := (packed_iff fun _ _ => rfl).1 hy
  have key : ∀ q ∈ Within.slots V, comp val' q = comp val q +. k *. comp (fun s => (cfg.deriv s).bind val) q := by
    rw [x3, d3] at y3
    unfold vadd vsmul at y3
    rw [List.map_map, List.zipWith_map_left, List.zipWith_map_right, List.zipWith_self] at y3
    exact fun q hq => (List.map_inj_left.1 y3 q hq).symm
  funext s i
  unfold Config.states Config.slopes
  cases e : cfg.deriv s with
  | none => simp [h00]
  | some r =>
    have hs : s ∈ V.scalars ++ V.arrays := by
      obtain ⟨l, hl, e'⟩ := C59.deriv_state h (by rw [e]; rfl)
      obtain ⟨p, hp, hf⟩ := C59.leaf_wire h hl
      exact (hV s).2 ⟨p, hp, (hf.state s e').2, (hf.state s e').1⟩
    simp only [Option.isSome_some, if_true, Option.elim_some]
    rcases List.mem_append.1 hs with hs | hs
    · have := key (s, 0) (by unfold Within.slots; simp [hs])
      obtain ⟨v, e1⟩ := x1 s hs
      obtain ⟨w, e2⟩ := d1 s hs
      obtain ⟨u, e3⟩ := y1 s hs
      simp only [e, Option.bind_some] at e2
      simp only [comp, e1, e3, e, Option.bind_some, e2] at this
      simp only [e1, e2, e3, Option.elim_some, Val.part]
      exact this
    · obtain ⟨v, e1, f1⟩ := x2 s hs
      obtain ⟨w, e2, f2⟩ := d2 s hs
      obtain ⟨u, e3, f3⟩ := y2 s hs
      rw [hsz s hs] at f2
      simp only [e, Option.bind_some] at e2
      by_cases hi : i < V.size s
      · have := key (s, i) (by unfold Within.slots; simp [hs, hi])
        rw [comp_part hz (.inr ⟨_, e3⟩), comp_part hz (.inr ⟨_, e1⟩), comp_part hz (.inr ⟨w, by simp [e, e2]⟩)] at this
        simpa [e] using this
      · simp only [e1, e2, e3, Option.elim_some, Val.part]
        rw [List.getD_eq_default _ _ (by omega), List.getD_eq_default _ _ (by omega), List.getD_eq_default _ _ (by omega), h00]

theorem same_states (hz : (Arith.lit 0 : F) = 0) (h : cfg.Sealed ps ty rank) (hV : ∀ s, s ∈ V.scalars ++ V.arrays ↔ ∃ p ∈ ps, p.obj.isState = true ∧ p.Gives s) {x : List F}
    {val val' : SigId → Option (Val F)} (hx : Packed val V.size V.scalars V.arrays x) (hy : Packed val' V.size V.scalars V.arrays x) : cfg.states val' = cfg.states val := by
  obtain ⟨x1, x2, x3⟩ := (packed_iff fun _ _ => rfl).1 hx
  obtain ⟨y1, y2, y3⟩ := (packed_iff fun _ _ => rfl).1 hy
  rw [x3] at y3
  have key := List.map_inj_left.1 y3
  funext s i
  unfold Config.states
  cases e : cfg.deriv s with
  | none => rfl
  | some r =>
    have hs : s ∈ V.scalars ++ V.arrays := by
      obtain ⟨l, hl, e'⟩ := C59.deriv_state h (by rw [e]; rfl)
      obtain ⟨p, hp, hf⟩ := C59.leaf_wire h hl
      exact (hV s).2 ⟨p, hp, (hf.state s e').2, (hf.state s e').1⟩
    simp only [Option.isSome_some, if_true]
    rcases List.mem_append.1 hs with hs | hs
    · have := key (s, 0) (by unfold Within.slots; simp [hs])
      obtain ⟨v, e1⟩ := x1 s hs
      obtain ⟨u, e3⟩ := y1 s hs
      simp only [comp, e1, e3] at this
      simp only [e1, e3, Option.elim_some, Val.part]
      exact this.symm
    · obtain ⟨v, e1, f1⟩ := x2 s hs
      obtain ⟨u, e3, f3⟩ := y2 s hs
      by_cases hi : i < V.size s
      · have := key (s, i) (by unfold Within.slots; simp [hs, hi])
        rw [comp_part hz (.inr ⟨_, e1⟩), comp_part hz (.inr ⟨_, e3⟩)] at this
        exact this.symm
      · simp only [e1, e3, Option.elim_some, Val.part]
        rw [List.getD_eq_default _ _ (by omega), List.getD_eq_default _ _ (by omega)]

theorem no_states (h : cfg.Sealed ps ty rank) (hV : ∀ s, s ∈ V.scalars ++ V.arrays ↔ ∃ p ∈ ps, p.obj.isState = true ∧ p.Gives s) (hn : V.scalars ++ V.arrays = [])
    {val val' : SigId → Option (Val F)} : cfg.states val = cfg.states val' := by
  funext s i
  unfold Config.states
  cases e : cfg.deriv s with
  | none => rfl
  | some r =>
    obtain ⟨l, hl, e'⟩ := C59.deriv_state h (by rw [e]; rfl)
    obtain ⟨p, hp, hf⟩ := C59.leaf_wire h hl
    have := (hV s).2 ⟨p, hp, (hf.state s e').2, (hf.state s e').1⟩
    rw [hn] at this
    exact absurd this List.not_mem_nil

theorem solves (h : cfg.Sealed ps ty rank) (hV : C72.Sorted ps ty V) {mem : BlkId → Mem F} {t : F} {x : List F} {val : SigId → Option (Val F)} (hs : Solution cfg V mem t x val) :
    cfg.Solves ty t val := by
  refine ⟨⟨V, mem, x, hs⟩, fun s e => ?_⟩
  obtain ⟨x1, x2, x3⟩ := (packed_iff fun _ _ => rfl).1 hs.state
  obtain ⟨l, hl, e'⟩ := C59.deriv_state h e
  obtain ⟨p, hp, hf⟩ := C59.leaf_wire h hl
  rcases List.mem_append.1 ((hV.mem s).2 ⟨p, hp, (hf.state s e').2, (hf.state s e').1⟩) with k | k
  · obtain ⟨v, e1⟩ := x1 s k
    exact ⟨_, e1, by rw [hV.scalars s k]; exact ⟨rfl, rfl⟩⟩
  · obtain ⟨v, e1, e2⟩ := x2 s k
    obtain ⟨n, e3⟩ := hV.arrays s k
    rw [hV.size, e3] at e2
    exact ⟨_, e1, by rw [e3]; exact ⟨rfl, by simpa [Val.sizeOk, Ty.size] using e2⟩⟩

theorem passes (hz : (Arith.lit 0 : F) = 0) (h00 : ∀ k : F, (0 : F) +. k *. 0 = 0) (hk : ∀ s u : F, s < u → u - s ≤ g → 0 ≤ u -. s ∧ u -. s ≤ g) (h : cfg.Sealed ps ty rank)
    (hV : C72.Sorted ps ty V) (he : ∀ st, cfg.stepper = some st → st = euler) (hin : cfg.Keeps ty t0 g S) {a b : Snapshot F} {ts : List F}
    (hp : Passes cfg V a ts b) (hts : (a.time :: ts).IsChain fun s u => s < u ∧ u - s ≤ g) (ht : t0 ≤ a.time) (ha : ∀ val, Packed val V.size V.scalars V.arrays a.state → S (cfg.states val))
    (hs : S (cfg.states a.vals)) : S (cfg.states b.vals) := by
  induction hp with
  | nil => exact hs
  | @steps a b c ts st steps k1 k2 k3 k4 k5 k6 ih =>
    obtain ⟨⟨g1, g2⟩, g3⟩ := List.isChain_cons_cons.1 hts
    obtain rfl := he st k2
    rw [k4 (by simp)] at k5
    have hb : ∀ val, Packed val V.size V.scalars V.arrays b.state → S (cfg.states val) := by
      cases k5 with
      | last a1 a2 a3 a4 =>
        obtain ⟨d, ⟨val, q1, q2⟩, e⟩ := a3
        intro val' hy
        have e1 : b.state = vadd a.state (vsmul (b.time -. a.time) d) := congrArg Prod.fst e
        rw [e1] at hy
        rw [step_states hz h00 h hV.mem (size_same h hV) _ q1.state q2 hy]
        exact hin _ val _ ht (solves h hV q1) (ha val q1.state) (hk _ _ g1 g2).1 (hk _ _ g1 g2).2
      | step a1 a2 a3 a4 a5 => cases a5
    refine ih g3 (ht.trans g1.le) hb (hb _ ?_)
    cases k5 with
    | last a1 a2 a3 a4 => exact a4.solution.state
    | step a1 a2 a3 a4 a5 => cases a5
  | @sample a b c ts k1 k2 k3 ih =>
    obtain ⟨⟨g1, _⟩, g3⟩ := List.isChain_cons_cons.1 hts
    have hb : ∀ val, S (cfg.states val) := fun val => by rw [no_states h hV.mem k1 (val' := a.vals)]; exact hs
    exact ih g3 (ht.trans g1.le) (fun val _ => hb val) (hb _)

/-- C96: with Euler and gaps of at most `g` the outputs of the Integrators stay in a set that computed steps do not leave. -/
theorem C96_region (hA : A = Arith.rounded rnd) (hr : Rounding rnd R ρ) (cfg : Config F) (ps : List (Wire F)) (ty : SigId → Ty) (rank : BlkId → Nat) (h : cfg.Sealed ps ty rank)
    (hpl : ∀ p ∈ ps, p.obj.Plain) (he : ∀ st, cfg.stepper = some st → st = euler) (w : World F) (hw : w.New cfg ty) (hlog : w.log = [])
    (tPrev t0 minH maxH : F) (h0 : 0 < minH) (h1 : minH < maxH) (h2 : rnd minH = minH) (h3 : 16 * ρ ≤ minH) (g : F) (hg : rnd g = g)
    (S : (SigId → Nat → F) → Prop) (hin : cfg.Keeps ty t0 g S) :
    ∃ m0 : Machine F, Call.exec cfg (.init t0) { w := w, s := { tPrev := tPrev } } = .ok () m0 ∧ cfg.states m0.w.shown = cfg.states (cfg.keptVal w) ∧
      ∀ ts : List F, (t0 :: ts).IsChain (fun s u => s < u ∧ u - s ≤ g) → (∀ t ∈ t0 :: ts, rnd t = t ∧ 2 * |t| + maxH ≤ R) →
        (∃ m, RunsTo cfg minH maxH m0 ts m) ∧ (S (cfg.states (cfg.keptVal w)) → ∀ m, RunsTo cfg minH maxH m0 ts m → S (cfg.states m.w.shown)) := by
  have ho : OrderedArith F := ordered_rounded hA
  obtain ⟨m0, V, y0, a1, rfl, a3, a4, a5, a6, a7⟩ := C70.C70_rounded hA hr cfg ps ty rank h hpl (fun st e => by rw [he st e]; simp) w hw hlog tPrev t0 minH maxH h0 h1 h2 h3
  have hV : C72.Sorted ps ty m0.vars := sorted_of h (fun _ => ho) hw a1 a3 a4
  have hz : (Arith.lit 0 : F) = 0 := (C92.calms_rounded hA hr.zero).lit
  have h00 : ∀ k : F, (0 : F) +. k *. 0 = 0 := by
    subst hA
    intro k
    show rnd (0 + rnd (k * 0)) = 0
    rw [mul_zero, hr.zero, zero_add, hr.zero]
  have hk : ∀ s u : F, s < u → u - s ≤ g → 0 ≤ u -. s ∧ u -. s ≤ g := by
    subst hA
    intro s u k1 k2
    refine ⟨?_, ?_⟩
    · have := hr.mono (sub_nonneg.2 k1.le)
      rwa [hr.zero] at this
    · have := hr.mono k2
      rwa [hg] at this
  have e0 : cfg.states m0.w.shown = cfg.states (cfg.keptVal w) := same_states hz h a3 a5 a6.solution.state
  refine ⟨m0, a1, e0, fun ts hts hR => ?_⟩
  have hlt : (t0 :: ts).Pairwise (· < ·) := List.isChain_iff_pairwise.1 (hts.imp fun _ _ k => k.1)
  refine ⟨(a7 ts hlt hR).1, fun hs m hm => ?_⟩
  obtain ⟨y, hp⟩ := (a7 ts hlt hR).2 m hm
  rw [← e0] at hs
  exact passes hz h00 hk h hV he hin hp hts le_rfl (fun val hv => by rw [same_states hz h a3 a6.solution.state hv]; exact hs) hs

/-- Computed steps do not make them negative. -/
theorem keeps_positive (hA : A = Arith.rounded rnd) (hr : Rounding rnd R ρ) (hneg : ∀ x, rnd (-x) = -rnd x) {P : SigId → Prop}
    (hin : ∀ t val, t0 ≤ t → cfg.Solves ty t val → Exactly rnd (cfg.states val) → (∀ s, P s → ∀ i, 0 ≤ cfg.states val s i) → ∀ s, P s → ∀ i, 0 ≤ cfg.states val s i + g * cfg.slopes val s i) :
    cfg.Keeps ty t0 g fun z => Exactly rnd z ∧ ∀ s, P s → ∀ i, 0 ≤ z s i := by
  rintro t val k ht hs ⟨q1, q2⟩ k0 kg
  subst hA
  refine ⟨fun s i => hr.idem _, fun s hp i => ?_⟩
  show 0 ≤ rnd (cfg.states val s i + rnd (k * cfg.slopes val s i))
  have b1 := q2 s hp i
  have b2 := hin t val ht hs q1 q2 s hp i
  have b3 : - cfg.states val s i ≤ k * cfg.slopes val s i := by
    rcases le_or_gt 0 (cfg.slopes val s i) with k1 | k1
    · have := mul_nonneg k0 k1
      linarith
    · nlinarith
  have b4 := hr.mono b3
  rw [hneg, q1 s i] at b4
  have b5 := hr.mono (show 0 ≤ cfg.states val s i + rnd (k * cfg.slopes val s i) by linarith)
  rwa [hr.zero] at b5

/-- C96: if the way along the computed derivatives for the time `g` does not make outputs of Integrators negative, they do not become negative. -/
theorem C96_positive (hA : A = Arith.rounded rnd) (hr : Rounding rnd R ρ) (hneg : ∀ x, rnd (-x) = -rnd x) (cfg : Config F) (ps : List (Wire F)) (ty : SigId → Ty) (rank : BlkId → Nat)
    (h : cfg.Sealed ps ty rank) (hpl : ∀ p ∈ ps, p.obj.Plain) (he : ∀ st, cfg.stepper = some st → st = euler) (w : World F) (hw : w.New cfg ty) (hlog : w.log = [])
    (tPrev t0 minH maxH : F) (h0 : 0 < minH) (h1 : minH < maxH) (h2 : rnd minH = minH) (h3 : 16 * ρ ≤ minH) (g : F) (hg : rnd g = g) (P : SigId → Prop)
    (hin : ∀ t val, t0 ≤ t → cfg.Solves ty t val → Exactly rnd (cfg.states val) → (∀ s, P s → ∀ i, 0 ≤ cfg.states val s i) → ∀ s, P s → ∀ i, 0 ≤ cfg.states val s i + g * cfg.slopes val s i)
    (hrep : Exactly rnd (cfg.states (cfg.keptVal w))) (hinit : ∀ s, P s → ∀ i, 0 ≤ cfg.states (cfg.keptVal w) s i) :
    ∃ m0 : Machine F, Call.exec cfg (.init t0) { w := w, s := { tPrev := tPrev } } = .ok () m0 ∧
      ∀ ts : List F, (t0 :: ts).IsChain (fun s u => s < u ∧ u - s ≤ g) → (∀ t ∈ t0 :: ts, rnd t = t ∧ 2 * |t| + maxH ≤ R) →
        (∃ m, RunsTo cfg minH maxH m0 ts m) ∧ ∀ m, RunsTo cfg minH maxH m0 ts m → ∀ s, P s → ∀ i, 0 ≤ cfg.states m.w.shown s i := by
  obtain ⟨m0, a1, -, a3⟩ := C96_region hA hr cfg ps ty rank h hpl he w hw hlog tPrev t0 minH maxH h0 h1 h2 h3 g hg (fun z => Exactly rnd z ∧ ∀ s, P s → ∀ i, 0 ≤ z s i)
    (keeps_positive hA hr hneg hin)
  exact ⟨m0, a1, fun ts hts hR => ⟨(a3 ts hts hR).1, fun m hm => ((a3 ts hts hR).2 ⟨hrep, hinit⟩ m hm).2⟩⟩

/-- C96: if the computed derivatives of outputs of Integrators are not positive in a set that computed steps do not leave, these outputs never get above a bound they begin below. -/
theorem C96_sinks (hA : A = Arith.rounded rnd) (hr : Rounding rnd R ρ) (cfg : Config F) (ps : List (Wire F)) (ty : SigId → Ty) (rank : BlkId → Nat)
    (h : cfg.Sealed ps ty rank) (hpl : ∀ p ∈ ps, p.obj.Plain) (he : ∀ st, cfg.stepper = some st → st = euler) (w : World F) (hw : w.New cfg ty) (hlog : w.log = [])
    (tPrev t0 minH maxH : F) (h0 : 0 < minH) (h1 : minH < maxH) (h2 : rnd minH = minH) (h3 : 16 * ρ ≤ minH) (g : F) (hg : rnd g = g)
    (S : (SigId → Nat → F) → Prop) (hS : cfg.Keeps ty t0 g S) (hex : ∀ z, S z → Exactly rnd z) (P : SigId → Prop)
    (hin : ∀ t val, t0 ≤ t → cfg.Solves ty t val → S (cfg.states val) → ∀ s, P s → ∀ i, cfg.slopes val s i ≤ 0) (hinit : S (cfg.states (cfg.keptVal w))) :
    ∃ m0 : Machine F, Call.exec cfg (.init t0) { w := w, s := { tPrev := tPrev } } = .ok () m0 ∧
      ∀ ts : List F, (t0 :: ts).IsChain (fun s u => s < u ∧ u - s ≤ g) → (∀ t ∈ t0 :: ts, rnd t = t ∧ 2 * |t| + maxH ≤ R) →
        (∃ m, RunsTo cfg minH maxH m0 ts m) ∧ ∀ m, RunsTo cfg minH maxH m0 ts m → ∀ s, P s → ∀ i, cfg.states m.w.shown s i ≤ cfg.states (cfg.keptVal w) s i := by
  obtain ⟨m0, a1, -, a3⟩ := C96_region hA hr cfg ps ty rank h hpl he w hw hlog tPrev t0 minH maxH h0 h1 h2 h3 g hg
    (fun z => S z ∧ ∀ s, P s → ∀ i, z s i ≤ cfg.states (cfg.keptVal w) s i)
    (fun t val k ht hs ⟨q1, q2⟩ k0 kg => by
      refine ⟨hS t val k ht hs q1 k0 kg, fun s hp i => ?_⟩
      subst hA
      show rnd (cfg.states val s i + rnd (k * cfg.slopes val s i)) ≤ _
      have b4 := hr.mono (mul_nonpos_of_nonneg_of_nonpos k0 (hin t val ht hs q1 s hp i))
      rw [hr.zero] at b4
      have b5 := hr.mono (show cfg.states val s i + rnd (k * cfg.slopes val s i) ≤ cfg.states val s i by linarith)
      rw [hex _ q1 s i] at b5
      exact b5.trans (q2 s hp i))
  exact ⟨m0, a1, fun ts hts hR => ⟨(a3 ts hts hR).1, fun m hm => ((a3 ts hts hR).2 ⟨hinit, fun _ _ _ => le_rfl⟩ m hm).2⟩⟩

end

/-! ## Example: `x' = c x` for two numbers, `-1 ≤ c ≤ 0`, with `double` numbers -/

section
local instance (priority := high) onDouble : Arith ℚ := Arith.rounded double

theorem sealed (c : ℚ) (st : Strategy) : (C94.prog c euler st).Sealed (C94.wires c) (fun _ => .array 2) (fun b => b) :=
  have h := C94.sealed c (@euler ℚ instArithRat) (by simp) st
  { dbg := h.dbg, assembled := h.assembled, proper := h.proper, hash := h.hash, sane := h.sane, once := h.once, provided := h.provided, loops := h.loops,
    inputs := h.inputs, modelInput := h.modelInput, inputOnce := h.inputOnce, inputFree := h.inputFree, stepper := fun _ e => (by cases e; exact C26.dim_provided.1),
    stepped := fun _ => rfl, reuse := h.reuse }

theorem slopes_eq (c : ℚ) (st : Strategy) {t : ℚ} {val : SigId → Option (Val ℚ)} (h : (C94.prog c euler st).Solves (fun _ => .array 2) t val) (s : SigId) (i : Nat) :
    (C94.prog c euler st).slopes val s i = double (c * (C94.prog c euler st).states val s i) := by
  have z : double 0 = 0 := by decide +kernel
  obtain ⟨⟨V, mem, x, hs⟩, hv⟩ := h
  by_cases h0 : s = 0
  · subst h0
    obtain ⟨v, e0, f0⟩ := hv 0 rfl
    obtain ⟨a', r, h3, hr, h4⟩ : (C94.gain c).Solved t (mem 2) val := hs.block (C94.gain c) (by rw [C94.leaves_eq]; simp) fun s f hm hf => by
      simp only [C94.gain, List.mem_cons, List.not_mem_nil, or_false] at hm
      rcases hm with hm | hm <;> cases hm
      · exact ⟨_, e0⟩
      · cases hf
    show (val 1).elim 0 (Val.part i) = double (c * (val 0).elim 0 (Val.part i))
    rw [h4, h3]
    cases hr with
    | scalar k a => rfl
    | array k a =>
      show (List.ofFn fun i => double (c * a i)).getD i 0 = double (c * (List.ofFn a).getD i 0)
      rw [List.getD_eq_getElem?_getD, List.getD_eq_getElem?_getD, List.getElem?_ofFn, List.getElem?_ofFn]
      split <;> simp [z]
  · have e1 : (C94.prog c euler st).deriv s = none := if_neg h0
    simp [Config.states, Config.slopes, e1, z]

theorem kept_all {c a b : ℚ} {st : Strategy} {P : ℚ → Prop} (h1 : P a) (h2 : P b) (h3 : P 0) (s : SigId) (i : Nat) :
    P ((C94.prog c euler st).states ((C94.prog c euler st).keptVal (C94.world a b)) s i) := by
  by_cases h0 : s = 0
  · subst h0
    rw [C94.kept]
    rcases i with _ | _ | i
    · exact h1
    · exact h2
    · simpa using h3
  · have e1 : (C94.prog c euler st).deriv s = none := if_neg h0
    simpa [Config.states, e1] using h3

theorem not_negative (c : ℚ) (hc : -1 ≤ c) (st : Strategy) (t : ℚ) (val : SigId → Option (Val ℚ)) (hs : (C94.prog c euler st).Solves (fun _ => .array 2) t val)
    (hr : Exactly double ((C94.prog c euler st).states val)) (hp : ∀ s : SigId, True → ∀ i, 0 ≤ (C94.prog c euler st).states val s i) (s : SigId) (i : Nat) :
    0 ≤ (C94.prog c euler st).states val s i + 1 * (C94.prog c euler st).slopes val s i := by
  rw [slopes_eq c st hs]
  have k1 := hp s trivial i
  have k2 := binary_mono (p := 53) (by norm_num) (show -(C94.prog c euler st).states val s i ≤ c * (C94.prog c euler st).states val s i by nlinarith)
  rw [binary_neg, show binary 53 ((C94.prog c euler st).states val s i) = _ from hr s i] at k2
  have k3 : -(C94.prog c euler st).states val s i ≤ double (c * (C94.prog c euler st).states val s i) := k2
  linarith

/-- C96: with `double` numbers and gaps of at most 1, two numbers with `x' = c x` and `-1 ≤ c` do not become negative. -/
theorem C96_double (c a b : ℚ) (hc : -1 ≤ c) (ha : 0 ≤ a) (hb : 0 ≤ b) (ra : double a = a) (rb : double b = b) (st : Strategy) :
    ∃ m0 : Machine ℚ, Call.exec (C94.prog c euler st) (.init 0) { w := C94.world a b, s := { tPrev := 0 } } = .ok () m0 ∧
      ∀ ts : List ℚ, (0 :: ts).IsChain (fun s u => s < u ∧ u - s ≤ 1) → (∀ t ∈ 0 :: ts, double t = t ∧ 2 * |t| + 1 ≤ 2 ^ 20) →
        (∃ m, RunsTo (C94.prog c euler st) (1 / 2 ^ 20) 1 m0 ts m) ∧
        ∀ m, RunsTo (C94.prog c euler st) (1 / 2 ^ 20) 1 m0 ts m → ∀ i, 0 ≤ (C94.prog c euler st).states m.w.shown 0 i := by
  have z : double 0 = 0 := by decide +kernel
  obtain ⟨m0, a1, a2⟩ := C96_positive (A := onDouble) rfl (binary_rounding (p := 53) (by norm_num) (le_refl ((2 ^ 20 : ℚ) / 2 ^ 53))) binary_neg (C94.prog c euler st) _ _ _ (sealed c st)
    (by simp [C94.wires, Make.Plain]) (fun s e => (Option.some_inj.1 e).symm) (C94.world a b) (C94.new c a b euler st) rfl 0 0 (1 / 2 ^ 20) 1 (by norm_num) (by norm_num) (by decide +kernel)
    (by norm_num) 1 (by decide +kernel) (fun _ => True) (fun t val _ hs hr hp s _ i => not_negative c hc st t val hs hr hp s i)
    (kept_all (P := fun x => double x = x) ra rb z) (fun s _ i => kept_all (P := fun x => 0 ≤ x) ha hb le_rfl s i)
  exact ⟨m0, a1, fun ts hts hR => ⟨(a2 ts hts hR).1, fun m hm i => (a2 ts hts hR).2 m hm 0 trivial i⟩⟩

/-- C96: if `c` is not positive, neither gets above its initial value. -/
theorem C96_decay (c a b : ℚ) (hc : -1 ≤ c) (hc0 : c ≤ 0) (ha : 0 ≤ a) (hb : 0 ≤ b) (ra : double a = a) (rb : double b = b) (st : Strategy) :
    ∃ m0 : Machine ℚ, Call.exec (C94.prog c euler st) (.init 0) { w := C94.world a b, s := { tPrev := 0 } } = .ok () m0 ∧
      ∀ ts : List ℚ, (0 :: ts).IsChain (fun s u => s < u ∧ u - s ≤ 1) → (∀ t ∈ 0 :: ts, double t = t ∧ 2 * |t| + 1 ≤ 2 ^ 20) →
        (∃ m, RunsTo (C94.prog c euler st) (1 / 2 ^ 20) 1 m0 ts m) ∧
        ∀ m, RunsTo (C94.prog c euler st) (1 / 2 ^ 20) 1 m0 ts m → ∀ i, (C94.prog c euler st).states m.w.shown 0 i ≤ [a, b].getD i 0 := by
  have z : double 0 = 0 := by decide +kernel
  have hr := binary_rounding (p := 53) (by norm_num) (le_refl ((2 ^ 20 : ℚ) / 2 ^ 53))
  obtain ⟨m0, a1, a2⟩ := C96_sinks (A := onDouble) rfl hr (C94.prog c euler st) _ _ _ (sealed c st)
    (by simp [C94.wires, Make.Plain]) (fun s e => (Option.some_inj.1 e).symm) (C94.world a b) (C94.new c a b euler st) rfl 0 0 (1 / 2 ^ 20) 1 (by norm_num) (by norm_num) (by decide +kernel)
    (by norm_num) 1 (by decide +kernel) _ (keeps_positive (A := onDouble) rfl hr binary_neg (P := fun _ => True) fun t val _ hs hr hp s _ i => not_negative c hc st t val hs hr hp s i)
    (fun z h => h.1) (fun _ => True) (fun t val _ hs hv s _ i => by
      rw [slopes_eq c st hs]
      have := binary_mono (p := 53) (by norm_num) (mul_nonpos_of_nonpos_of_nonneg hc0 (hv.2 s trivial i))
      rwa [binary_zero] at this)
    ⟨kept_all (P := fun x => double x = x) ra rb z, fun s _ i => kept_all (P := fun x => 0 ≤ x) ha hb le_rfl s i⟩
  exact ⟨m0, a1, fun ts hts hR => ⟨(a2 ts hts hR).1, fun m hm i => (a2 ts hts hR).2 m hm 0 trivial i⟩⟩

/-- Such numbers, and such times. -/
example : (0 : ℚ) ≤ double (1 / 10) ∧ double (double (1 / 10)) = double (1 / 10) ∧ (0 :: [(1 / 2 : ℚ), 3 / 2]).IsChain (fun s u => s < u ∧ u - s ≤ 1) ∧
    ∀ t ∈ 0 :: [(1 / 2 : ℚ), 3 / 2], double t = t ∧ 2 * |t| + 1 ≤ 2 ^ 20 := by
  refine ⟨by decide +kernel, by decide +kernel, by simp; norm_num, by decide +kernel⟩

/-- C96: with one gap of 2 they become negative. -/
theorem C96_gap (st : Strategy) : ∃ m0 m : Machine ℚ, Call.exec (C94.prog (-1) euler st) (.init 0) { w := C94.world 1 3, s := { tPrev := 0 } } = .ok () m0 ∧
    RunsTo (C94.prog (-1) euler st) (1 / 2 ^ 20) 1 m0 [2] m ∧ m.w.shown 0 = some (.array [-1, -3]) := by
  refine ⟨_, _, eq_of_returns (by cases st <;> decide +kernel), .cons 10 (eq_of_returns (by cases st <;> decide +kernel)) .nil, ?_⟩
  cases st <;> decide +kernel

end
end Pooya.C96
