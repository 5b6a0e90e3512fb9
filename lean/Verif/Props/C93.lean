import Verif.Spec.Region
import Verif.Props.C80
import Verif.Props.C92
import Verif.Props.C77
import Mathlib.Data.List.GetD

/-!
# C93 — with small gaps Euler does not leave what cannot be left

Full statement: let `S` be a set of values of the Integrators' outputs that contains with two states all between them.  If from every state in `S` the straight way along the derivatives
for the time `g` ends in `S`, then a simulation with Euler that begins in `S` and is asked for times with gaps of at most `g` is in `S` after `init` and after every call of `run`.  In
particular bounds for the outputs of the Integrators are kept.

Proved: `C93_region`, for all closed diagrams without TriggeredIntegrators, with scalars and arrays, in exact arithmetic; `C93_bounds`: bounds; `C93_spread`: an example, and that it
leaves the set with a larger gap (`C93_gap`).

For Rk4 and Rkf45 nothing of the kind is claimed: their steps do not end between states that Euler reaches.
-/

namespace Pooya.C93

open Pooya C60 C69 C72 Within

set_option linter.unusedSectionVars false

section
variable {F : Type} [_root_.Field F] [LinearOrder F] [IsStrictOrderedRing F] [Archimedean F]
attribute [local instance] Arith.exact
variable {cfg : Config F} {ps : List (Wire F)} {ty : SigId → Ty} {rank : BlkId → Nat} {V : Vars} {S : (SigId → Nat → F) → Prop} {t0 g : F}

theorem comp_part {val : SigId → Option (Val F)} {s : SigId} {i : Nat} : comp val (s, i) = (val s).elim 0 (Val.part i) := by
  unfold comp
  cases val s with
  | none => simp [exact_lit]
  | some v => cases v <;> simp [Val.part, exact_lit]

/-- The states are what the vector says. -/
theorem step_states (h : cfg.Sealed ps ty rank) (hV : ∀ s, s ∈ V.scalars ++ V.arrays ↔ ∃ p ∈ ps, p.obj.isState = true ∧ p.Gives s)
    (hsz : ∀ s ∈ V.arrays, (cfg.deriv s).elim 0 V.size = V.size s) {x d : List F} {val val' : SigId → Option (Val F)} (k : F) (hx : Packed val V.size V.scalars V.arrays x)
    (hd : Packed (fun s => (cfg.deriv s).bind val) (fun s => (cfg.deriv s).elim 0 V.size) V.scalars V.arrays d)
    (hy : Packed val' V.size V.scalars V.arrays (vadd x (vsmul k d))) : cfg.states val' = fun s i => cfg.states val s i + k * cfg.slopes val s i := by
  obtain ⟨x1, x2, x3⟩ := (packed_iff fun _ _ => rfl).1 hx
  obtain ⟨d1, d2, d3⟩ := (packed_iff hsz).1 hd
  obtain ⟨y1, y2, y3⟩ := (packed_iff fun _ _ => rfl).1 hy
  have key : ∀ q ∈ Within.slots V, comp val' q = comp val q + k * comp (fun s => (cfg.deriv s).bind val) q := by
    rw [x3, d3] at y3
    unfold vadd vsmul at y3
    rw [List.map_map, List.zipWith_map_left, List.zipWith_map_right, List.zipWith_self] at y3
    exact fun q hq => (List.map_inj_left.1 y3 q hq).symm
  funext s i
  unfold Config.states Config.slopes
  cases e : cfg.deriv s with
  | none => simp
  | some r =>
    have hs : s ∈ V.scalars ++ V.arrays := by
      obtain ⟨l, hl, e'⟩ := C59.deriv_state h (by rw [e]; rfl)
      obtain ⟨p, hp, hf⟩ := C59.leaf_wire h hl
      exact (hV s).2 ⟨p, hp, (hf.state s e').2, (hf.state s e').1⟩
    simp only [Option.isSome_some, if_true, Option.elim_some]
    rcases List.mem_append.1 hs with hs | hs
    · have := key (s, 0) (by unfold Within.slots; simp [hs])
      obtain ⟨v, e1⟩ := x1 s hs
      obtain ⟨w, e2⟩ := d1 s hs
      obtain ⟨u, e3⟩ := y1 s hs
      simp only [e, Option.bind_some] at e2
      simp only [comp, e1, e3, e, Option.bind_some, e2] at this
      simp only [e1, e2, e3, Option.elim_some, Val.part]
      exact this
    · obtain ⟨v, e1, f1⟩ := x2 s hs
      obtain ⟨w, e2, f2⟩ := d2 s hs
      obtain ⟨u, e3, f3⟩ := y2 s hs
      rw [hsz s hs] at f2
      simp only [e, Option.bind_some] at e2
      by_cases hi : i < V.size s
      · have := key (s, i) (by unfold Within.slots; simp [hs, hi])
        rw [comp_part, comp_part, comp_part] at this
        simpa [e] using this
      · simp only [e1, e2, e3, Option.elim_some, Val.part]
        rw [List.getD_eq_default _ _ (by omega), List.getD_eq_default _ _ (by omega), List.getD_eq_default _ _ (by omega)]
        simp

theorem same_states (h : cfg.Sealed ps ty rank) (hV : ∀ s, s ∈ V.scalars ++ V.arrays ↔ ∃ p ∈ ps, p.obj.isState = true ∧ p.Gives s) {x : List F} {val val' : SigId → Option (Val F)}
    (hx : Packed val V.size V.scalars V.arrays x) (hy : Packed val' V.size V.scalars V.arrays x) : cfg.states val' = cfg.states val := by
  obtain ⟨x1, x2, x3⟩ := (packed_iff fun _ _ => rfl).1 hx
  obtain ⟨y1, y2, y3⟩ := (packed_iff fun _ _ => rfl).1 hy
  rw [x3] at y3
  have key := List.map_inj_left.1 y3
  funext s i
  unfold Config.states
  cases e : cfg.deriv s with
  | none => rfl
  | some r =>
    have hs : s ∈ V.scalars ++ V.arrays := by
      obtain ⟨l, hl, e'⟩ := C59.deriv_state h (by rw [e]; rfl)
      obtain ⟨p, hp, hf⟩ := C59.leaf_wire h hl
      exact (hV s).2 ⟨p, hp, (hf.state s e').2, (hf.state s e').1⟩
    simp only [Option.isSome_some, if_true]
    rcases List.mem_append.1 hs with hs | hs
    · have := key (s, 0) (by unfold Within.slots; simp [hs])
      obtain ⟨v, e1⟩ := x1 s hs
      obtain ⟨u, e3⟩ := y1 s hs
      simp only [comp, e1, e3] at this
      simp only [e1, e3, Option.elim_some, Val.part]
      exact this.symm
    · obtain ⟨v, e1, f1⟩ := x2 s hs
      obtain ⟨u, e3, f3⟩ := y2 s hs
      by_cases hi : i < V.size s
      · have := key (s, i) (by unfold Within.slots; simp [hs, hi])
        rw [comp_part, comp_part] at this
        exact this.symm
      · simp only [e1, e3, Option.elim_some, Val.part]
        rw [List.getD_eq_default _ _ (by omega), List.getD_eq_default _ _ (by omega)]

theorem no_states (h : cfg.Sealed ps ty rank) (hV : ∀ s, s ∈ V.scalars ++ V.arrays ↔ ∃ p ∈ ps, p.obj.isState = true ∧ p.Gives s) (hn : V.scalars ++ V.arrays = [])
    {val val' : SigId → Option (Val F)} : cfg.states val = cfg.states val' := by
  funext s i
  unfold Config.states
  cases e : cfg.deriv s with
  | none => rfl
  | some r =>
    obtain ⟨l, hl, e'⟩ := C59.deriv_state h (by rw [e]; rfl)
    obtain ⟨p, hp, hf⟩ := C59.leaf_wire h hl
    have := (hV s).2 ⟨p, hp, (hf.state s e').2, (hf.state s e').1⟩
    rw [hn] at this
    exact absurd this List.not_mem_nil

/-- A shorter way along the derivatives. -/
theorem shorter (hS : Bulging S) {z d : SigId → Nat → F} (h1 : S z) (h2 : S fun s i => z s i + g * d s i) {k : F} (hk : 0 ≤ k) (hg : k ≤ g) : S fun s i => z s i + k * d s i := by
  rcases hk.eq_or_lt with rfl | hk0
  · simpa using h1
  have g0 : 0 < g := hk0.trans_le hg
  have := hS _ _ h1 h2 (k / g) (div_nonneg hk g0.le) ((div_le_one g0).2 hg)
  convert this using 3 with s i
  field_simp
  ring

theorem solves (h : cfg.Sealed ps ty rank) (hV : C72.Sorted ps ty V) {mem : BlkId → Mem F} {t : F} {x : List F} {val : SigId → Option (Val F)} (hs : Solution cfg V mem t x val) :
    cfg.Solves ty t val := by
  refine ⟨⟨V, mem, x, hs⟩, fun s e => ?_⟩
  obtain ⟨x1, x2, x3⟩ := (packed_iff fun _ _ => rfl).1 hs.state
  obtain ⟨l, hl, e'⟩ := C59.deriv_state h e
  obtain ⟨p, hp, hf⟩ := C59.leaf_wire h hl
  rcases List.mem_append.1 ((hV.mem s).2 ⟨p, hp, (hf.state s e').2, (hf.state s e').1⟩) with k | k
  · obtain ⟨v, e1⟩ := x1 s k
    exact ⟨_, e1, by rw [hV.scalars s k]; exact ⟨rfl, rfl⟩⟩
  · obtain ⟨v, e1, e2⟩ := x2 s k
    obtain ⟨n, e3⟩ := hV.arrays s k
    rw [hV.size, e3] at e2
    exact ⟨_, e1, by rw [e3]; exact ⟨rfl, by simpa [Val.sizeOk, Ty.size] using e2⟩⟩

theorem passes (h : cfg.Sealed ps ty rank) (hV : C72.Sorted ps ty V) (he : ∀ st, cfg.stepper = some st → st = euler) (hS : Bulging S) (hin : cfg.Stays ty t0 g S) {a b : Snapshot F} {ts : List F}
    (hp : Passes cfg V a ts b) (hts : (a.time :: ts).IsChain fun s u => s < u ∧ u - s ≤ g) (ht : t0 ≤ a.time) (ha : ∀ val, Packed val V.size V.scalars V.arrays a.state → S (cfg.states val))
    (hs : S (cfg.states a.vals)) : S (cfg.states b.vals) := by
  induction hp with
  | nil => exact hs
  | @steps a b c ts st steps k1 k2 k3 k4 k5 k6 ih =>
    obtain ⟨⟨g1, g2⟩, g3⟩ := List.isChain_cons_cons.1 hts
    obtain rfl := he st k2
    rw [k4 (by simp)] at k5
    have hb : ∀ val, Packed val V.size V.scalars V.arrays b.state → S (cfg.states val) := by
      cases k5 with
      | last a1 a2 a3 a4 =>
        obtain ⟨d, ⟨val, q1, q2⟩, e⟩ := a3
        intro val' hy
        have e1 : b.state = vadd a.state (vsmul (b.time -. a.time) d) := congrArg Prod.fst e
        rw [e1] at hy
        rw [step_states h hV.mem (size_same h hV) _ q1.state q2 hy]
        exact shorter hS (ha val q1.state) (hin _ val ht (solves h hV q1) (ha val q1.state)) (sub_nonneg.2 g1.le) g2
      | step a1 a2 a3 a4 a5 => cases a5
    refine ih g3 (ht.trans g1.le) hb (hb _ ?_)
    cases k5 with
    | last a1 a2 a3 a4 => exact a4.solution.state
    | step a1 a2 a3 a4 a5 => cases a5
  | @sample a b c ts k1 k2 k3 ih =>
    obtain ⟨⟨g1, _⟩, g3⟩ := List.isChain_cons_cons.1 hts
    have hb : ∀ val, S (cfg.states val) := fun val => by rw [no_states h hV.mem k1 (val' := a.vals)]; exact hs
    exact ih g3 (ht.trans g1.le) (fun val _ => hb val) (hb _)

/-- C93: with Euler and gaps of at most `g` the outputs of the Integrators stay in the set. -/
theorem C93_region (cfg : Config F) (ps : List (Wire F)) (ty : SigId → Ty) (rank : BlkId → Nat) (h : cfg.Sealed ps ty rank) (hpl : ∀ p ∈ ps, p.obj.Plain)
    (he : ∀ st, cfg.stepper = some st → st = euler) (w : World F) (hw : w.New cfg ty) (hlog : w.log = []) (tPrev t0 minH maxH : F) (h0 : 0 < minH) (h1 : minH < maxH)
    (g : F) (S : (SigId → Nat → F) → Prop) (hS : Bulging S) (hin : cfg.Stays ty t0 g S) :
    ∃ m0 : Machine F, Call.exec cfg (.init t0) { w := w, s := { tPrev := tPrev } } = .ok () m0 ∧ cfg.states m0.w.shown = cfg.states (cfg.keptVal w) ∧
      ∀ ts : List F, (t0 :: ts).IsChain (fun s u => s < u ∧ u - s ≤ g) →
        (∃ m, RunsTo cfg minH maxH m0 ts m) ∧ (S (cfg.states (cfg.keptVal w)) → ∀ m, RunsTo cfg minH maxH m0 ts m → S (cfg.states m.w.shown)) := by
  obtain ⟨m0, V, y0, a1, rfl, a3, a4, a5, a6, a7⟩ := C69_passage cfg ps ty rank h hpl (fun st e => by rw [he st e]; simp) w hw hlog tPrev t0 minH maxH h0 h1
  have hV : C72.Sorted ps ty m0.vars := sorted_of h (fun _ => C57.ordered_exact) hw a1 a3 a4
  have e0 : cfg.states m0.w.shown = cfg.states (cfg.keptVal w) := same_states h a3 a5 a6.solution.state
  refine ⟨m0, a1, e0, fun ts hts => ?_⟩
  have hlt : (t0 :: ts).Pairwise (· < ·) := List.isChain_iff_pairwise.1 (hts.imp fun _ _ k => k.1)
  refine ⟨(a7 ts hlt).1, fun hs m hm => ?_⟩
  obtain ⟨y, hp⟩ := (a7 ts hlt).2 m hm
  rw [← e0] at hs
  exact passes h hV he hS hin hp hts le_rfl (fun val hv => by rw [same_states h a3 a6.solution.state hv]; exact hs) hs

/-- C93: bounds are kept. -/
theorem C93_bounds (cfg : Config F) (ps : List (Wire F)) (ty : SigId → Ty) (rank : BlkId → Nat) (h : cfg.Sealed ps ty rank) (hpl : ∀ p ∈ ps, p.obj.Plain)
    (he : ∀ st, cfg.stepper = some st → st = euler) (w : World F) (hw : w.New cfg ty) (hlog : w.log = []) (tPrev t0 minH maxH : F) (h0 : 0 < minH) (h1 : minH < maxH)
    (g : F) (lo hi : SigId → Nat → Option F)
    (hin : ∀ t val, t0 ≤ t → cfg.Solves ty t val → Between lo hi (cfg.states val) → Between lo hi fun s i => cfg.states val s i + g * cfg.slopes val s i)
    (hinit : Between lo hi (cfg.states (cfg.keptVal w))) :
    ∃ m0 : Machine F, Call.exec cfg (.init t0) { w := w, s := { tPrev := tPrev } } = .ok () m0 ∧
      ∀ ts : List F, (t0 :: ts).IsChain (fun s u => s < u ∧ u - s ≤ g) →
        (∃ m, RunsTo cfg minH maxH m0 ts m) ∧ ∀ m, RunsTo cfg minH maxH m0 ts m → Between lo hi (cfg.states m.w.shown) := by
  obtain ⟨m0, a1, -, a3⟩ := C93_region cfg ps ty rank h hpl he w hw hlog tPrev t0 minH maxH h0 h1 g (Between lo hi) (fun z y hz hy θ k0 k1 s i => by
      refine ⟨fun a e => ?_, fun a e => ?_⟩
      · have b1 := (hz s i).1 a e
        have b2 := (hy s i).1 a e
        nlinarith
      · have b1 := (hz s i).2 a e
        have b2 := (hy s i).2 a e
        nlinarith) hin
  exact ⟨m0, a1, fun ts hts => ⟨(a3 ts hts).1, (a3 ts hts).2 hinit⟩⟩

end

/-! ## Example: `x' = - x y`, `y' = x y` -/

section
attribute [local instance] Arith.exact

/-- Neither is negative, and together they are 4. -/
def Sound (z : SigId → Nat → ℚ) : Prop := 0 ≤ z 0 0 ∧ 0 ≤ z 1 0 ∧ z 0 0 + z 1 0 = 4

theorem bulging : Bulging Sound := by
  rintro z y ⟨z1, z2, z3⟩ ⟨y1, y2, y3⟩ θ k0 k1
  refine ⟨?_, ?_, ?_⟩
  · show 0 ≤ z 0 0 + θ * (y 0 0 - z 0 0)
    nlinarith
  · show 0 ≤ z 1 0 + θ * (y 1 0 - z 1 0)
    nlinarith
  · show z 0 0 + θ * (y 0 0 - z 0 0) + (z 1 0 + θ * (y 1 0 - z 1 0)) = 4
    linear_combination (1 - θ) * z3 + θ * y3

theorem stays (st : Strategy) (t0 : ℚ) : (C77.prog euler st).Stays (fun _ => .scalar) t0 (1 / 4) Sound := by
  rintro t val - ⟨⟨V, mem, x, hs⟩, hv⟩ ⟨z1, z2, z3⟩
  obtain ⟨v, e0, f0⟩ := hv 0 rfl
  obtain ⟨w, e1, f1⟩ := hv 1 rfl
  cases v <;> simp [Val.Fits, Val.hasTag] at f0
  cases w <;> simp [Val.Fits, Val.hasTag] at f1
  rename_i a b
  obtain ⟨p, h1, h2⟩ : C77.times.Solved t (mem 1) val := hs.block C77.times (by rw [C77.leaves_eq]; simp) fun s f hm hf => by
    simp only [C77.times, List.mem_cons, List.not_mem_nil, or_false] at hm
    rcases hm with hm | hm | hm <;> cases hm
    · exact ⟨_, e0⟩
    · exact ⟨_, e1⟩
    · cases hf
  obtain ⟨a', r, h3, hr, h4⟩ : C77.minus.Solved t (mem 2) val := hs.block C77.minus (by rw [C77.leaves_eq]; simp) fun s f hm hf => by
    simp only [C77.minus, List.mem_cons, List.not_mem_nil, or_false] at hm
    rcases hm with hm | hm <;> cases hm
    · exact ⟨_, h2⟩
    · cases hf
  rw [h2] at h3
  cases h3
  cases h1 with
  | cons g1 g2 h1 =>
  rw [e0] at g1
  cases g1
  cases g2
  cases h1 with
  | cons g1 g2 h1 =>
  rw [e1] at g1
  cases g1
  cases g2
  cases h1
  cases hr
  have s0 : (C77.prog euler st).states val 0 0 = a := by show (val 0).elim 0 (Val.part 0) = a; rw [e0]; rfl
  have s1 : (C77.prog euler st).states val 1 0 = b := by show (val 1).elim 0 (Val.part 0) = b; rw [e1]; rfl
  have d0 : (C77.prog euler st).slopes val 0 0 = -(a * b) := by
    show (val 3).elim 0 (Val.part 0) = _
    rw [h4]
    show -1 * (1 * a * b) = _
    ring
  have d1 : (C77.prog euler st).slopes val 1 0 = a * b := by
    show (val 2).elim 0 (Val.part 0) = _
    rw [h2]
    show 1 * a * b = _
    ring
  rw [s0] at z1 z3
  rw [s1] at z2 z3
  refine ⟨?_, ?_, ?_⟩
  · show 0 ≤ (C77.prog euler st).states val 0 0 + 1 / 4 * (C77.prog euler st).slopes val 0 0
    rw [s0, d0]
    nlinarith [mul_nonneg z1 z1]
  · show 0 ≤ (C77.prog euler st).states val 1 0 + 1 / 4 * (C77.prog euler st).slopes val 1 0
    rw [s1, d1]
    nlinarith [mul_nonneg z1 z2]
  · show (C77.prog euler st).states val 0 0 + 1 / 4 * (C77.prog euler st).slopes val 0 0 + ((C77.prog euler st).states val 1 0 + 1 / 4 * (C77.prog euler st).slopes val 1 0) = 4
    rw [s0, d0, s1, d1]
    linear_combination z3

/-- C93: with gaps of at most 1/4 neither `x` nor `y` becomes negative, and none exceeds 4. -/
theorem C93_spread (st : Strategy) : ∃ m0 : Machine ℚ, Call.exec (C77.prog euler st) (.init 0) { w := C77.world, s := { tPrev := 0 } } = .ok () m0 ∧
    ∀ ts : List ℚ, (0 :: ts).IsChain (fun s u => s < u ∧ u - s ≤ 1 / 4) →
      (∃ m, RunsTo (C77.prog euler st) (1 / 2 ^ 20) 1 m0 ts m) ∧
      ∀ m, RunsTo (C77.prog euler st) (1 / 2 ^ 20) 1 m0 ts m → Sound ((C77.prog euler st).states m.w.shown) := by
  obtain ⟨m0, a1, -, a3⟩ := C93_region (C77.prog euler st) _ _ _ (C77.sealed euler (by simp) st) (by simp [C77.wires, Make.Plain]) (fun s e => (Option.some_inj.1 e).symm) C77.world
    (C77.new euler st) rfl 0 0 (1 / 2 ^ 20) 1 (by norm_num) (by norm_num) (1 / 4) Sound bulging (stays st 0)
  refine ⟨m0, a1, fun ts hts => ⟨(a3 ts hts).1, (a3 ts hts).2 ?_⟩⟩
  have e0 : (C77.prog euler st).states ((C77.prog euler st).keptVal C77.world) 0 0 = 3 := by rfl
  have e1 : (C77.prog euler st).states ((C77.prog euler st).keptVal C77.world) 1 0 = 1 := by rfl
  unfold Sound
  rw [e0, e1]
  norm_num

/-- C93: with one gap of 2, `x` becomes negative. -/
theorem C93_gap (st : Strategy) : ∃ m0 m : Machine ℚ, Call.exec (C77.prog euler st) (.init 0) { w := C77.world, s := { tPrev := 0 } } = .ok () m0 ∧
    RunsTo (C77.prog euler st) (1 / 2 ^ 20) 1 m0 [2] m ∧ m.w.shown 0 = some (.scalar (-3)) := by
  refine ⟨_, _, eq_of_returns (by cases st <;> decide +kernel), .cons 10 (eq_of_returns (by cases st <;> decide +kernel)) .nil, ?_⟩
  cases st <;> decide +kernel

/-- The hypotheses of `C93_bounds` hold for `x' = x` with an array of two numbers that begins with 1000 and 1/1000, and the bound 0: it is never negative. -/
example (st : Strategy) : ∃ m0 : Machine ℚ, Call.exec (C80.prog euler st true) (.init 0) { w := C80.world true, s := { tPrev := 0 } } = .ok () m0 ∧
    ∀ ts : List ℚ, (0 :: ts).IsChain (fun s u => s < u ∧ u - s ≤ 5) → (∃ m, RunsTo (C80.prog euler st true) (1 / 2 ^ 20) 1 m0 ts m) ∧
      ∀ m, RunsTo (C80.prog euler st true) (1 / 2 ^ 20) 1 m0 ts m → Between (fun _ _ => some 0) (fun _ _ => none) ((C80.prog euler st true).states m.w.shown) := by
  refine C93_bounds (C80.prog euler st true) _ _ _ (C80.sealed euler (by simp) st true) (by simp [C80.wires, Make.Plain]) (fun s e => (Option.some_inj.1 e).symm) (C80.world true)
    (C80.new euler st true) rfl 0 0 (1 / 2 ^ 20) 1 (by norm_num) (by norm_num) 5 _ _ ?_ ?_
  · rintro t val - ⟨⟨V, mem, x, hs⟩, hv⟩ hz s i
    refine ⟨fun a e => ?_, fun a e => by cases e⟩
    cases e
    have := (hz s i).1 0 rfl
    by_cases h0 : s = 0
    · subst h0
      obtain ⟨v, e0, f0⟩ := hv 0 rfl
      obtain ⟨a', r, h3, hr, h4⟩ : C80.gain.Solved t (mem 2) val := hs.block C80.gain (C80.leaf_mem.2 (.inr rfl)) fun s f hm hf => by
        simp only [C80.gain, List.mem_cons, List.not_mem_nil, or_false] at hm
        rcases hm with hm | hm <;> cases hm
        · exact ⟨_, e0⟩
        · cases hf
      have d0 : (C80.prog euler st true).slopes val 0 i = (C80.prog euler st true).states val 0 i := by
        show (val 1).elim 0 (Val.part i) = (val 0).elim 0 (Val.part i)
        rw [h4, h3]
        cases hr <;> simp [Val.part]
      show 0 ≤ (C80.prog euler st true).states val 0 i + 5 * (C80.prog euler st true).slopes val 0 i
      rw [d0]
      linarith
    · have e1 : (C80.prog euler st true).deriv s = none := if_neg h0
      simp [Config.states, Config.slopes, e1]
  · intro s i
    refine ⟨fun a e => ?_, fun a e => by cases e⟩
    cases e
    by_cases h0 : s = 0
    · subst h0
      have : (C80.prog euler st true).states ((C80.prog euler st true).keptVal (C80.world true)) 0 i = [1000, 1/1000].getD i 0 := rfl
      rw [this]
      rcases i with _ | _ | i <;> simp
    · have e1 : (C80.prog euler st true).deriv s = none := if_neg h0
      simp [Config.states, e1]

end
end Pooya.C93
