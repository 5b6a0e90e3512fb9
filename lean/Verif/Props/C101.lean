import Verif.Spec.Units
import Verif.Props.C97

/-!
# C101 — units do not matter

Full statement: let a second diagram be the first one in other units: where its states at the time `c t + d` are `k x + o` for the states `x` of the first one at the time `t` (each number with a `k`
and an `o` of its own), its derivatives are `k / c` times the others.  Then two programs with Euler or Rk4, asked for the times `ts` and `c ts + d`, show states `x` and `k x + o` after every call of
`run`, if they do at the beginning.

Proved: `C101_units`, for all pairs of closed diagrams without TriggeredIntegrators, with scalars and arrays, any simulators and different step limits, in exact arithmetic over any Archimedean ordered
field; `C101_decay`: `x' = γ x` in other units of the state and of time; `C101_drawings`: the same for
drawings without Delays; `C101_degrees`: the pendulum of samples/test06_pendulum_with_torque.cpp drawn with degrees instead of radians and any other unit of time.  Nothing is claimed for Rkf45: `C101_rkf45_refuted` shows why, its tolerance has a unit.
-/

namespace Pooya.C101

open Pooya C60 C69 C72 Within C94 C95

set_option linter.unusedSectionVars false

section
variable {F : Type} [_root_.Field F] [LinearOrder F] [IsStrictOrderedRing F] [Archimedean F]
attribute [local instance] Arith.exact
variable {cfg cfg' : Config F} {ty ty' : SigId → Ty} {k o : SigId → Nat → F} {c d : F}

/-- A part of a step. -/
theorem combed (hc : c ≠ 0) {z p p' : SigId → Nat → F} {h h' : F} (hh : h' = c * h) (hp : ∀ s i, p' s i = k s i / c * p s i) :
    (fun s i => inUnits k o z s i + h' * p' s i) = inUnits k o fun s i => z s i + h * p s i := by
  funext s i
  show k s i * z s i + o s i + h' * p' s i = k s i * (z s i + h * p s i) + o s i
  rw [hh, hp]
  field_simp
  ring

theorem moved_units (hc : c ≠ 0) (hU : Converts cfg cfg' ty ty' k o c d) {M : Method} {t u : F} {z y z' y' : SigId → Nat → F} (h1 : Moved cfg ty t u z y M)
    (h2 : Moved cfg' ty' (c * t + d) (c * u + d) z' y' M) (hz : z' = inUnits k o z) : y' = inUnits k o y := by
  have e : c * u + d - (c * t + d) = c * (u - t) := by ring
  cases M with
  | rkf45 => exact h1.elim
  | euler =>
    obtain ⟨v, a1, rfl, rfl⟩ := h1
    obtain ⟨w, b1, rfl, rfl⟩ := h2
    have := hU t v w a1 b1 hz
    rw [hz]
    exact combed hc e this
  | rk4 =>
    obtain ⟨v1, v2, v3, v4, a1, a2, a3, a4, rfl, a6, a7, a8, rfl⟩ := h1
    obtain ⟨w1, w2, w3, w4, b1, b2, b3, b4, rfl, b6, b7, b8, rfl⟩ := h2
    have e2 : c * t + d + (c * u + d - (c * t + d)) / 2 = c * (t + (u - t) / 2) + d := by ring
    have e3 : c * t + d + (c * u + d - (c * t + d)) = c * (t + (u - t)) + d := by ring
    rw [e2] at b2 b3
    rw [e3] at b4
    rw [hz] at b6 b7 b8
    have n1 := hU _ _ _ a1 b1 hz
    have n2 := hU _ _ _ a2 b2 (by rw [b6, a6]; exact combed hc (by ring) n1)
    have n3 := hU _ _ _ a3 b3 (by rw [b7, a7]; exact combed hc (by ring) n2)
    have n4 := hU _ _ _ a4 b4 (by rw [b8, a8]; exact combed hc (by ring) n3)
    rw [hz]
    exact combed (p := fun s i => cfg.slopes v1 s i + 2 * cfg.slopes v2 s i + 2 * cfg.slopes v3 s i + cfg.slopes v4 s i)
      (p' := fun s i => cfg'.slopes w1 s i + 2 * cfg'.slopes w2 s i + 2 * cfg'.slopes w3 s i + cfg'.slopes w4 s i) hc (by ring) fun s i => by
        show cfg'.slopes w1 s i + 2 * cfg'.slopes w2 s i + 2 * cfg'.slopes w3 s i + cfg'.slopes w4 s i = _
        rw [n1, n2, n3, n4]
        ring

theorem walk_units (hc : c ≠ 0) (hU : Converts cfg cfg' ty ty' k o c d) {M : Method} {t : F} {ts : List F} {z y : SigId → Nat → F} (h1 : Walk cfg ty M t z ts y) :
    ∀ {z' y' : SigId → Nat → F}, Walk cfg' ty' M (c * t + d) z' (ts.map (c * · + d)) y' → z' = inUnits k o z → y' = inUnits k o y := by
  induction h1 with
  | nil =>
    intro z' y' h2 hz
    cases h2
    exact hz
  | cons k1 _ ih =>
    intro z' y' h2 hz
    cases h2 with
    | cons j1 j2 => exact ih j2 (moved_units hc hU k1 j1 hz)

theorem converted (hc : 0 < c) (d : F) {t : F} {ts : List F} (h : (t :: ts).IsChain (· < ·)) : ((c * t + d) :: ts.map (c * · + d)).IsChain (· < ·) := by
  have := List.isChain_map_of_isChain (fun x : F => c * x + d) (S := (· < ·)) (fun a b (hab : a < b) => by
    show c * a + d < c * b + d
    nlinarith [mul_lt_mul_of_pos_left hab hc]) h
  simpa using this

/-- C101: the same diagram in other units is simulated the same, in other units. -/
theorem C101_units (cfg cfg' : Config F) (ps ps' : List (Wire F)) (ty ty' : SigId → Ty) (rank rank' : BlkId → Nat) (h : cfg.Sealed ps ty rank) (h' : cfg'.Sealed ps' ty' rank')
    (hpl : ∀ p ∈ ps, p.obj.Plain) (hpl' : ∀ p ∈ ps', p.obj.Plain) (hex : ∃ p ∈ ps, p.obj.isState = true) (hex' : ∃ p ∈ ps', p.obj.isState = true) (M : Method) (hM : M ≠ .rkf45)
    (he : ∀ st, cfg.stepper = some st → st = M.stepper) (he' : ∀ st, cfg'.stepper = some st → st = M.stepper) (w w' : World F) (hw : w.New cfg ty) (hw' : w'.New cfg' ty')
    (hlog : w.log = []) (hlog' : w'.log = []) (tPrev tPrev' t0 minH maxH minH' maxH' : F) (h0 : 0 < minH) (h1 : minH < maxH) (h0' : 0 < minH') (h1' : minH' < maxH')
    (k o : SigId → Nat → F) (c d : F) (hc : 0 < c) (hU : Converts cfg cfg' ty ty' k o c d) (hn : cfg'.states (cfg'.keptVal w') = inUnits k o (cfg.states (cfg.keptVal w))) :
    ∃ m0 m0' : Machine F, Call.exec cfg (.init t0) { w := w, s := { tPrev := tPrev } } = .ok () m0 ∧
      Call.exec cfg' (.init (c * t0 + d)) { w := w', s := { tPrev := tPrev' } } = .ok () m0' ∧
      ∀ ts : List F, (t0 :: ts).IsChain (· < ·) → (∃ m, RunsTo cfg minH maxH m0 ts m) ∧ (∃ m', RunsTo cfg' minH' maxH' m0' (ts.map (c * · + d)) m') ∧
        ∀ m m', RunsTo cfg minH maxH m0 ts m → RunsTo cfg' minH' maxH' m0' (ts.map (c * · + d)) m' → cfg'.states m'.w.shown = inUnits k o (cfg.states m.w.shown) := by
  obtain ⟨m0, a1, a2⟩ := simulates h hpl hex hM he hw hlog tPrev t0 minH maxH h0 h1
  obtain ⟨m0', b1, b2⟩ := simulates h' hpl' hex' hM he' hw' hlog' tPrev' (c * t0 + d) minH' maxH' h0' h1'
  refine ⟨m0, m0', a1, b1, fun ts hts => ?_⟩
  have hts' := converted hc d hts
  exact ⟨(a2 ts hts).1, (b2 _ hts').1, fun m m' hm hm' => walk_units hc.ne' hU ((a2 ts hts).2 m hm) ((b2 _ hts').2 m' hm') hn⟩

end

/-! ## Example: `x' = γ x` -/

section
attribute [local instance] Arith.exact

theorem decay_converts (γ c d κ : ℚ) (stp : Stepper ℚ) (st st' : Strategy) :
    Converts (C94.prog γ stp st) (C94.prog (γ / c) stp st') (fun _ => .array 2) (fun _ => .array 2) (fun _ _ => κ) (fun _ _ => 0) c d := by
  intro t v v' k1 k2 k3 s i
  rw [C94.slopes_eq γ stp st k1, C94.slopes_eq (γ / c) stp st' k2, k3]
  show γ / c * (κ * _ + 0) = _
  ring

theorem decay_kept (γ γ' κ a b : ℚ) (stp : Stepper ℚ) (st st' : Strategy) :
    (C94.prog γ' stp st').states ((C94.prog γ' stp st').keptVal (C94.world (κ * a) (κ * b))) =
      inUnits (fun _ _ => κ) (fun _ _ => 0) ((C94.prog γ stp st).states ((C94.prog γ stp st).keptVal (C94.world a b))) := by
  funext s i
  by_cases h0 : s = 0
  · subst h0
    show _ = κ * _ + 0
    rw [C94.kept, C94.kept]
    rcases i with _ | _ | i <;> simp
  · show _ = κ * _ + 0
    have e : ∀ γ st v, (C94.prog γ stp st).states v s i = 0 := fun γ st v => by simp [Config.states, C94.prog, h0]
    rw [e, e]
    simp

/-- C101: `x' = γ x`, with the state in units of which `κ` are an old one and the time in units of which `c` are an old one.  All hypotheses of `C101_units` hold. -/
theorem C101_decay (γ c d κ a b : ℚ) (hc : 0 < c) (M : Method) (hM : M ≠ .rkf45) (st st' : Strategy) :
    ∃ m0 m0' : Machine ℚ, Call.exec (C94.prog γ M.stepper st) (.init 0) { w := C94.world a b, s := { tPrev := 0 } } = .ok () m0 ∧
      Call.exec (C94.prog (γ / c) M.stepper st') (.init (c * 0 + d)) { w := C94.world (κ * a) (κ * b), s := { tPrev := 0 } } = .ok () m0' ∧
      ∀ ts : List ℚ, (0 :: ts).IsChain (· < ·) → (∃ m, RunsTo (C94.prog γ M.stepper st) (1 / 2 ^ 20) 1 m0 ts m) ∧
        (∃ m', RunsTo (C94.prog (γ / c) M.stepper st') (1 / 2 ^ 20) 1 m0' (ts.map (c * · + d)) m') ∧
        ∀ m m', RunsTo (C94.prog γ M.stepper st) (1 / 2 ^ 20) 1 m0 ts m → RunsTo (C94.prog (γ / c) M.stepper st') (1 / 2 ^ 20) 1 m0' (ts.map (c * · + d)) m' →
          ∀ i, (C94.prog (γ / c) M.stepper st').states m'.w.shown 0 i = κ * (C94.prog γ M.stepper st).states m.w.shown 0 i := by
  obtain ⟨m0, m0', a1, a2, a3⟩ := C101_units (C94.prog γ M.stepper st) (C94.prog (γ / c) M.stepper st') (C94.wires _) (C94.wires _) _ _ _ _ (C94.sealed _ M.stepper (C87.method_mem M) st)
    (C94.sealed _ M.stepper (C87.method_mem M) st') (by simp [C94.wires, Make.Plain]) (by simp [C94.wires, Make.Plain]) ⟨_, .head _, rfl⟩ ⟨_, .head _, rfl⟩ M hM
    (fun s e => (Option.some_inj.1 e).symm) (fun s e => (Option.some_inj.1 e).symm) _ _ (C94.new _ a b M.stepper st) (C94.new _ (κ * a) (κ * b) M.stepper st') rfl rfl 0 0 0 (1 / 2 ^ 20) 1
    (1 / 2 ^ 20) 1 (by norm_num) (by norm_num) (by norm_num) (by norm_num) _ _ c d hc (decay_converts γ c d κ M.stepper st st') (decay_kept γ (γ / c) κ a b M.stepper st st')
  refine ⟨m0, m0', a1, a2, fun ts hts => ⟨(a3 ts hts).1, (a3 ts hts).2.1, fun m m' hm hm' i => ?_⟩⟩
  rw [(a3 ts hts).2.2 m m' hm hm']
  exact add_zero _

/-- C101 is false of Rkf45: its tolerance is a number of the new units too.  `x' = x`, in units of which a million are an old one: all other hypotheses of `C101_units` hold, with `c = 1` and
`d = 0`. -/
theorem C101_rkf45_refuted : Converts (C94.prog 1 rkf45 .plain) (C94.prog (1 / 1) rkf45 .plain) (fun _ => .array 2) (fun _ => .array 2) (fun _ _ => 1000000) (fun _ _ => 0) 1 0 ∧
    (C94.prog (1 / 1) rkf45 .plain).states ((C94.prog (1 / 1) rkf45 .plain).keptVal (C94.world (1000000 * (1 / 1000)) (1000000 * 0))) =
      inUnits (fun _ _ => 1000000) (fun _ _ => 0) ((C94.prog 1 rkf45 .plain).states ((C94.prog 1 rkf45 .plain).keptVal (C94.world (1 / 1000) 0))) ∧
    ∃ m0 m0' m m' : Machine ℚ, Call.exec (C94.prog 1 rkf45 .plain) (.init 0) { w := C94.world (1 / 1000) 0, s := { tPrev := 0 } } = .ok () m0 ∧
      Call.exec (C94.prog (1 / 1) rkf45 .plain) (.init 0) { w := C94.world (1000000 * (1 / 1000)) (1000000 * 0), s := { tPrev := 0 } } = .ok () m0' ∧
      RunsTo (C94.prog 1 rkf45 .plain) (1 / 4) 10 m0 [1] m ∧ RunsTo (C94.prog (1 / 1) rkf45 .plain) (1 / 4) 10 m0' [1] m' ∧
      (C94.prog (1 / 1) rkf45 .plain).states m'.w.shown 0 0 ≠ 1000000 * (C94.prog 1 rkf45 .plain).states m.w.shown 0 0 :=
  ⟨decay_converts 1 1 0 1000000 rkf45 .plain .plain, decay_kept 1 (1 / 1) 1000000 (1 / 1000) 0 rkf45 .plain .plain, _, _, _, _, eq_of_returns (by decide +kernel),
    eq_of_returns (by decide +kernel), .cons 10 (eq_of_returns (by decide +kernel)) .nil, .cons 10 (eq_of_returns (by decide +kernel)) .nil, by decide +kernel⟩

end

/-! ## Drawings -/

noncomputable section
attribute [local instance] Arith.exact

/-- C101: the same drawing in other units. -/
theorem C101_drawings (a b : Sketch) (rank rank' : BlkId → Nat) (ha : a.Closed rank) (hb : b.Closed rank') (hnd : ∀ p ∈ a.pieces, p.part.isDelay = false)
    (hnd' : ∀ p ∈ b.pieces, p.part.isDelay = false) (hsame : ∀ s, (∃ x0 x, a.Slope s x0 x) ↔ ∃ x0 x, b.Slope s x0 x) (hex : ∃ s x0 x, a.Slope s x0 x)
    (M : Method) (hM : M ≠ .rkf45) (cfg cfg' : Config ℝ) (hd : cfg.Draws a) (hd' : cfg'.Draws b) (he : cfg.stepper = some M.stepper) (he' : cfg'.stepper = some M.stepper)
    (wd wd' : World ℝ) (hw : wd.Begins a) (hw' : wd'.Begins b) (tPrev tPrev' t0 minH maxH minH' maxH' : ℝ) (h0 : 0 < minH) (h1 : minH < maxH) (h0' : 0 < minH') (h1' : minH' < maxH')
    (k o : SigId → ℝ) (c d : ℝ) (hc : 0 < c) (hU : a.Converts b k o c d) (hn : ∀ s x0 x x0' x', a.Slope s x0 x → b.Slope s x0' x' → x0' = k s * x0 + o s) :
    ∃ m0 m0' : Machine ℝ, Call.exec cfg (.init t0) { w := wd, s := { tPrev := tPrev } } = .ok () m0 ∧
      Call.exec cfg' (.init (c * t0 + d)) { w := wd', s := { tPrev := tPrev' } } = .ok () m0' ∧
      ∀ ts : List ℝ, (t0 :: ts).IsChain (· < ·) → (∃ m, RunsTo cfg minH maxH m0 ts m) ∧ (∃ m', RunsTo cfg' minH' maxH' m0' (ts.map (c * · + d)) m') ∧
        ∀ m m', RunsTo cfg minH maxH m0 ts m → RunsTo cfg' minH' maxH' m0' (ts.map (c * · + d)) m' → ∀ s x0 x, a.Slope s x0 x →
          ∃ z, m.w.shown s = some (.scalar z) ∧ m'.w.shown s = some (.scalar (k s * z + o s)) := by
  classical
  obtain ⟨ws, hdr⟩ := hd.drawn
  obtain ⟨ws', hdr'⟩ := hd'.drawn
  have hcl := hdr.closed ha hw
  have hcl' := hdr'.closed hb hw'
  have hpl : ∀ w ∈ ws, w.obj.Plain := fun w hm => by obtain ⟨p, _, e⟩ := hdr.piece w hm; exact Piece.plain e
  have hpl' : ∀ w ∈ ws', w.obj.Plain := fun w hm => by obtain ⟨p, _, e⟩ := hdr'.piece w hm; exact Piece.plain e
  have has : ∀ {d : Sketch} {cfg : Config ℝ} {ws : List (Wire ℝ)}, cfg.Drawn d ws → (∃ s x0 x, d.Slope s x0 x) → ∃ w ∈ ws, w.obj.isState = true := by
    rintro d cfg ws h ⟨s, x0, x, p, hp, e, _⟩
    obtain ⟨w, hm, k⟩ := h.wire p hp
    exact ⟨w, hm, by rw [Piece.isState_eq k, e]; rfl⟩
  have hex' : ∃ s x0 x, b.Slope s x0 x := by
    obtain ⟨s, q⟩ := hex
    exact ⟨s, (hsame s).1 q⟩
  let O : SigId → Nat → ℝ := fun s _ => if ∃ x0 x, a.Slope s x0 x then o s else 0
  have O1 : ∀ s i x0 x, a.Slope s x0 x → O s i = o s := fun _ _ _ _ q => if_pos ⟨_, _, q⟩
  have O2 : ∀ s i, (¬ ∃ x0 x, a.Slope s x0 x) → O s i = 0 := fun _ _ q => if_neg q
  have hU' : Converts cfg cfg' (fun s => (wd.sig s).ty) (fun s => (wd'.sig s).ty) (fun s _ => k s) O c d := by
    intro t val val' hs hs' hst s i
    obtain ⟨k1, k2⟩ := C97.solved hdr ha hw hnd hs
    obtain ⟨k1', k2'⟩ := C97.solved hdr' hb hw' hnd' hs'
    by_cases hsl : ∃ x0 x, a.Slope s x0 x
    · obtain ⟨x0, x, hsl⟩ := hsl
      obtain ⟨x0', x', hsl'⟩ := (hsame s).1 ⟨x0, x, hsl⟩
      rw [((C97.state_eq hdr ha hw k1 s i).1 _ _ hsl).2, ((C97.state_eq hdr' hb hw' k1' s i).1 _ _ hsl').2]
      refine hU t _ _ k2 k2' (fun s x0 x hsl => ?_) s _ _ _ _ hsl hsl'
      obtain ⟨x0', x', hsl'⟩ := (hsame s).1 ⟨x0, x, hsl⟩
      have := congrFun (congrFun hst s) 0
      rw [((C97.state_eq hdr' hb hw' k1' s 0).1 _ _ hsl').1] at this
      rw [this]
      show k s * _ + O s 0 = _
      rw [((C97.state_eq hdr ha hw k1 s 0).1 _ _ hsl).1, O1 s 0 _ _ hsl]
    · rw [((C97.state_eq hdr ha hw k1 s i).2 hsl).2, ((C97.state_eq hdr' hb hw' k1' s i).2 fun q => hsl ((hsame s).2 q)).2, mul_zero]
  have hne : cfg'.states (cfg'.keptVal wd') = inUnits (fun s _ => k s) O (cfg.states (cfg.keptVal wd)) := by
    funext s i
    show _ = k s * _ + O s i
    by_cases hsl : ∃ x0 x, a.Slope s x0 x
    · obtain ⟨x0, x, hsl⟩ := hsl
      obtain ⟨x0', x', hsl'⟩ := (hsame s).1 ⟨x0, x, hsl⟩
      rw [(C97.kept_eq hdr ha hw s i).1 _ _ hsl, (C97.kept_eq hdr' hb hw' s i).1 _ _ hsl', O1 s i _ _ hsl]
      exact hn s _ _ _ _ hsl hsl'
    · rw [(C97.kept_eq hdr ha hw s i).2 hsl, (C97.kept_eq hdr' hb hw' s i).2 fun q => hsl ((hsame s).2 q), O2 s i hsl, mul_zero, add_zero]
  have hst : ∀ {cfg : Config ℝ}, cfg.stepper = some M.stepper → ∀ st, cfg.stepper = some st → st = M.stepper := fun e st q => by rw [e] at q; exact (Option.some_inj.1 q).symm
  have hst' : ∀ {cfg : Config ℝ}, cfg.stepper = some M.stepper → ∀ st, cfg.stepper = some st → st ∈ [euler, rk4, rkf45] := fun e st q => by rw [hst e st q]; exact C87.method_mem M
  obtain ⟨m0, m0', a1, a2, a3⟩ := C101_units cfg cfg' ws ws' _ _ rank rank' hcl hcl' hpl hpl' (has hdr hex) (has hdr' hex') M hM (hst he) (hst he') wd wd' (hdr.new hw) (hdr'.new hw')
    hw.log hw'.log tPrev tPrev' t0 minH maxH minH' maxH' h0 h1 h0' h1' _ O c d hc hU' hne
  refine ⟨m0, m0', a1, a2, fun ts hts => ⟨(a3 ts hts).1, (a3 ts hts).2.1, fun m m' hm hm' s x0 x hsl => ?_⟩⟩
  obtain ⟨x0', x', hsl'⟩ := (hsame s).1 ⟨x0, x, hsl⟩
  have q1 := C97.shown_scalar hdr ha hw hnd hpl (hst' he) h0 h1 a1 (List.isChain_iff_pairwise.1 hts) hm
  have q2 := C97.shown_scalar hdr' hb hw' hnd' hpl' (hst' he') h0' h1' a2 (List.isChain_iff_pairwise.1 (converted hc d hts)) hm'
  refine ⟨_, q1 s (C97.slope_out hsl), ?_⟩
  have := congrFun (congrFun ((a3 ts hts).2.2 m m' hm hm') s) 0
  rw [((C97.state_eq hdr' hb hw' q2 s 0).1 _ _ hsl').1] at this
  rw [q2 s (C97.slope_out hsl'), this]
  show some (Val.scalar (k s * _ + O s 0)) = _
  rw [((C97.state_eq hdr ha hw q1 s 0).1 _ _ hsl).1, O1 s 0 _ _ hsl]

/-! ## The pendulum in degrees -/

/-- The pendulum `C97.driven` of samples/test06_pendulum_with_torque.cpp:37-79,91-101 with angles in degrees and the time in units of which `c` are a second: `κ` is 180 / π, gravity and torque are
divided by `c²`, the sine is multiplied by `κ`, and so is the torque. -/
def turned (κ c τ φ ω : ℝ) : Sketch where
  pieces := [⟨1, .integrator ω, [2], 1⟩, ⟨2, .integrator φ, [1], 0⟩, ⟨3, .func fun _ x => κ * Real.sin (x / κ), [0], 7⟩, ⟨4, .multiply 1, [7, 5], 8⟩, ⟨5, .divide, [8, 6], 9⟩,
    ⟨6, .multiply 1, [4, 6, 6], 10⟩, ⟨7, .divide, [3, 10], 11⟩, ⟨8, .subtract, [11, 9], 2⟩]
  inputs := [(4, fun _ => 0.2), (6, fun _ => 0.1), (5, fun _ => 9.81 / c ^ 2), (3, fun _ => κ * τ / c ^ 2)]

theorem turned_closed (κ c τ φ ω : ℝ) : (turned κ c τ φ ω).Closed (fun b => b) where
  ids := by simp [turned]
  once := by simp [turned]
  provided := by simp [turned]
  used := by simp [turned]
  loops := by simp [turned, Part.isIntegrator]

theorem turned_slope {κ c τ φ ω x0 : ℝ} {s x : SigId} : (turned κ c τ φ ω).Slope s x0 x ↔ (s = 0 ∧ x0 = φ ∧ x = 1) ∨ (s = 1 ∧ x0 = ω ∧ x = 2) := by
  constructor
  · rintro ⟨p, hp, e1, e2, rfl⟩
    simp only [turned, List.mem_cons, List.not_mem_nil, or_false] at hp
    rcases hp with rfl | rfl | rfl | rfl | rfl | rfl | rfl | rfl <;> cases e1 <;> cases e2 <;> simp
  · rintro (⟨rfl, rfl, rfl⟩ | ⟨rfl, rfl, rfl⟩)
    · exact ⟨⟨2, .integrator x0, [1], 0⟩, by simp [turned], rfl, rfl, rfl⟩
    · exact ⟨⟨1, .integrator x0, [2], 1⟩, by simp [turned], rfl, rfl, rfl⟩

theorem turned_force {κ c τ φ ω t : ℝ} {X : SigId → ℝ} (h : (turned κ c τ φ ω).Meets t X) : X 2 = κ / c ^ 2 * (500 * τ - 98.1 * Real.sin (X 0 / κ)) := by
  obtain ⟨h1, h2⟩ := h
  simp [turned, Piece.Holds] at h1 h2
  obtain ⟨b1, b2, b3, b4, b5, b6⟩ := h1
  obtain ⟨c1, c2, c3, c4⟩ := h2
  rw [b6, b5, b3, b4, b2, b1, c1, c2, c3, c4]
  ring

theorem turned_converts {κ c : ℝ} (hκ : κ ≠ 0) (hc : c ≠ 0) (τ φ ω φ' ω' d : ℝ) :
    (C97.driven τ φ ω).Converts (turned κ c τ φ' ω') (fun s => if s = 0 then κ else κ / c) (fun _ => 0) c d := by
  intro t X X' h h' hn s x0 x x0' x' hs hs'
  have n0 := hn 0 _ _ (C97.driven_slope.2 (.inl ⟨rfl, rfl, rfl⟩))
  have n1 := hn 1 _ _ (C97.driven_slope.2 (.inr ⟨rfl, rfl, rfl⟩))
  simp only [if_true, one_ne_zero, if_false, add_zero] at n0 n1
  rcases C97.driven_slope.1 hs with ⟨rfl, rfl, rfl⟩ | ⟨rfl, rfl, rfl⟩ <;> rcases turned_slope.1 hs' with ⟨e, rfl, rfl⟩ | ⟨e, rfl, rfl⟩
  · rw [n1]
    rfl
  · exact absurd e (by decide)
  · exact absurd e (by decide)
  · rw [C97.driven_force h, turned_force h', n0, mul_div_cancel_left₀ _ hκ]
    show _ = κ / c / c * _
    congr 1
    field_simp

/-- C101, the pendulum of the sample: drawn with angles in degrees and the time in units of which `c` are a second, it is at the time `c t` at `180 / π` times the angle in radians at the time `t`, and its
angular velocity is `180 / (π c)` times the other, exactly, with Euler and with Rk4. -/
theorem C101_degrees (c τ φ ω : ℝ) (hc : 0 < c) (M : Method) (hM : M ≠ .rkf45) (cfg cfg' : Config ℝ) (hd : cfg.Draws (C97.driven τ φ ω))
    (hd' : cfg'.Draws (turned (180 / Real.pi) c τ (180 / Real.pi * φ) (180 / Real.pi / c * ω))) (he : cfg.stepper = some M.stepper) (he' : cfg'.stepper = some M.stepper) (wd wd' : World ℝ)
    (hw : wd.Begins (C97.driven τ φ ω)) (hw' : wd'.Begins (turned (180 / Real.pi) c τ (180 / Real.pi * φ) (180 / Real.pi / c * ω))) (tPrev tPrev' t0 minH maxH : ℝ) (h0 : 0 < minH)
    (h1 : minH < maxH) :
    ∃ m0 m0' : Machine ℝ, Call.exec cfg (.init t0) { w := wd, s := { tPrev := tPrev } } = .ok () m0 ∧
      Call.exec cfg' (.init (c * t0 + 0)) { w := wd', s := { tPrev := tPrev' } } = .ok () m0' ∧
      ∀ ts : List ℝ, (t0 :: ts).IsChain (· < ·) → (∃ m, RunsTo cfg minH maxH m0 ts m) ∧ (∃ m', RunsTo cfg' minH maxH m0' (ts.map (c * · + 0)) m') ∧
        ∀ m m', RunsTo cfg minH maxH m0 ts m → RunsTo cfg' minH maxH m0' (ts.map (c * · + 0)) m' →
          (∃ z, m.w.shown 0 = some (.scalar z) ∧ m'.w.shown 0 = some (.scalar (180 / Real.pi * z))) ∧ ∃ z, m.w.shown 1 = some (.scalar z) ∧ m'.w.shown 1 = some (.scalar (180 / Real.pi / c * z)) := by
  have hκ : (180 / Real.pi : ℝ) ≠ 0 := div_ne_zero (by norm_num) Real.pi_ne_zero
  obtain ⟨m0, m0', a1, a2, a3⟩ := C101_drawings _ _ _ _ (C97.driven_closed τ φ ω) (turned_closed (180 / Real.pi) c τ (180 / Real.pi * φ) (180 / Real.pi / c * ω))
    (by simp [C97.driven, Part.isDelay]) (by simp [turned, Part.isDelay]) (fun s => by simp only [C97.driven_slope, turned_slope]; constructor <;>
      (rintro ⟨x0, x, ⟨q, _⟩ | ⟨q, _⟩⟩; exacts [⟨_, _, .inl ⟨q, rfl, rfl⟩⟩, ⟨_, _, .inr ⟨q, rfl, rfl⟩⟩])) ⟨0, φ, 1, C97.driven_slope.2 (.inl ⟨rfl, rfl, rfl⟩)⟩ M hM cfg cfg' hd hd' he he' wd wd' hw hw'
    tPrev tPrev' t0 minH maxH minH maxH h0 h1 h0 h1 _ _ c 0 hc (turned_converts hκ hc.ne' τ φ ω _ _ 0) (fun s x0 x x0' x' hs hs' => by
      rcases C97.driven_slope.1 hs with ⟨rfl, rfl, rfl⟩ | ⟨rfl, rfl, rfl⟩ <;> rcases turned_slope.1 hs' with ⟨e, rfl, rfl⟩ | ⟨e, rfl, rfl⟩
      · simp
      · exact absurd e (by decide)
      · exact absurd e (by decide)
      · simp)
  refine ⟨m0, m0', a1, a2, fun ts hts => ⟨(a3 ts hts).1, (a3 ts hts).2.1, fun m m' hm hm' => ⟨?_, ?_⟩⟩⟩
  · simpa using (a3 ts hts).2.2 m m' hm hm' 0 _ _ (C97.driven_slope.2 (.inl ⟨rfl, rfl, rfl⟩))
  · simpa using (a3 ts hts).2.2 m m' hm hm' 1 _ _ (C97.driven_slope.2 (.inr ⟨rfl, rfl, rfl⟩))

/-- Such programs can be built. -/
example (k : Strategy) (M : Method) (κ c τ φ ω : ℝ) :
    ∃ (cfg : Config ℝ) (wd : World ℝ), cfg.Draws (turned κ c τ φ ω) ∧ wd.Begins (turned κ c τ φ ω) ∧ cfg.strategy = k ∧ cfg.stepper = some M.stepper := by
  obtain ⟨⟨cfg, h1, h2, h3⟩, wd, hw⟩ := C66.C66_buildable (turned κ c τ φ ω) _ (turned_closed κ c τ φ ω) (by simp [turned, Piece.Fits]) k (some M.stepper)
    (.inr ⟨_, C87.method_mem M, rfl⟩) (fun _ => ⟨⟨1, .integrator ω, [2], 1⟩, by simp [turned], rfl⟩)
  exact ⟨cfg, wd, h1, hw, h2, h3⟩

end
end Pooya.C101
