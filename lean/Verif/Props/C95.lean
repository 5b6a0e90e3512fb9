import Verif.Spec.Compare
import Verif.Props.C94

/-!
# C95 — diagrams that differ little are simulated with little difference, and smaller ones stay smaller

Full statement: let the derivatives in a state of one diagram and a state of another one that differ by at most `δ` differ by at most `L δ + ε`.  Then the two simulations, asked for the same
times with Euler or Rk4, differ after every call of `run` by at most `(δ + ε / L) p - ε / L`, where `δ` is the difference of the initial values and `p` is what the method makes of 1 with the
differential equation `x' = L x`, and so by at most `δ e^(L (t - t0)) + ε / L (e^(L (t - t0)) - 1)`.  With Euler it is enough that this holds while the second diagram is in a set it cannot leave
(C93).  If with Euler the state of one diagram that is nowhere greater than that of another one is not greater either after both follow their derivatives for the time `g`, the simulation of the
one with gaps of at most `g` stays below that of the other.

Proved: `C95_near`, `C95_exp`, `C95_within`, `C95_under`, for all closed diagrams with Integrators and without TriggeredIntegrators, with scalars and arrays, in exact arithmetic.
-/

namespace Pooya.C95

open Pooya C60 C69 C72 Within C94

set_option linter.unusedSectionVars false

section
variable {F : Type} [_root_.Field F] [LinearOrder F] [IsStrictOrderedRing F] [Archimedean F]
attribute [local instance] Arith.exact
variable {cfg cfg' : Config F} {ty ty' : SigId → Ty} {S : (SigId → Nat → F) → Prop} {t0 g L ε : F}

theorem moved_depart (h0 : 0 < L) (hL : Departs cfg cfg' ty ty' (fun _ => True) t0 L ε) {M : Method} {t u δ : F} (ht : t0 ≤ t) (hu : t < u) {z y z' y' : SigId → Nat → F}
    (h1 : Moved cfg ty t u z z' M) (h2 : Moved cfg' ty' t u y y' M) (hn : Nearby δ z y) : Nearby (M.factor (L * (u - t)) * (δ + ε / L) - ε / L) z' y' := by
  have hh : 0 ≤ u - t := sub_nonneg.2 hu.le
  have hne : L ≠ 0 := h0.ne'
  cases M with
  | rkf45 => exact h1.elim
  | euler =>
    obtain ⟨v, a1, rfl, rfl⟩ := h1
    obtain ⟨w, b1, rfl, rfl⟩ := h2
    have := Nearby.comb hn (hL t v w δ ht a1 b1 trivial hn) hh
    rwa [show δ + (u - t) * (L * δ + ε) = Method.euler.factor (L * (u - t)) * (δ + ε / L) - ε / L by unfold Method.factor; field_simp; ring] at this
  | rk4 =>
    obtain ⟨v1, v2, v3, v4, a1, a2, a3, a4, rfl, a6, a7, a8, rfl⟩ := h1
    obtain ⟨w1, w2, w3, w4, b1, b2, b3, b4, rfl, b6, b7, b8, rfl⟩ := h2
    have hh2 : 0 ≤ (u - t) / 2 := by linarith
    have n1 := hL _ _ _ _ ht a1 b1 trivial hn
    have m2 := Nearby.comb hn n1 hh2
    rw [← a6, ← b6] at m2
    have n2 := hL _ _ _ _ (by linarith) a2 b2 trivial m2
    have m3 := Nearby.comb hn n2 hh2
    rw [← a7, ← b7] at m3
    have n3 := hL _ _ _ _ (by linarith) a3 b3 trivial m3
    have m4 := Nearby.comb hn n3 hh
    rw [← a8, ← b8] at m4
    have n4 := hL _ _ _ _ (by linarith) a4 b4 trivial m4
    have := Nearby.comb (Nearby.comb (Nearby.comb (Nearby.comb hn n1 (k := (u - t) / 6) (by linarith)) n2 (k := (u - t) / 3) (by linarith)) n3 (k := (u - t) / 3) (by linarith)) n4
      (k := (u - t) / 6) (by linarith)
    intro s i
    refine le_of_eq_of_le ?_ ((this s i).trans_eq ?_)
    · congr 1
      ring
    · unfold Method.factor
      field_simp
      ring

theorem walk_depart (h0 : 0 < L) (hL : Departs cfg cfg' ty ty' (fun _ => True) t0 L ε) {M : Method} {t : F} {ts : List F} {z z' : SigId → Nat → F} (h1 : Walk cfg ty M t z ts z') :
    ∀ {y y' : SigId → Nat → F} {δ : F}, Walk cfg' ty' M t y ts y' → t0 ≤ t → (t :: ts).IsChain (· < ·) → Nearby δ z y → Nearby (M.spread L t ts * (δ + ε / L) - ε / L) z' y' := by
  induction h1 with
  | nil =>
    intro y y' δ h2 _ _ hn
    cases h2
    simpa [Method.spread] using hn
  | cons k1 _ ih =>
    intro y y' δ h2 ht hts hn
    cases h2 with
    | cons j1 j2 =>
      obtain ⟨g1, g2⟩ := List.isChain_cons_cons.1 hts
      have := ih j2 (ht.trans g1.le) g2 (moved_depart h0 hL ht g1 k1 j1 hn)
      rw [sub_add_cancel] at this
      rwa [show ∀ a b c : F, a * (b * c) = b * a * c from fun a b c => by ring] at this

theorem walk_within (h0 : 0 < L) (hS : Bulging S) (hin : cfg'.Stays ty' t0 g S) (hL : Departs cfg cfg' ty ty' S t0 L ε) {t : F} {ts : List F} {z z' : SigId → Nat → F}
    (h1 : Walk cfg ty .euler t z ts z') :
    ∀ {y y' : SigId → Nat → F} {δ : F}, Walk cfg' ty' .euler t y ts y' → t0 ≤ t → (t :: ts).IsChain (fun s u => s < u ∧ u - s ≤ g) → S y → Nearby δ z y →
      Nearby (Method.euler.spread L t ts * (δ + ε / L) - ε / L) z' y' := by
  induction h1 with
  | nil =>
    intro y y' δ h2 _ _ _ hn
    cases h2
    simpa [Method.spread] using hn
  | cons k1 _ ih =>
    intro y y' δ h2 ht hts hs hn
    cases h2 with
    | cons j1 j2 =>
      obtain ⟨⟨g1, g2⟩, g3⟩ := List.isChain_cons_cons.1 hts
      obtain ⟨v, a1, rfl, rfl⟩ := k1
      obtain ⟨w, b1, rfl, rfl⟩ := j1
      rename_i t u _ _ _
      have hne : L ≠ 0 := h0.ne'
      have := Nearby.comb hn (hL t v w δ ht a1 b1 hs hn) (sub_nonneg.2 g1.le)
      rw [show δ + (u - t) * (L * δ + ε) = Method.euler.factor (L * (u - t)) * (δ + ε / L) - ε / L by unfold Method.factor; field_simp; ring] at this
      have := ih j2 (ht.trans g1.le) g3 (C93.shorter hS hs (hin t w ht b1 hs) (sub_nonneg.2 g1.le) g2) this
      rw [sub_add_cancel] at this
      rwa [show ∀ a b c : F, a * (b * c) = b * a * c from fun a b c => by ring] at this

theorem walk_under (hL : Trails cfg cfg' ty ty' t0 g) {t : F} {ts : List F} {z z' : SigId → Nat → F} (h1 : Walk cfg ty .euler t z ts z') :
    ∀ {y y' : SigId → Nat → F}, Walk cfg' ty' .euler t y ts y' → t0 ≤ t → (t :: ts).IsChain (fun s u => s < u ∧ u - s ≤ g) → Under z y → Under z' y' := by
  induction h1 with
  | nil =>
    intro y y' h2 _ _ hn
    cases h2
    exact hn
  | cons k1 _ ih =>
    intro y y' h2 ht hts hn
    cases h2 with
    | cons j1 j2 =>
      obtain ⟨⟨g1, g2⟩, g3⟩ := List.isChain_cons_cons.1 hts
      refine ih j2 (ht.trans g1.le) g3 ?_
      obtain ⟨v, a1, rfl, rfl⟩ := k1
      obtain ⟨w, b1, rfl, rfl⟩ := j1
      rename_i t u _ _ _
      have hg : 0 < g := (sub_pos.2 g1).trans_le g2
      intro s i
      have c1 := hn s i
      have c2 := hL t v w ht a1 b1 hn s i
      have hθ : 0 ≤ (u - t) / g ∧ (u - t) / g ≤ 1 := ⟨div_nonneg (sub_nonneg.2 g1.le) hg.le, (div_le_one hg).2 g2⟩
      have e : ∀ a b : F, a + (u - t) * b = (1 - (u - t) / g) * a + (u - t) / g * (a + g * b) := fun a b => by
        field_simp
        ring
      show cfg.states v s i + (u - t) * cfg.slopes v s i ≤ cfg'.states w s i + (u - t) * cfg'.slopes w s i
      rw [e, e]
      exact add_le_add (mul_le_mul_of_nonneg_left c1 (sub_nonneg.2 hθ.2)) (mul_le_mul_of_nonneg_left c2 hθ.1)

/-- A simulation with Integrators walks. -/
theorem simulates {ps : List (Wire F)} {rank : BlkId → Nat} (h : cfg.Sealed ps ty rank) (hpl : ∀ p ∈ ps, p.obj.Plain) (hex : ∃ p ∈ ps, p.obj.isState = true) {M : Method} (hM : M ≠ .rkf45)
    (he : ∀ st, cfg.stepper = some st → st = M.stepper) {w : World F} (hw : w.New cfg ty) (hlog : w.log = []) (tPrev t0 minH maxH : F) (h0 : 0 < minH) (h1 : minH < maxH) :
    ∃ m0 : Machine F, Call.exec cfg (.init t0) { w := w, s := { tPrev := tPrev } } = .ok () m0 ∧
      ∀ ts : List F, (t0 :: ts).IsChain (· < ·) → (∃ m, RunsTo cfg minH maxH m0 ts m) ∧ ∀ m, RunsTo cfg minH maxH m0 ts m →
        Walk cfg ty M t0 (cfg.states (cfg.keptVal w)) ts (cfg.states m.w.shown) := by
  obtain ⟨m0, a1, a2⟩ := simulated h hpl hM he hw hlog tPrev t0 minH maxH h0 h1
  refine ⟨m0, a1, fun ts hts => ⟨(a2 ts hts).1, fun m hm => ?_⟩⟩
  rcases (a2 ts hts).2 m hm with k | k
  · exact k
  · obtain ⟨p, hp, e⟩ := hex
    obtain ⟨l, hl, f⟩ := C59.wire_leaf h hp
    obtain ⟨s, hs⟩ := f.owns e
    have := (C58_states cfg ps h.assembled (C59.sealed_proper h)).2.1 l hl s hs
    rw [k s] at this
    cases this

variable (cfg cfg') (ps ps' : List (Wire F)) (ty ty') (rank rank' : BlkId → Nat) (h : cfg.Sealed ps ty rank) (h' : cfg'.Sealed ps' ty' rank') (hpl : ∀ p ∈ ps, p.obj.Plain)
  (hpl' : ∀ p ∈ ps', p.obj.Plain) (hex : ∃ p ∈ ps, p.obj.isState = true) (hex' : ∃ p ∈ ps', p.obj.isState = true) (w w' : World F) (hw : w.New cfg ty) (hw' : w'.New cfg' ty') (hlog : w.log = [])
  (hlog' : w'.log = []) (tPrev tPrev' t0 minH maxH : F) (h0 : 0 < minH) (h1 : minH < maxH)
include h h' hpl hpl' hex hex' hw hw' hlog hlog' h0 h1

/-- C95: two diagrams whose derivatives differ by at most `L δ + ε`, with Euler or Rk4. -/
theorem C95_near (M : Method) (hM : M ≠ .rkf45) (he : ∀ st, cfg.stepper = some st → st = M.stepper) (he' : ∀ st, cfg'.stepper = some st → st = M.stepper) (L ε δ : F) (hL0 : 0 < L)
    (hL : Departs cfg cfg' ty ty' (fun _ => True) t0 L ε) (hn : Nearby δ (cfg.states (cfg.keptVal w)) (cfg'.states (cfg'.keptVal w'))) :
    ∃ m0 m0' : Machine F, Call.exec cfg (.init t0) { w := w, s := { tPrev := tPrev } } = .ok () m0 ∧ Call.exec cfg' (.init t0) { w := w', s := { tPrev := tPrev' } } = .ok () m0' ∧
      ∀ ts : List F, (t0 :: ts).IsChain (· < ·) → (∃ m, RunsTo cfg minH maxH m0 ts m) ∧ (∃ m', RunsTo cfg' minH maxH m0' ts m') ∧
        ∀ m m', RunsTo cfg minH maxH m0 ts m → RunsTo cfg' minH maxH m0' ts m' →
          Nearby (M.spread L t0 ts * (δ + ε / L) - ε / L) (cfg.states m.w.shown) (cfg'.states m'.w.shown) := by
  obtain ⟨m0, a1, a2⟩ := simulates h hpl hex hM he hw hlog tPrev t0 minH maxH h0 h1
  obtain ⟨m0', b1, b2⟩ := simulates h' hpl' hex' hM he' hw' hlog' tPrev' t0 minH maxH h0 h1
  exact ⟨m0, m0', a1, b1, fun ts hts => ⟨(a2 ts hts).1, (b2 ts hts).1, fun m m' hm hm' => walk_depart hL0 hL ((a2 ts hts).2 m hm) ((b2 ts hts).2 m' hm') le_rfl hts hn⟩⟩

/-- C95: with Euler it is enough to know the derivatives where the second diagram stays. -/
theorem C95_within (he : ∀ st, cfg.stepper = some st → st = euler) (he' : ∀ st, cfg'.stepper = some st → st = euler) (L ε δ g : F) (hL0 : 0 < L) (S : (SigId → Nat → F) → Prop)
    (hS : Bulging S) (hin : cfg'.Stays ty' t0 g S) (hinit : S (cfg'.states (cfg'.keptVal w')))
    (hL : Departs cfg cfg' ty ty' S t0 L ε) (hn : Nearby δ (cfg.states (cfg.keptVal w)) (cfg'.states (cfg'.keptVal w'))) :
    ∃ m0 m0' : Machine F, Call.exec cfg (.init t0) { w := w, s := { tPrev := tPrev } } = .ok () m0 ∧ Call.exec cfg' (.init t0) { w := w', s := { tPrev := tPrev' } } = .ok () m0' ∧
      ∀ ts : List F, (t0 :: ts).IsChain (fun s u => s < u ∧ u - s ≤ g) → (∃ m, RunsTo cfg minH maxH m0 ts m) ∧ (∃ m', RunsTo cfg' minH maxH m0' ts m') ∧
        ∀ m m', RunsTo cfg minH maxH m0 ts m → RunsTo cfg' minH maxH m0' ts m' →
          Nearby (Method.euler.spread L t0 ts * (δ + ε / L) - ε / L) (cfg.states m.w.shown) (cfg'.states m'.w.shown) := by
  obtain ⟨m0, a1, a2⟩ := simulates (M := .euler) h hpl hex (by simp) he hw hlog tPrev t0 minH maxH h0 h1
  obtain ⟨m0', b1, b2⟩ := simulates (M := .euler) h' hpl' hex' (by simp) he' hw' hlog' tPrev' t0 minH maxH h0 h1
  refine ⟨m0, m0', a1, b1, fun ts hts => ?_⟩
  have hlt : (t0 :: ts).IsChain (· < ·) := hts.imp fun _ _ k => k.1
  exact ⟨(a2 ts hlt).1, (b2 ts hlt).1, fun m m' hm hm' => walk_within hL0 hS hin hL ((a2 ts hlt).2 m hm) ((b2 ts hlt).2 m' hm') le_rfl hts hinit hn⟩

/-- C95: with Euler, a diagram that stays below another one in steps of the length `g` stays below it in shorter steps. -/
theorem C95_under (he : ∀ st, cfg.stepper = some st → st = euler) (he' : ∀ st, cfg'.stepper = some st → st = euler) (g : F)
    (hL : Trails cfg cfg' ty ty' t0 g) (hn : Under (cfg.states (cfg.keptVal w)) (cfg'.states (cfg'.keptVal w'))) :
    ∃ m0 m0' : Machine F, Call.exec cfg (.init t0) { w := w, s := { tPrev := tPrev } } = .ok () m0 ∧ Call.exec cfg' (.init t0) { w := w', s := { tPrev := tPrev' } } = .ok () m0' ∧
      ∀ ts : List F, (t0 :: ts).IsChain (fun s u => s < u ∧ u - s ≤ g) → (∃ m, RunsTo cfg minH maxH m0 ts m) ∧ (∃ m', RunsTo cfg' minH maxH m0' ts m') ∧
        ∀ m m', RunsTo cfg minH maxH m0 ts m → RunsTo cfg' minH maxH m0' ts m' → Under (cfg.states m.w.shown) (cfg'.states m'.w.shown) := by
  obtain ⟨m0, a1, a2⟩ := simulates (M := .euler) h hpl hex (by simp) he hw hlog tPrev t0 minH maxH h0 h1
  obtain ⟨m0', b1, b2⟩ := simulates (M := .euler) h' hpl' hex' (by simp) he' hw' hlog' tPrev' t0 minH maxH h0 h1
  refine ⟨m0, m0', a1, b1, fun ts hts => ?_⟩
  have hlt : (t0 :: ts).IsChain (· < ·) := hts.imp fun _ _ k => k.1
  exact ⟨(a2 ts hlt).1, (b2 ts hlt).1, fun m m' hm hm' => walk_under hL ((a2 ts hlt).2 m hm) ((b2 ts hlt).2 m' hm') le_rfl hts hn⟩

end

section
attribute [local instance] Arith.exact

/-- C95: with Euler or Rk4 the difference at the time `t` is at most `δ e^(L (t - t0)) + ε / L (e^(L (t - t0)) - 1)`. -/
theorem C95_exp (cfg cfg' : Config ℝ) (ps ps' : List (Wire ℝ)) (ty ty' : SigId → Ty) (rank rank' : BlkId → Nat) (h : cfg.Sealed ps ty rank) (h' : cfg'.Sealed ps' ty' rank')
    (hpl : ∀ p ∈ ps, p.obj.Plain) (hpl' : ∀ p ∈ ps', p.obj.Plain) (hex : ∃ p ∈ ps, p.obj.isState = true) (hex' : ∃ p ∈ ps', p.obj.isState = true) (w w' : World ℝ) (hw : w.New cfg ty)
    (hw' : w'.New cfg' ty') (hlog : w.log = []) (hlog' : w'.log = []) (tPrev tPrev' t0 minH maxH : ℝ) (h0 : 0 < minH) (h1 : minH < maxH) (M : Method) (hM : M ≠ .rkf45)
    (he : ∀ st, cfg.stepper = some st → st = M.stepper) (he' : ∀ st, cfg'.stepper = some st → st = M.stepper) (L ε δ : ℝ) (hL0 : 0 < L) (hε : 0 ≤ ε)
    (hL : Departs cfg cfg' ty ty' (fun _ => True) t0 L ε) (hn : Nearby δ (cfg.states (cfg.keptVal w)) (cfg'.states (cfg'.keptVal w'))) :
    ∃ m0 m0' : Machine ℝ, Call.exec cfg (.init t0) { w := w, s := { tPrev := tPrev } } = .ok () m0 ∧ Call.exec cfg' (.init t0) { w := w', s := { tPrev := tPrev' } } = .ok () m0' ∧
      ∀ ts : List ℝ, (t0 :: ts).IsChain (· < ·) → (∃ m, RunsTo cfg minH maxH m0 ts m) ∧ (∃ m', RunsTo cfg' minH maxH m0' ts m') ∧
        ∀ m m', RunsTo cfg minH maxH m0 ts m → RunsTo cfg' minH maxH m0' ts m' →
          Nearby (δ * Real.exp (L * ((t0 :: ts).getLast (by simp) - t0)) + ε / L * (Real.exp (L * ((t0 :: ts).getLast (by simp) - t0)) - 1)) (cfg.states m.w.shown) (cfg'.states m'.w.shown) := by
  obtain ⟨m0, m0', a1, a2, a3⟩ := C95_near cfg cfg' ty ty' ps ps' rank rank' h h' hpl hpl' hex hex' w w' hw hw' hlog hlog' tPrev tPrev' t0 minH maxH h0 h1 M hM he he' L ε δ hL0 hL hn
  refine ⟨m0, m0', a1, a2, fun ts hts => ⟨(a3 ts hts).1, (a3 ts hts).2.1, fun m m' hm hm' s i => ((a3 ts hts).2.2 m m' hm hm' s i).trans ?_⟩⟩
  have k := mul_le_mul_of_nonneg_right (spread_exp hM hL0.le hts) (add_nonneg ((abs_nonneg _).trans (hn 0 0)) (div_nonneg hε hL0.le))
  linarith

end

/-! ## Examples: `x' = f(t)`, and `x' = c x` for two numbers -/

section
attribute [local instance] Arith.exact

def integ : Leaf ℝ := { id := 1, links := [(0, Demo.inp), (1, Demo.st)], kind := .integrator 0 1 }

/-- The function `f` of time (signal 0) goes to an `Integrator` (signal 1). -/
noncomputable def feed (f : ℝ → ℝ) (M : Method) : Config ℝ where
  dbg := true
  model := .sub 100 [] [.leaf integ]
  deriv s := if s = 1 then some 0 else none
  inputs := none
  modelInput t := ([(0, .scalar (f t))], none)
  stepper := some M.stepper
  strategy := .plain
  hash := id

def wired : List (Wire ℝ) := [⟨1, .integrator .double, [C58.sc "in" 0], [C58.sc "out" 1]⟩]

def begins (a : ℝ) : World ℝ where
  sig _ := { ty := .scalar }
  mem _ := { value := .scalar a }
  done _ := false
  log := []

theorem leaves_eq (f : ℝ → ℝ) (M : Method) : (feed f M).model.leaves = [integ] := by simp [feed, Block.leaves, leavesL]

theorem closed (f : ℝ → ℝ) (M : Method) : (feed f M).Sealed wired (fun _ => .scalar) (fun b => b) := by
  have hg : ∀ p ∈ wired, ∀ i, p.Gives i → i = 1 := by
    intro p hp i hi
    obtain ⟨k, t, hi⟩ := hi
    simp only [wired, List.mem_cons, List.not_mem_nil, or_false] at hp
    subst hp
    simp only [C58.sc, List.mem_cons, List.not_mem_nil, or_false] at hi
    cases hi
    rfl
  have ht : ∀ p ∈ wired, ∀ i, p.Takes i → i = 0 := by
    intro p hp i hi
    obtain ⟨k, t, hi⟩ := hi
    simp only [wired, List.mem_cons, List.not_mem_nil, or_false] at hp
    subst hp
    simp only [C58.sc, List.mem_cons, List.not_mem_nil, or_false] at hi
    cases hi
    rfl
  have hk : ∀ t, (feed f M).inputKeys t = [0] := fun t => rfl
  exact {
    dbg := rfl
    assembled := ⟨[integ], by with_unfolding_all rfl, by rw [leaves_eq]⟩
    proper := by
      have : (feed f M).model.ids = [100, 1] := by simp [feed, integ, Block.ids, Block.all, allL, Block.id]
      unfold Block.Proper
      rw [this]
      decide
    hash := fun _ => .refl _
    sane := by
      intro p hp
      have ha : ∀ a i, Agrees (fun _ => .scalar) [C58.sc a i] ∧ Sized 1 [C58.sc a i] := by
        intro a i
        refine ⟨fun q hq j t e => ?_, fun q hq j m e => ?_⟩ <;> (rw [List.mem_singleton] at hq; subst hq; cases e)
        rfl
      simp only [wired, List.mem_cons, List.not_mem_nil, or_false] at hp
      subst hp
      exact ⟨(ha _ _).1, (ha _ _).1, .inl ⟨1, Nat.one_pos, trivial, trivial, (ha _ _).2, (ha _ _).2⟩⟩
    once := by
      intro p hp q hq i _ _
      simp only [wired, List.mem_cons, List.not_mem_nil, or_false] at hp hq
      rw [hp, hq]
    provided := fun p hp i hi => .inl fun t => by rw [hk, ht p hp i hi]; simp
    loops := by
      intro p hp i hn q hq hgi
      simp only [wired, List.mem_cons, List.not_mem_nil, or_false] at hp
      subst hp
      exact hn.elim
    inputs := fun f e => by cases e
    modelInput := ⟨fun t => ⟨fun p hp => by
      simp only [feed, List.mem_cons, List.not_mem_nil, or_false] at hp
      subst hp
      exact ⟨rfl, fun _ => rfl⟩, fun e h => (by cases h)⟩, fun _ => rfl⟩
    inputOnce := fun t => by rw [hk]; decide
    inputFree := fun t s hs => by
      rw [hk, List.mem_singleton] at hs
      subst hs
      exact ⟨⟨_, .head _, str "in", .scalar, .head _⟩, fun p hp hgi => absurd (hg p hp _ hgi) (by decide)⟩
    stepper := fun st e => by
      cases e
      cases M
      · exact C26.dim_provided.1
      · exact C26.dim_provided.2.1
      · exact C26.dim_provided.2.2
    stepped := fun _ => rfl
    reuse := fun e => by cases e }

theorem new (f : ℝ → ℝ) (M : Method) (a : ℝ) : (begins a).New (feed f M) (fun _ => .scalar) where
  fine := {
    types := fun _ => rfl
    cells := fun _ => ⟨fun e => (by cases e), fun v e => (by cases e)⟩
    members := by
      intro l hl
      rw [leaves_eq, List.mem_singleton] at hl
      subst hl
      exact ⟨rfl, fun _ => rfl⟩ }
  done := fun _ => rfl
  record := fun _ _ _ => rfl

theorem feed_slopes {f : ℝ → ℝ} {M : Method} {t : ℝ} {val : SigId → Option (Val ℝ)} (h : (feed f M).Solves (fun _ => .scalar) t val) (s : SigId) (i : Nat) :
    (feed f M).slopes val s i = if s = 1 then f t else 0 := by
  obtain ⟨⟨V, mem, x, hs⟩, -⟩ := h
  split_ifs with h1
  · subst h1
    have := hs.input (0, .scalar (f t)) (by show _ ∈ [((0 : Nat), Val.scalar (f t))]; simp)
    show (val 0).elim 0 (Val.part i) = f t
    rw [this]
    rfl
  · have e : (feed f M).deriv s = none := if_neg h1
    simp [Config.slopes, e]

theorem feed_states (f : ℝ → ℝ) (M : Method) (a : ℝ) (s : SigId) (i : Nat) : (feed f M).states ((feed f M).keptVal (begins a)) s i = if s = 1 then a else 0 := by
  split_ifs with h1
  · subst h1
    rfl
  · have e : (feed f M).deriv s = none := if_neg h1
    simp [Config.states, e]

theorem feed_near {f f' : ℝ → ℝ} {M : Method} {a a' : ℝ} : Nearby |a - a'| ((feed f M).states ((feed f M).keptVal (begins a))) ((feed f' M).states ((feed f' M).keptVal (begins a'))) := by
  intro s i
  rw [feed_states, feed_states]
  split_ifs <;> simp

theorem feed_departs {f f' : ℝ → ℝ} {M : Method} {L ε t0 : ℝ} (hL : 0 ≤ L) (hf : ∀ t, |f t - f' t| ≤ ε) :
    Departs (feed f M) (feed f' M) (fun _ => .scalar) (fun _ => .scalar) (fun _ => True) t0 L ε := by
  intro t v v' δ _ k1 k2 _ k3 s i
  have hδ := mul_nonneg hL ((abs_nonneg _).trans (k3 0 0))
  have := hf t
  rw [feed_slopes k1, feed_slopes k2]
  split_ifs
  · linarith
  · have := (abs_nonneg _).trans this
    rw [sub_self, abs_zero]
    linarith

/-- The hypotheses of `C95_exp` (and so of `C95_near`) hold for the integrals of two functions of time that differ by at most `ε`. -/
example (f f' : ℝ → ℝ) (ε L a a' : ℝ) (hL : 0 < L) (hf : ∀ t, |f t - f' t| ≤ ε) :
    ∃ m0 m0' : Machine ℝ, Call.exec (feed f .rk4) (.init 0) { w := begins a, s := { tPrev := 0 } } = .ok () m0 ∧ Call.exec (feed f' .rk4) (.init 0) { w := begins a', s := { tPrev := 0 } } = .ok () m0' ∧
      ∀ ts : List ℝ, (0 :: ts).IsChain (· < ·) → (∃ m, RunsTo (feed f .rk4) (1 / 2) 1 m0 ts m) ∧ (∃ m', RunsTo (feed f' .rk4) (1 / 2) 1 m0' ts m') ∧
        ∀ m m', RunsTo (feed f .rk4) (1 / 2) 1 m0 ts m → RunsTo (feed f' .rk4) (1 / 2) 1 m0' ts m' →
          Nearby (|a - a'| * Real.exp (L * ((0 :: ts).getLast (by simp) - 0)) + ε / L * (Real.exp (L * ((0 :: ts).getLast (by simp) - 0)) - 1)) ((feed f .rk4).states m.w.shown)
            ((feed f' .rk4).states m'.w.shown) :=
  C95_exp (feed f .rk4) (feed f' .rk4) wired wired _ _ _ _ (closed f .rk4) (closed f' .rk4) (by simp [wired, Make.Plain]) (by simp [wired, Make.Plain]) ⟨_, .head _, rfl⟩ ⟨_, .head _, rfl⟩ (begins a)
    (begins a') (new f .rk4 a) (new f' .rk4 a') rfl rfl 0 0 0 (1 / 2) 1 (by norm_num) (by norm_num) .rk4 (by simp) (fun s e => (Option.some_inj.1 e).symm) (fun s e => (Option.some_inj.1 e).symm)
    L ε _ hL ((abs_nonneg _).trans (hf 0)) (feed_departs hL.le hf) feed_near

/-- The hypotheses of `C95_under` hold for the integrals of two functions of which one is nowhere greater than the other. -/
example (f f' : ℝ → ℝ) (a a' g : ℝ) (hg : 0 ≤ g) (hf : ∀ t, f t ≤ f' t) (ha : a ≤ a') :
    ∃ m0 m0' : Machine ℝ, Call.exec (feed f .euler) (.init 0) { w := begins a, s := { tPrev := 0 } } = .ok () m0 ∧
      Call.exec (feed f' .euler) (.init 0) { w := begins a', s := { tPrev := 0 } } = .ok () m0' ∧
      ∀ ts : List ℝ, (0 :: ts).IsChain (fun s u => s < u ∧ u - s ≤ g) → (∃ m, RunsTo (feed f .euler) (1 / 2) 1 m0 ts m) ∧ (∃ m', RunsTo (feed f' .euler) (1 / 2) 1 m0' ts m') ∧
        ∀ m m', RunsTo (feed f .euler) (1 / 2) 1 m0 ts m → RunsTo (feed f' .euler) (1 / 2) 1 m0' ts m' → Under ((feed f .euler).states m.w.shown) ((feed f' .euler).states m'.w.shown) :=
  C95_under (feed f .euler) (feed f' .euler) _ _ wired wired _ _ (closed f .euler) (closed f' .euler) (by simp [wired, Make.Plain]) (by simp [wired, Make.Plain]) ⟨_, .head _, rfl⟩ ⟨_, .head _, rfl⟩
    (begins a) (begins a') (new f .euler a) (new f' .euler a') rfl rfl 0 0 0 (1 / 2) 1 (by norm_num) (by norm_num) (fun s e => (Option.some_inj.1 e).symm) (fun s e => (Option.some_inj.1 e).symm) g
    (fun t v v' _ k1 k2 k3 s i => by
      show _ + g * (feed f .euler).slopes v s i ≤ _ + g * (feed f' .euler).slopes v' s i
      rw [feed_slopes k1, feed_slopes k2]
      have := k3 s i
      split_ifs
      · exact add_le_add this (mul_le_mul_of_nonneg_left (hf t) hg)
      · linarith)
    (fun s i => by
      rw [feed_states, feed_states]
      split_ifs
      · exact ha
      · exact le_rfl)

/-- The hypotheses of `C95_within` hold for `x' = - x` and `x' = - 2/3 x` with an array of two numbers that begins with 5 and 3, gaps of at most 1, and `S` the numbers from 0 to 5. -/
example (st st' : Strategy) :
    ∃ m0 m0' : Machine ℚ, Call.exec (C94.prog (-1) euler st) (.init 0) { w := C94.world 5 3, s := { tPrev := 0 } } = .ok () m0 ∧
      Call.exec (C94.prog (-2 / 3) euler st') (.init 0) { w := C94.world 5 3, s := { tPrev := 0 } } = .ok () m0' ∧
      ∀ ts : List ℚ, (0 :: ts).IsChain (fun s u => s < u ∧ u - s ≤ 1) → (∃ m, RunsTo (C94.prog (-1) euler st) (1 / 2 ^ 20) 1 m0 ts m) ∧
        (∃ m', RunsTo (C94.prog (-2 / 3) euler st') (1 / 2 ^ 20) 1 m0' ts m') ∧ ∀ m m', RunsTo (C94.prog (-1) euler st) (1 / 2 ^ 20) 1 m0 ts m → RunsTo (C94.prog (-2 / 3) euler st') (1 / 2 ^ 20) 1 m0' ts m' →
          Nearby (Method.euler.spread 1 0 ts * (0 + 5 / 3 / 1) - 5 / 3 / 1) ((C94.prog (-1) euler st).states m.w.shown) ((C94.prog (-2 / 3) euler st').states m'.w.shown) := by
  refine C95_within (C94.prog (-1) euler st) (C94.prog (-2 / 3) euler st') _ _ (C94.wires _) (C94.wires _) _ _ (C94.sealed _ euler (by simp) st) (C94.sealed _ euler (by simp) st')
    (by simp [C94.wires, Make.Plain]) (by simp [C94.wires, Make.Plain]) ⟨_, .head _, rfl⟩ ⟨_, .head _, rfl⟩ _ _ (C94.new _ _ _ euler st) (C94.new _ _ _ euler st') rfl rfl 0 0 0 (1 / 2 ^ 20) 1
    (by norm_num) (by norm_num) (fun s e => (Option.some_inj.1 e).symm) (fun s e => (Option.some_inj.1 e).symm) 1 (5 / 3) 0 1 (by norm_num) (fun z => ∀ s i, 0 ≤ z s i ∧ z s i ≤ 5) ?_ ?_ ?_ ?_ ?_
  · intro z y hz hy θ k0 k1 s i
    obtain ⟨b1, b2⟩ := hz s i
    obtain ⟨c1, c2⟩ := hy s i
    constructor <;> nlinarith
  · intro t v _ k1 k2 s i
    obtain ⟨b1, b2⟩ := k2 s i
    simp only [C94.slopes_eq (-2 / 3) euler st' k1]
    constructor <;> linarith
  · intro s i
    by_cases h0 : s = 0
    · subst h0
      rw [C94.kept]
      rcases i with _ | _ | i <;> norm_num
    · have e1 : (C94.prog (-2 / 3) euler st').deriv s = none := if_neg h0
      simp [Config.states, e1]
  · intro t v v' δ _ k1 k2 k3 k4 s i
    obtain ⟨b1, b2⟩ := k3 s i
    obtain ⟨c1, c2⟩ := abs_le.1 (k4 s i)
    rw [C94.slopes_eq (-1) euler st k1, C94.slopes_eq (-2 / 3) euler st' k2, abs_le]
    constructor <;> linarith
  · intro s i
    have := C94.near (-1) euler st (a := 5) (b := 3) (a' := 5) (b' := 3) (δ := 0) (by simp) (by simp) s i
    exact this

end
end Pooya.C95
