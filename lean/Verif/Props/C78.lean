import Verif.Proof.Repeat
import Verif.Props.C76

/-! # C78: a simulation with step size control can be repeated, bit by bit, in arithmetic with rounding -/

namespace Pooya.C78

open Pooya C60 C69 C70 C72 Within

set_option linter.unusedSectionVars false

section
variable {K : Type} [Arith K]

/-- C78, determinism: in any arithmetic, the rules of the step size control leave no choice.  From the same state there is one course through given times, with one
list of trial and accepted steps. -/
theorem C78_unique (cfg : Config K) (ps : List (Wire K)) (ty : SigId → Ty) (rank : BlkId → Nat) (h : cfg.Sealed ps ty rank)
    (V : Vars) (hV : ∀ s, s ∈ V.scalars ++ V.arrays ↔ ∃ p ∈ ps, p.obj.isState = true ∧ p.Gives s) (minH maxH : K)
    (a a' b b' : Snapshot K) (ha : C69.Alike cfg ps a a') (ts : List K) (es es' : List (StepEv K)) (h1 : Paces cfg V minH maxH a ts es b) (h2 : Paces cfg V minH maxH a' ts es' b') :
    es = es' ∧ C69.Alike cfg ps b b' :=
  paces_unique h hV h1 ha h2

variable {cfg cfg' : Config K} {ps ps' : List (Wire K)} {ty ty' : SigId → Ty} {rank rank' : BlkId → Nat}

/-- `C76_paces` for any arithmetic. -/
theorem paced_of [LT K] (h : cfg.Sealed ps ty rank) (hme : ∀ p ∈ ps, p.obj.Plain) (hord : cfg.Delays → OrderedArith K) (w : World K) (hw : w.New cfg ty) (hlog : w.log = [])
    (tPrev t0 minH maxH : K) :
    ∃ (m0 : Machine K) (V : Vars) (x0 : List K), Call.exec cfg (.init t0) { w := w, s := { tPrev := tPrev } } = .ok () m0 ∧ V = m0.vars ∧
      (∀ s, s ∈ V.scalars ++ V.arrays ↔ ∃ p ∈ ps, p.obj.isState = true ∧ p.Gives s) ∧ (∀ s, V.size s = (ty s).size) ∧
      cfg.Stands V w.mem x0 ∧ Committed cfg V w.mem t0 x0 m0.w.shown m0.w.mem ∧
      ∀ ts : List K, (t0 :: ts).IsChain (Onward cfg ty minH maxH) →
        (∃ m, RunsTo cfg minH maxH m0 ts m) ∧
        ∀ m, RunsTo cfg minH maxH m0 ts m → ∃ y new, m.w.log = new ++ m0.w.log ∧ m.s.tPrev = (t0 :: ts).getLast (by simp) ∧
          Paces cfg V minH maxH ⟨m0.w.mem, t0, x0, m0.w.shown⟩ ts (stepsIn new) ⟨m.w.mem, m.s.tPrev, y, m.w.shown⟩ := by
  obtain ⟨m0, V, x0, q1, rfl, q3, q4, q5, q6, q7⟩ := passage_of cfg ps ty rank h hme hord w hw hlog tPrev t0 minH maxH
  have hp := C59.C59_complete cfg ps ty rank h
  have ho := owned_of hp
  have hc := calm_leaf h hme
  obtain ⟨m0', g1, g2⟩ := C57.C57_init cfg ty rank hp hord _ (.new w tPrev hw) rfl t0
  rw [q1] at g1
  cases g1
  have hat : Attended cfg ty m0 := .call (.init t0) (.new w tPrev hw) rfl q1
  have hon : Ongoing cfg m0 := .init w tPrev t0 hw.done hlog q1
  have hf := (attended_cared hp hord hat).fit g2.init
  have hco := hon.course ho hp.typed.dbg hp.typed.stepper hc
  obtain ⟨x1, mb, b1, _, _, b4⟩ := runs_begin hp hf t0
  obtain ⟨x2, hx2⟩ := hco.start ho b1
  have hw0 := init_stands hp hc hw hlog q1 hx2
  obtain rfl : x2 = x0 := packed_unique hw0 q5 fun _ _ => rfl
  have hmk : Mark cfg ty m0.vars m0.s.nState t0 x2 m0 := ⟨hat, hon, rfl, rfl, g2.time, hx2⟩
  have hstp : 0 < m0.s.nState → cfg.stepper ≠ none := by
    intro hn e
    obtain ⟨s, hs⟩ := List.exists_mem_of_ne_nil _ (vars_ne hp hf.call.layout hn)
    obtain ⟨p, hp, hb, _⟩ := (q3 s).1 hs
    have := h.stepped ⟨p, hp, hb⟩
    rw [e] at this; cases this
  refine ⟨m0, m0.vars, x2, q1, rfl, q3, q4, q5, q6, fun ts hts => ⟨(q7 ts hts).1, fun m hm => ?_⟩⟩
  obtain ⟨y, new, e1, e2⟩ := Mark.paced hp hord hc hstp ts hts hmk m hm
  obtain ⟨_, _, hmk'⟩ := (Mark.courses hp hord hc hstp ts hts hmk).2 m hm
  unfold snap at e2
  rw [show m0.s.tPrev = t0 from g2.time] at e2
  exact ⟨y, new, e1, hmk'.time, e2⟩

/-- Two programs with the same diagram, in any arithmetic in which the largest of some numbers does not depend on their order. -/
theorem same_of [LT K] (hmax : ∀ l l' : List K, (∀ x, x ∈ l ↔ x ∈ l') → maxAbs l = maxAbs l') (h : cfg.Sealed ps ty rank) (h' : cfg'.Sealed ps' ty' rank') (hps : ∀ p, p ∈ ps ↔ p ∈ ps')
    (hpl : ∀ p ∈ ps, p.obj.Plain) (hin : ∀ t q, q ∈ cfg.inputVals t ↔ q ∈ cfg'.inputVals t) (hst : (∃ p ∈ ps, p.obj.isState = true) → cfg.stepper = cfg'.stepper)
    (he : ∀ st, cfg'.stepper = some st → st ∈ [euler, rk4, rkf45]) (ho : cfg.Delays → OrderedArith K) (w w' : World K) (hw : w.New cfg ty) (hw' : w'.New cfg' ty')
    (hlog : w.log = []) (hlog' : w'.log = []) (hmem : ∀ p ∈ ps, w.mem p.id = w'.mem p.id) (tPrev tPrev' t0 minH maxH : K) :
    ∃ m0 m0', Call.exec cfg (.init t0) { w := w, s := { tPrev := tPrev } } = .ok () m0 ∧ Call.exec cfg' (.init t0) { w := w', s := { tPrev := tPrev' } } = .ok () m0' ∧
      (∀ p ∈ ps, m0.w.mem p.id = m0'.w.mem p.id ∧ ∀ s, p.Takes s ∨ p.Gives s → m0.w.shown s = m0'.w.shown s) ∧
      ∀ ts : List K, (t0 :: ts).IsChain (Onward cfg ty minH maxH) → (t0 :: ts).IsChain (Onward cfg' ty' minH maxH) →
        (∃ m, RunsTo cfg minH maxH m0 ts m) ∧ (∃ m', RunsTo cfg' minH maxH m0' ts m') ∧
        ∀ m m', RunsTo cfg minH maxH m0 ts m → RunsTo cfg' minH maxH m0' ts m' →
          (∀ p ∈ ps, m.w.mem p.id = m'.w.mem p.id ∧ ∀ s, p.Takes s ∨ p.Gives s → m.w.shown s = m'.w.shown s) ∧
          ∃ new new', m.w.log = new ++ m0.w.log ∧ m'.w.log = new' ++ m0'.w.log ∧ stepsIn new = stepsIn new' := by
  have hpl' : ∀ p ∈ ps', p.obj.Plain := fun p hp => hpl p ((hps p).2 hp)
  have hlv := leaves_sub h h' (fun p hp => (hps p).1 hp) hpl
  have hlv' := leaves_sub h' h (fun p hp => (hps p).2 hp) hpl'
  have ho' : cfg'.Delays → OrderedArith K := fun ⟨l, hl, e⟩ => ho ⟨l, hlv' l hl, e⟩
  obtain ⟨m0, V, x0, a1, rfl, a3, a4, a5, a6, a7⟩ := paced_of h hpl ho w hw hlog tPrev t0 minH maxH
  obtain ⟨m0', V', x0', b1, rfl, b3, b4, b5, b6, b7⟩ := paced_of h' hpl' ho' w' hw' hlog' tPrev' t0 minH maxH
  have hV := sorted_of h ho hw a1 a3 a4
  have hV' := sorted_of h' ho' hw' b1 b3 b4
  have hh := holds_of h h' (fun p hp => (hps p).1 hp) hpl (fun t q hq => (hin t q).1 hq) hV hV'
  have hh' := sub_of h' h (fun p hp => (hps p).2 hp) hpl' hV' hV
  have hmax' : ∀ f : SigId × Nat → K, maxAbs ((Within.slots m0.vars).map f) = maxAbs ((Within.slots m0'.vars).map f) := fun f => hmax _ _ fun x => by
    rw [List.mem_map, List.mem_map]
    exact ⟨fun ⟨q, hq, e⟩ => ⟨q, hh.sub.slots q hq, e⟩, fun ⟨q, hq, e⟩ => ⟨q, hh'.1.slots q hq, e⟩⟩
  have hmem' : ∀ l ∈ cfg.model.leaves, w.mem l.id = w'.mem l.id := fun l hl => by
    obtain ⟨p, hp, f⟩ := C59.leaf_wire h hl
    rw [f.id]
    exact hmem p hp
  have e1 := ((packed_iff fun _ _ => rfl).1 b5).2.2
  have hx : x0 = (Within.slots m0.vars).map (comp fun s => (cfg'.model.leaves.find? (fun l => decide (l.state = some s))).map (fun l => (w'.mem l.id).value)) := by
    refine packed_unique a5 (hh.sub.packed (fun _ _ => rfl) (fun _ _ => rfl) (fun _ _ => rfl) (e1 ▸ b5)) (fun s hs => ?_)
    obtain ⟨p, hp, hst, hg⟩ := (hV.mem s).1 hs
    obtain ⟨l, hl, e⟩ := state_leaf h hp hst hg
    rw [find_state h hl e, find_state h' (hlv l hl) e, Option.map_some, Option.map_some, hmem' l hl]
  rw [e1] at b6
  obtain ⟨v2, ev2, b8⟩ := hh.committed b6
  obtain rfl : v2 = _ := funext fun s => ev2 s trivial
  obtain ⟨c1, c2⟩ := committed_unique h a3 hmem' a6 (hx ▸ b8)
  have hleaf : ∀ {a b : BlkId → Mem K}, (∀ l ∈ cfg.model.leaves, a l.id = b l.id) → ∀ p ∈ ps, a p.id = b p.id := fun hab p hp => by
    obtain ⟨l, hl, f⟩ := C59.wire_leaf h hp
    exact f.id ▸ hab l hl
  refine ⟨m0, m0', a1, b1, fun p hp => ⟨hleaf c1 p hp, fun s hs => c2 s ⟨p, hp, hs⟩⟩, fun ts hts hts' => ⟨(a7 ts hts).1, (b7 ts hts').1, fun m m' r r' => ?_⟩⟩
  obtain ⟨y, new, q1, q2, q3⟩ := (a7 ts hts).2 m r
  obtain ⟨y', new', q1', q2', q3'⟩ := (b7 ts hts').2 m' r'
  have hnil : ∀ s, s ∈ m0.vars.scalars ++ m0.vars.arrays ↔ s ∈ m0'.vars.scalars ++ m0'.vars.arrays := fun s => by
    rw [a3, b3]
    exact ⟨fun ⟨p, hp, e⟩ => ⟨p, (hps p).1 hp, e⟩, fun ⟨p, hp, e⟩ => ⟨p, (hps p).2 hp, e⟩⟩
  obtain ⟨f, v1, _, ev1, q⟩ := hh.paces hmax' (by simp only [List.eq_nil_iff_forall_not_mem, hnil]) (fun hne => by
      obtain ⟨s, hs⟩ := List.exists_mem_of_ne_nil _ hne
      obtain ⟨p, hp, e, _⟩ := (a3 s).1 hs
      exact hst ⟨p, hp, e⟩) he q3' e1 fun _ _ => rfl
  obtain rfl : v1 = _ := funext fun s => ev1 s trivial
  obtain ⟨e, hal⟩ := paces_unique h a3 q3 (a' := ⟨m0'.w.mem, t0, _, m0'.w.shown⟩) ⟨rfl, hx, c1, c2⟩ q
  exact ⟨fun p hp => ⟨hleaf hal.mem p hp, fun s hs => hal.vals s ⟨p, hp, hs⟩⟩, new, new', q1, q1', e⟩

end

section
variable {F : Type} [_root_.Field F] [LinearOrder F] [IsStrictOrderedRing F] [Archimedean F] [A : Arith F] {rnd : F → F}

/-- Comparisons and absolute values are not rounded. -/
theorem maxAbs_rounded (hA : A = Arith.rounded rnd) (l l' : List F) (h : ∀ x, x ∈ l ↔ x ∈ l') : maxAbs l = maxAbs l' := by
  subst hA
  have key : ∀ l : List F, l ≠ [] → @maxAbs F (Arith.rounded rnd) l = @maxAbs F (Arith.exact F) l := by
    intro l hl
    cases l with
    | nil => exact (hl rfl).elim
    | cons x xs => rfl
  by_cases hl : l = []
  · have : l' = [] := List.eq_nil_iff_forall_not_mem.2 fun x hx => by have := (h x).2 hx; rw [hl] at this; cases this
    rw [hl, this]
  · have hl' : l' ≠ [] := fun e => hl (List.eq_nil_iff_forall_not_mem.2 fun x hx => by have := (h x).1 hx; rw [e] at this; cases this)
    rw [key l hl, key l' hl']
    let _ := Arith.exact F
    exact maxAbs_congr h

variable {R ρ : F}

theorem chain_rounded (hA : A = Arith.rounded rnd) (hr : Rounding rnd R ρ) {cfg : Config F} {ps : List (Wire F)} {ty : SigId → Ty} {rank : BlkId → Nat}
    (h : cfg.Sealed ps ty rank) (he : ∀ st, cfg.stepper = some st → st ∈ [euler, rk4, rkf45]) {t0 minH maxH : F} (h0 : 0 < minH) (h1 : minH < maxH) (h2 : rnd minH = minH)
    (h3 : 16 * ρ ≤ minH) {ts : List F} (hts : (t0 :: ts).Pairwise (· < ·)) (hR : ∀ t ∈ t0 :: ts, rnd t = t ∧ 2 * |t| + maxH ≤ R) : (t0 :: ts).IsChain (Onward cfg ty minH maxH) := by
  refine List.IsChain.imp_of_mem_imp (fun a b ha hb hab => ?_) hts.isChain
  obtain ⟨_, a2⟩ := hR a ha
  obtain ⟨b1, b2⟩ := hR b hb
  refine onward_rounded hA (C59.C59_complete cfg ps ty rank h) he (R := R) (ρ := ρ) ⟨hr, by linarith [abs_nonneg a], by linarith [abs_nonneg b], ?_, h2, b1, h3, h0, h1⟩ hab
  linarith [neg_abs_le a, le_abs_self b]

/-- C78, the rules: in arithmetic with rounding, `init` and all calls of `run` return, and the diagram passes through the times with the steps the rules of the step
size control prescribe, each operation being rounded. -/
theorem C78_paces (hA : A = Arith.rounded rnd) (hr : Rounding rnd R ρ) (cfg : Config F) (ps : List (Wire F)) (ty : SigId → Ty) (rank : BlkId → Nat)
    (h : cfg.Sealed ps ty rank) (hme : ∀ p ∈ ps, p.obj.Plain) (he : ∀ st, cfg.stepper = some st → st ∈ [euler, rk4, rkf45])
    (w : World F) (hw : w.New cfg ty) (hlog : w.log = []) (tPrev t0 minH maxH : F) (h0 : 0 < minH) (h1 : minH < maxH) (h2 : rnd minH = minH) (h3 : 16 * ρ ≤ minH) :
    ∃ (m0 : Machine F) (V : Vars) (x0 : List F), Call.exec cfg (.init t0) { w := w, s := { tPrev := tPrev } } = .ok () m0 ∧ V = m0.vars ∧
      (∀ s, s ∈ V.scalars ++ V.arrays ↔ ∃ p ∈ ps, p.obj.isState = true ∧ p.Gives s) ∧ (∀ s, V.size s = (ty s).size) ∧
      cfg.Stands V w.mem x0 ∧ Committed cfg V w.mem t0 x0 m0.w.shown m0.w.mem ∧
      ∀ ts : List F, (t0 :: ts).Pairwise (· < ·) → (∀ t ∈ t0 :: ts, rnd t = t ∧ 2 * |t| + maxH ≤ R) →
        (∃ m, RunsTo cfg minH maxH m0 ts m) ∧
        ∀ m, RunsTo cfg minH maxH m0 ts m → ∃ y new, m.w.log = new ++ m0.w.log ∧ m.s.tPrev = (t0 :: ts).getLast (by simp) ∧
          Paces cfg V minH maxH ⟨m0.w.mem, t0, x0, m0.w.shown⟩ ts (stepsIn new) ⟨m.w.mem, m.s.tPrev, y, m.w.shown⟩ := by
  obtain ⟨m0, V, x0, q1, q2, q3, q4, q5, q6, q7⟩ := paced_of h hme (fun _ => ordered_rounded hA) w hw hlog tPrev t0 minH maxH
  exact ⟨m0, V, x0, q1, q2, q3, q4, q5, q6, fun ts hts hR => q7 ts (chain_rounded hA hr h he h0 h1 h2 h3 hts hR)⟩

/-- C78: two programs with the same diagram - the same blocks with the same buses, the same inputs, the same members at the beginning -, simulated with the same
method through the same times in arithmetic with rounding.  The simulators, the nesting and the order of the blocks and the order of the signals in hash tables - so
the order of the state variables too - may differ.  After `init` and every `run` all signals and all members of the blocks are the same, bit by bit, and the same
steps were tried and accepted. -/
theorem C78_same (hA : A = Arith.rounded rnd) (hr : Rounding rnd R ρ) (cfg cfg' : Config F) (ps ps' : List (Wire F)) (ty ty' : SigId → Ty) (rank rank' : BlkId → Nat)
    (h : cfg.Sealed ps ty rank) (h' : cfg'.Sealed ps' ty' rank') (hps : ∀ p, p ∈ ps ↔ p ∈ ps')
    (hpl : ∀ p ∈ ps, p.obj.Plain) (hin : ∀ t q, q ∈ cfg.inputVals t ↔ q ∈ cfg'.inputVals t) (hst : (∃ p ∈ ps, p.obj.isState = true) → cfg.stepper = cfg'.stepper)
    (he : ∀ st, cfg.stepper = some st ∨ cfg'.stepper = some st → st ∈ [euler, rk4, rkf45]) (w w' : World F) (hw : w.New cfg ty) (hw' : w'.New cfg' ty')
    (hlog : w.log = []) (hlog' : w'.log = []) (hmem : ∀ p ∈ ps, w.mem p.id = w'.mem p.id) (tPrev tPrev' t0 minH maxH : F)
    (h0 : 0 < minH) (h1 : minH < maxH) (h2 : rnd minH = minH) (h3 : 16 * ρ ≤ minH) :
    ∃ m0 m0', Call.exec cfg (.init t0) { w := w, s := { tPrev := tPrev } } = .ok () m0 ∧ Call.exec cfg' (.init t0) { w := w', s := { tPrev := tPrev' } } = .ok () m0' ∧
      (∀ p ∈ ps, m0.w.mem p.id = m0'.w.mem p.id ∧ ∀ s, p.Takes s ∨ p.Gives s → m0.w.shown s = m0'.w.shown s) ∧
      ∀ ts : List F, (t0 :: ts).Pairwise (· < ·) → (∀ t ∈ t0 :: ts, rnd t = t ∧ 2 * |t| + maxH ≤ R) →
        (∃ m, RunsTo cfg minH maxH m0 ts m) ∧ (∃ m', RunsTo cfg' minH maxH m0' ts m') ∧
        ∀ m m', RunsTo cfg minH maxH m0 ts m → RunsTo cfg' minH maxH m0' ts m' →
          (∀ p ∈ ps, m.w.mem p.id = m'.w.mem p.id ∧ ∀ s, p.Takes s ∨ p.Gives s → m.w.shown s = m'.w.shown s) ∧
          ∃ new new', m.w.log = new ++ m0.w.log ∧ m'.w.log = new' ++ m0'.w.log ∧ stepsIn new = stepsIn new' := by
  obtain ⟨m0, m0', q1, q2, q3, q4⟩ := same_of (maxAbs_rounded hA) h h' hps hpl hin hst (fun st e => he st (.inr e)) (fun _ => ordered_rounded hA) w w' hw hw' hlog hlog' hmem tPrev tPrev' t0 minH maxH
  exact ⟨m0, m0', q1, q2, q3, fun ts hts hR => q4 ts (chain_rounded hA hr h (fun st e => he st (.inl e)) h0 h1 h2 h3 hts hR)
    (chain_rounded hA hr h' (fun st e => he st (.inr e)) h0 h1 h2 h3 hts hR)⟩

end

section
variable [A : Arith ℚ]

/-- C78, `double`: `C78_same` with the rounding of IEEE 754 double precision, or any number `p` of binary digits. -/
theorem C78_binary (p : Nat) (hp : 0 < p) (hA : A = Arith.rounded (binary p)) (cfg cfg' : Config ℚ) (ps ps' : List (Wire ℚ)) (ty ty' : SigId → Ty) (rank rank' : BlkId → Nat)
    (h : cfg.Sealed ps ty rank) (h' : cfg'.Sealed ps' ty' rank') (hps : ∀ p, p ∈ ps ↔ p ∈ ps')
    (hpl : ∀ p ∈ ps, p.obj.Plain) (hin : ∀ t q, q ∈ cfg.inputVals t ↔ q ∈ cfg'.inputVals t) (hst : (∃ p ∈ ps, p.obj.isState = true) → cfg.stepper = cfg'.stepper)
    (he : ∀ st, cfg.stepper = some st ∨ cfg'.stepper = some st → st ∈ [euler, rk4, rkf45]) (w w' : World ℚ) (hw : w.New cfg ty) (hw' : w'.New cfg' ty')
    (hlog : w.log = []) (hlog' : w'.log = []) (hmem : ∀ p ∈ ps, w.mem p.id = w'.mem p.id) (tPrev tPrev' t0 minH maxH R : ℚ)
    (h0 : 0 < minH) (h1 : minH < maxH) (h2 : binary p minH = minH) (h3 : 16 * (R / 2 ^ p) ≤ minH) :
    ∃ m0 m0', Call.exec cfg (.init t0) { w := w, s := { tPrev := tPrev } } = .ok () m0 ∧ Call.exec cfg' (.init t0) { w := w', s := { tPrev := tPrev' } } = .ok () m0' ∧
      (∀ p ∈ ps, m0.w.mem p.id = m0'.w.mem p.id ∧ ∀ s, p.Takes s ∨ p.Gives s → m0.w.shown s = m0'.w.shown s) ∧
      ∀ ts : List ℚ, (t0 :: ts).Pairwise (· < ·) → (∀ t ∈ t0 :: ts, binary p t = t ∧ 2 * |t| + maxH ≤ R) →
        (∃ m, RunsTo cfg minH maxH m0 ts m) ∧ (∃ m', RunsTo cfg' minH maxH m0' ts m') ∧
        ∀ m m', RunsTo cfg minH maxH m0 ts m → RunsTo cfg' minH maxH m0' ts m' →
          (∀ p ∈ ps, m.w.mem p.id = m'.w.mem p.id ∧ ∀ s, p.Takes s ∨ p.Gives s → m.w.shown s = m'.w.shown s) ∧
          ∃ new new', m.w.log = new ++ m0.w.log ∧ m'.w.log = new' ++ m0'.w.log ∧ stepsIn new = stepsIn new' :=
  C78_same hA (binary_rounding hp (le_refl (R / 2 ^ p))) cfg cfg' ps ps' ty ty' rank rank' h h' hps hpl hin hst he w w' hw hw' hlog hlog' hmem tPrev tPrev' t0 minH maxH h0 h1 h2 h3

end

/-! ## Two equations with `double` numbers -/

section
local instance (priority := high) onDouble : Arith ℚ := Arith.rounded double

/-- The equations `x' = x` and `y' = y` of `C72`, with a method that computes with `double` numbers. -/
def first (stp : Stepper ℚ) (st : Strategy) : Config ℚ := { C72.prog stp st true with stepper := some stp }

/-- The same diagram with the blocks side by side, and another order in hash tables. -/
def second (stp : Stepper ℚ) (st : Strategy) : Config ℚ := { C72.prog stp st true with model := .sub 100 [] [.leaf large, .leaf small], hash := List.reverse }

theorem first_sealed (stp : Stepper ℚ) (hs : stp.Dim) (st : Strategy) : (first stp st).Sealed (wires true) (fun _ => .scalar) (fun b => b) :=
  have h := C72.sealed (@euler ℚ instArithRat) (by simp) st true
  { dbg := h.dbg, assembled := h.assembled, proper := h.proper, hash := h.hash, sane := h.sane, once := h.once, provided := h.provided, loops := h.loops,
    inputs := h.inputs, modelInput := h.modelInput, inputOnce := h.inputOnce, inputFree := h.inputFree, stepper := fun _ e => (by cases e; exact hs),
    stepped := fun _ => rfl, reuse := h.reuse }

theorem second_leaves (stp : Stepper ℚ) (st : Strategy) : (second stp st).model.leaves = [large, small] := by simp [second, Block.leaves, leavesL]

theorem second_sealed (stp : Stepper ℚ) (hs : stp.Dim) (st : Strategy) : (second stp st).Sealed (wires true) (fun _ => .scalar) (fun b => b) :=
  have h := C72.sealed (@euler ℚ instArithRat) (by simp) st true
  { dbg := h.dbg
    assembled := by
      obtain ⟨ls, h1, h2⟩ := h.assembled
      refine ⟨ls, h1, ?_⟩
      rw [C72.leaves_eq] at h2
      rw [second_leaves]
      exact h2
    proper := by
      unfold Block.Proper
      have : (second stp st).model.ids = [100, 2, 1] := by simp [second, small, large, Block.ids, Block.all, allL, Block.id]
      rw [this]; decide
    hash := fun l => List.reverse_perm l
    sane := h.sane, once := h.once, provided := h.provided, loops := h.loops
    inputs := h.inputs, modelInput := h.modelInput, inputOnce := h.inputOnce, inputFree := h.inputFree, stepper := fun _ e => (by cases e; exact hs)
    stepped := fun _ => rfl, reuse := h.reuse }

theorem first_new (stp : Stepper ℚ) (st : Strategy) : C72.world.New (first stp st) (fun _ => .scalar) :=
  have h := C72.new stp st true
  { fine := { types := h.fine.types, cells := h.fine.cells, members := h.fine.members }, done := h.done, record := h.record }

theorem second_new (stp : Stepper ℚ) (st : Strategy) : C72.world.New (second stp st) (fun _ => .scalar) :=
  have h := C72.new stp st true
  have hl : ∀ l ∈ (second stp st).model.leaves, l ∈ (C72.prog stp st true).model.leaves := fun l hl => by
    rw [second_leaves] at hl
    rw [C72.leaves_eq]
    simp only [List.mem_cons, List.not_mem_nil, or_false] at hl
    rcases hl with rfl | rfl <;> simp
  { fine := { types := h.fine.types, cells := h.fine.cells, members := fun l hl' => h.fine.members l (hl l hl') }, done := h.done, record := fun l hl' => h.record l (hl l hl') }

/-- The machine after `init(0)` and `run(1, 1/4, 10)`. -/
def after (cfg : Config ℚ) : Machine ℚ := stateOf (Call.exec cfg (.run 10 1 (1/4) 10) (stateOf (Call.exec cfg (.init 0) { w := C72.world, s := { tPrev := 0 } })))

/-- All hypotheses of `C78_binary` hold for the two programs with `Rkf45` and any two simulators. -/
example (st st' : Strategy) : (first rkf45 st).Sealed (wires true) (fun _ => .scalar) (fun b => b) ∧ (second rkf45 st').Sealed (wires true) (fun _ => .scalar) (fun b => b) ∧
    (∀ p ∈ wires true, p.obj.Plain) ∧ (∀ t q, q ∈ (first rkf45 st).inputVals t ↔ q ∈ (second rkf45 st').inputVals t) ∧ (first rkf45 st).stepper = (second rkf45 st').stepper ∧
    C72.world.New (first rkf45 st) (fun _ => .scalar) ∧ C72.world.New (second rkf45 st') (fun _ => .scalar) ∧ C72.world.log = [] ∧
    double (1 / 4) = 1 / 4 ∧ 16 * ((12 : ℚ) / 2 ^ 53) ≤ 1 / 4 ∧ (∀ t ∈ [(0 : ℚ), 1], double t = t ∧ 2 * |t| + 10 ≤ 12) :=
  ⟨first_sealed _ C26.dim_provided.2.2 _, second_sealed _ C26.dim_provided.2.2 _, fun p hp => by obtain ⟨i, rfl⟩ := wire_eq _ p hp; trivial, fun _ _ => Iff.rfl, rfl, first_new _ _, second_new _ _, rfl,
    by decide +kernel, by norm_num, by decide +kernel⟩

/-- The state variables have different orders in them.  The first step is rejected in both, and numbers are rounded: `x` is not what it would be in exact arithmetic. -/
example : (after (first rkf45 .plain)).vars.scalars ≠ (after (second rkf45 .fast)).vars.scalars ∧
    (after (first rkf45 .plain)).w.shown 0 = (after (second rkf45 .fast)).w.shown 0 ∧ (after (first rkf45 .plain)).w.shown 0 ≠ (C72.after (@rkf45 ℚ instArithRat) .plain true).w.shown 0 ∧
    (stepsIn (after (first rkf45 .plain)).w.log).head? = some (.trial 0 1) ∧ (stepsIn (after (first rkf45 .plain)).w.log)[1]? ≠ some (.accept 0 1) := by
  decide +kernel

end

end Pooya.C78
