import Verif.Props.C69
import Verif.Proof.Rounding
import Verif.Proof.Binary

/-! # C70: simulation in floating-point arithmetic -/

namespace Pooya.C70

open Pooya C60 C69

set_option linter.unusedSectionVars false

section
variable {K : Type} [Arith K]
attribute [local instance] Arith.before

variable {cfg : Config K} {ps : List (Wire K)} {ty : SigId → Ty} {rank : BlkId → Nat} {V : Vars} {n : Nat} {t u minH maxH : K} {x : List K} {m m' : Machine K}

theorem single_answering (he : ∀ st, cfg.stepper = some st → st ∈ [euler, rk4]) : Answering cfg (fun t1 t2 nh => nh = t2 -. t1) :=
  fun st hst t1 x t2 => single_answers (he st hst) t1 x t2

/-- With Euler and Rk4 the simulation can go on to all later times. -/
theorem onward_single (h : cfg.WellPosed ty rank) (ho : cfg.Delays → OrderedArith K) (he : ∀ st, cfg.stepper = some st → st ∈ [euler, rk4])
    (h0 : (Arith.lit 0 <. minH) = true) (h1 : (minH <. maxH) = true) (hu : Later t u) : Onward cfg ty minH maxH t u := by
  have hfair : ∀ (V : Vars) (n : Nat) (x : List K) (m : Machine K), Mark cfg ty V n t x m → ∀ fuel, (Call.run fuel u minH maxH).Fair cfg m := by
    intro V n x m hm fuel _
    rw [hm.time]
    exact ⟨fun _ => hu.lt, fun _ => ⟨.inr (.inr hu.lt), hu.back, h0, h1, fun _ => .inl he⟩⟩
  refine ⟨hu.lt, hu.ne, hfair, fun V n x m hm fuel m' new hsv hx hlog => ?_, fun V n x m hm => ?_⟩
  · obtain ⟨es, q1, new', q2, q3⟩ := (run_trace (single_answering he) fuel u minH maxH m hm.ongoing.once.2 hsv (by rw [hm.time]; exact hu.back)
      (by rw [hm.time]; exact hu.ne)).1 m' hx
    have e : new = new' := List.append_cancel_right (hlog.symm.trans q2)
    subst e
    have key : acceptsIn new = [(t, u)] := by
      unfold acceptsIn
      rw [q3]
      rw [hm.time] at q1
      cases q1 with
      | stop e => rw [hu.lt] at e; cases e
      | accept _ _ _ q =>
        cases q with
        | stop _ => rfl
        | accept e => rw [hu.self] at e; cases e
        | reject e => rw [hu.self] at e; cases e
      | reject _ e e' => rw [e, hu.length] at e'; simp at e'
    rw [key]
    exact ⟨.step hu.lt .done, fun _ _ _ => rfl⟩
  · have hr := runs_call h ho (attended_cared h ho hm.attended) _ (hfair V n x m hm 2)
    have hen : (Call.run 2 u minH maxH).Enough cfg m := fun _ => by
      rw [hm.time]
      refine ⟨_, 1, single_answering he, .step (fun nh _ _ => .stop hu.self) (fun nh e e' => ?_), by omega⟩
      rw [e, hu.length] at e'; simp at e'
    refine ⟨2, ?_⟩
    revert hr
    cases Call.exec cfg (.run 2 u minH maxH) m with
    | error e m' => exact fun ⟨_, hn⟩ => (hn hen).elim
    | ok _ m' => exact fun _ => ⟨m', rfl⟩

/-- C70, Euler and Rk4: whatever the arithmetic does - rounding, infinities, not-a-numbers in the signals -, a closed diagram of blocks of all provided classes but
`TriggeredIntegrator` passes through all times that follow each other, with one step of the method from one to the next, each operation of the equations of
the blocks and of the method being that of the arithmetic.  A diagram with a `Delay` needs comparisons that are total. -/
theorem C70_single (cfg : Config K) (ps : List (Wire K)) (ty : SigId → Ty) (rank : BlkId → Nat) (h : cfg.Sealed ps ty rank)
    (hme : ∀ p ∈ ps, p.obj.Plain) (he : ∀ st, cfg.stepper = some st → st ∈ [euler, rk4]) (ho : cfg.Delays → OrderedArith K)
    (w : World K) (hw : w.New cfg ty) (hlog : w.log = []) (tPrev t0 minH maxH : K) (h0 : (Arith.lit 0 <. minH) = true) (h1 : (minH <. maxH) = true) :
    ∃ (m0 : Machine K) (V : Vars) (x0 : List K), Call.exec cfg (.init t0) { w := w, s := { tPrev := tPrev } } = .ok () m0 ∧ V = m0.vars ∧
      (∀ s, s ∈ V.scalars ++ V.arrays ↔ ∃ p ∈ ps, p.obj.isState = true ∧ p.Gives s) ∧ (∀ s, V.size s = (ty s).size) ∧
      cfg.Stands V w.mem x0 ∧ Committed cfg V w.mem t0 x0 m0.w.shown m0.w.mem ∧
      ∀ ts : List K, (t0 :: ts).IsChain Later →
        (∃ m, RunsTo cfg minH maxH m0 ts m) ∧
        ∀ m, RunsTo cfg minH maxH m0 ts m → ∃ y, Passes cfg V ⟨m0.w.mem, t0, x0, m0.w.shown⟩ ts ⟨m.w.mem, (t0 :: ts).getLast (by simp), y, m.w.shown⟩ := by
  obtain ⟨m0, V, x0, q1, q2, q3, q4, q5, q6, q7⟩ := passage_of cfg ps ty rank h hme ho w hw hlog tPrev t0 minH maxH
  exact ⟨m0, V, x0, q1, q2, q3, q4, q5, q6, fun ts hts => q7 ts (hts.imp fun a b hab => onward_single (C59.C59_complete cfg ps ty rank h) ho he h0 h1 hab)⟩

/-- C70, the resolution of the times: if steps of all sizes that `run` may choose are lost when they are added to the present time `a`, `run` returns only if it takes
the whole way to `t` in its first step. -/
theorem C70_absorbed (cfg : Config K) (fuel : Nat) (a t minH maxH : K) (m m' : Machine K) (hi : m.s.initialized = true) (hsv : 0 < m.s.svSize)
    (ha : m.s.tPrev = a) (hl : Later a t) (hab : ∀ nh, a +. fmax minH (fmin nh maxH) = a) (hx : Call.exec cfg (.run fuel t minH maxH) m = .ok () m') :
    ∃ new, m'.w.log = new ++ m.w.log ∧ acceptsIn new = [(a, t)] := by
  subst ha
  obtain ⟨es, q1, new, q2, q3⟩ := (run_trace (A := fun _ _ _ => True) (fun st hst t1 x t2 => any_answers _) fuel t minH maxH m hi hsv hl.back hl.ne).1 m' hx
  refine ⟨new, q2, ?_⟩
  unfold acceptsIn
  rw [q3]
  cases q1 with
  | stop e => rw [hl.lt] at e; cases e
  | accept _ _ _ q =>
    cases q with
    | stop _ => rfl
    | accept e => rw [hl.self] at e; cases e
    | reject e => rw [hl.self] at e; cases e
  | reject _ _ _ q =>
    cases q.stuck hl.lt hab (by unfold fmin; rw [if_neg (by rw [hl.back]; simp)]) rfl (hab _)

end

section
variable {F : Type} [_root_.Field F] [LinearOrder F] [IsStrictOrderedRing F] [Archimedean F] [A : Arith F] {rnd : F → F}

variable {cfg : Config F} {ps : List (Wire F)} {ty : SigId → Ty} {rank : BlkId → Nat} {V : Vars} {n : Nat} {t u minH maxH R ρ : F} {x : List F} {m m' : Machine F}

theorem ordered_rounded (hA : A = Arith.rounded rnd) : OrderedArith F := by
  subst hA
  let _ := Arith.rounded rnd
  exact {
    total := fun a b => by
      show decide (a ≤ b) = true ∨ decide (b ≤ a) = true
      simpa using le_total a b
    irrefl := fun a => decide_eq_false (lt_irrefl a)
    le_of_lt := fun a b h => decide_eq_true (of_decide_eq_true (p := a < b) h).le
    le_trans_lt := fun a b c h1 h2 => decide_eq_true (lt_of_le_of_lt (of_decide_eq_true (p := a ≤ b) h1) (of_decide_eq_true (p := b < c) h2)) }

/-- With rounding, the simulation can go on to all later times. -/
theorem onward_rounded (hA : A = Arith.rounded rnd) (h : cfg.WellPosed ty rank) (he : ∀ st, cfg.stepper = some st → st ∈ [euler, rk4, rkf45])
    (hf : Resolved rnd R ρ t u minH maxH) (hu : t < u) : Onward cfg ty minH maxH t u := by
  have ho : cfg.Delays → OrderedArith F := fun _ => ordered_rounded hA
  subst hA
  let _ := Arith.rounded rnd
  have hans : Answering cfg (HalvingR rnd) := fun st hst t1 x t2 => halvingR_provided hf.rounding.two st (he st hst) t1 x t2
  have hlt : (t <. u) = true := decide_eq_true hu
  have hback : (u <. t) = false := decide_eq_false (not_lt.2 hu.le)
  have hne : (u ==. t) = false := decide_eq_false (ne_of_gt hu)
  have hd : 0 < minH - ρ := by linarith [hf.coarse, hf.pos, hf.rho]
  have h0 : (Arith.lit 0 <. minH) = true := decide_eq_true (show rnd ((0 : ℚ) : F) < minH by rw [Rat.cast_zero, hf.rounding.zero]; exact hf.pos)
  have hfw : cfg.Forward t u minH maxH := .inr fun a nh q1 q2 => by
    rw [rounded_fmax, rounded_fmin]
    have := hf.forward (nh := nh) (of_decide_eq_true q1) (of_decide_eq_true (p := a < u) q2).le
    exact decide_eq_true (show a < rnd (a + max minH (min nh maxH)) by linarith)
  have hfair : ∀ (V : Vars) (n : Nat) (x : List F) (m : Machine F), Mark cfg ty V n t x m → ∀ fuel, (Call.run fuel u minH maxH).Fair cfg m := by
    intro V n x m hm fuel _
    rw [hm.time]
    exact ⟨fun _ => hlt, fun _ => ⟨.inr (.inr hlt), hback, h0, decide_eq_true hf.lt, fun _ => hfw⟩⟩
  refine ⟨hlt, hne, hfair, fun V n x m hm fuel m' new hsv hx hlog => ?_, fun V n x m hm => ?_⟩
  · have hi := hm.ongoing.once.2
    constructor
    · obtain ⟨es, q1, new', q2, q3⟩ := (run_trace hans fuel u minH maxH m hi hsv (by rw [hm.time]; exact hback) (by rw [hm.time]; exact hne)).1 m' hx
      have e : new = new' := List.append_cancel_right (hlog.symm.trans q2)
      subst e
      rw [hm.time] at q1
      obtain ⟨v, q4, q5⟩ := hf.tiles (fun _ _ _ => id) q1 (le_refl _) (fun e => ⟨e, le_refl _, hf.tRep⟩)
      unfold acceptsIn
      rw [q3]
      exact q5 rfl hu.le ▸ q4
    · intro st hst hs
      have hans' : Answering cfg (fun t1 t2 nh => nh = t2 -. t1) := fun st' hst' t1 x t2 => single_answers (by rw [hst] at hst'; cases hst'; exact hs) t1 x t2
      obtain ⟨es, q1, new', q2, q3⟩ := (run_trace hans' fuel u minH maxH m hi hsv (by rw [hm.time]; exact hback) (by rw [hm.time]; exact hne)).1 m' hx
      have e : new = new' := List.append_cancel_right (hlog.symm.trans q2)
      subst e
      unfold acceptsIn
      rw [q3]
      rw [hm.time] at q1
      have hself : (u <. u) = false := decide_eq_false (lt_irrefl u)
      cases q1 with
      | stop e => rw [hlt] at e; cases e
      | accept _ _ _ q =>
        cases q with
        | stop _ => rfl
        | accept e => rw [hself] at e; cases e
        | reject e => rw [hself] at e; cases e
      | reject _ e e' =>
        rw [e, show ((u -. t) <=. (u -. t)) = true from decide_eq_true (le_refl _)] at e'
        simp at e'
  · obtain ⟨N, hN⟩ := Archimedean.arch (u - t) hd
    rw [nsmul_eq_mul] at hN
    obtain ⟨B, hB⟩ := exists_pow_lt_of_lt_one (div_pos hf.pos (sub_pos.2 hu)) (show (3 / 4 : F) < 1 by norm_num)
    have hB' : (3 / 4) ^ B * (u - t) ≤ minH := ((lt_div_iff₀ (sub_pos.2 hu)).1 hB).le
    have hends := hf.ends hB' N t (le_refl _) hN B u hf.tRep (le_refl _) hu hB' (.inr rfl)
    have hen : (Call.run ((N - 1) * (B + 2) + (B + 2) + 1) u minH maxH).Enough cfg m := fun _ => by
      rw [hm.time]
      exact ⟨_, _, hans, hends, by omega⟩
    have hr := runs_call h ho (attended_cared h ho hm.attended) _ (hfair V n x m hm ((N - 1) * (B + 2) + (B + 2) + 1))
    refine ⟨(N - 1) * (B + 2) + (B + 2) + 1, ?_⟩
    revert hr
    cases Call.exec cfg (.run ((N - 1) * (B + 2) + (B + 2) + 1) u minH maxH) m with
    | error e m' => exact fun ⟨_, hn⟩ => (hn hen).elim
    | ok _ m' => exact fun _ => ⟨m', rfl⟩

/-- C70, all methods: in arithmetic with rounding, if the smallest step is at least sixteen times as large as rounding errors of the times and step sizes, `run`
returns for all increasing times, and a closed diagram of blocks of all provided classes but `TriggeredIntegrator` passes through these times, with steps that
follow each other and end exactly at each of the times, each operation of the equations of the blocks and of the method being rounded. -/
theorem C70_rounded (hA : A = Arith.rounded rnd) (hr : Rounding rnd R ρ) (cfg : Config F) (ps : List (Wire F)) (ty : SigId → Ty) (rank : BlkId → Nat)
    (h : cfg.Sealed ps ty rank) (hme : ∀ p ∈ ps, p.obj.Plain) (he : ∀ st, cfg.stepper = some st → st ∈ [euler, rk4, rkf45])
    (w : World F) (hw : w.New cfg ty) (hlog : w.log = []) (tPrev t0 minH maxH : F) (h0 : 0 < minH) (h1 : minH < maxH) (h2 : rnd minH = minH) (h3 : 16 * ρ ≤ minH) :
    ∃ (m0 : Machine F) (V : Vars) (x0 : List F), Call.exec cfg (.init t0) { w := w, s := { tPrev := tPrev } } = .ok () m0 ∧ V = m0.vars ∧
      (∀ s, s ∈ V.scalars ++ V.arrays ↔ ∃ p ∈ ps, p.obj.isState = true ∧ p.Gives s) ∧ (∀ s, V.size s = (ty s).size) ∧
      cfg.Stands V w.mem x0 ∧ Committed cfg V w.mem t0 x0 m0.w.shown m0.w.mem ∧
      ∀ ts : List F, (t0 :: ts).Pairwise (· < ·) → (∀ t ∈ t0 :: ts, rnd t = t ∧ 2 * |t| + maxH ≤ R) →
        (∃ m, RunsTo cfg minH maxH m0 ts m) ∧
        ∀ m, RunsTo cfg minH maxH m0 ts m → ∃ y, Passes cfg V ⟨m0.w.mem, t0, x0, m0.w.shown⟩ ts ⟨m.w.mem, (t0 :: ts).getLast (by simp), y, m.w.shown⟩ := by
  obtain ⟨m0, V, x0, q1, q2, q3, q4, q5, q6, q7⟩ := passage_of cfg ps ty rank h hme (fun _ => ordered_rounded hA) w hw hlog tPrev t0 minH maxH
  refine ⟨m0, V, x0, q1, q2, q3, q4, q5, q6, fun ts hts hR => q7 ts ?_⟩
  refine List.IsChain.imp_of_mem_imp (fun a b ha hb hab => ?_) hts.isChain
  obtain ⟨_, a2⟩ := hR a ha
  obtain ⟨b1, b2⟩ := hR b hb
  refine onward_rounded hA (C59.C59_complete cfg ps ty rank h) he (R := R) (ρ := ρ) ⟨hr, by linarith [abs_nonneg a], by linarith [abs_nonneg b], ?_, h2, b1, h3, h0, h1⟩ hab
  linarith [neg_abs_le a, le_abs_self b]

end

/-! ## IEEE 754 -/

section
variable [A : Arith ℚ]

/-- C70, `double`: with the rounding of IEEE 754 double precision - or any number `p` of binary digits - `run` returns for all increasing times and a closed
diagram passes through them, if the times are up to `R / 2` and the smallest step is at least `R * 2 ^ (4 - p)`. -/
theorem C70_binary (p : Nat) (hp : 0 < p) (hA : A = Arith.rounded (binary p)) (cfg : Config ℚ) (ps : List (Wire ℚ)) (ty : SigId → Ty) (rank : BlkId → Nat)
    (h : cfg.Sealed ps ty rank) (hme : ∀ p ∈ ps, p.obj.Plain) (he : ∀ st, cfg.stepper = some st → st ∈ [euler, rk4, rkf45])
    (w : World ℚ) (hw : w.New cfg ty) (hlog : w.log = []) (tPrev t0 minH maxH R : ℚ) (h0 : 0 < minH) (h1 : minH < maxH) (h2 : binary p minH = minH)
    (h3 : 16 * (R / 2 ^ p) ≤ minH) :
    ∃ (m0 : Machine ℚ) (V : Vars) (x0 : List ℚ), Call.exec cfg (.init t0) { w := w, s := { tPrev := tPrev } } = .ok () m0 ∧ V = m0.vars ∧
      (∀ s, s ∈ V.scalars ++ V.arrays ↔ ∃ p ∈ ps, p.obj.isState = true ∧ p.Gives s) ∧ (∀ s, V.size s = (ty s).size) ∧
      cfg.Stands V w.mem x0 ∧ Committed cfg V w.mem t0 x0 m0.w.shown m0.w.mem ∧
      ∀ ts : List ℚ, (t0 :: ts).Pairwise (· < ·) → (∀ t ∈ t0 :: ts, binary p t = t ∧ 2 * |t| + maxH ≤ R) →
        (∃ m, RunsTo cfg minH maxH m0 ts m) ∧
        ∀ m, RunsTo cfg minH maxH m0 ts m → ∃ y, Passes cfg V ⟨m0.w.mem, t0, x0, m0.w.shown⟩ ts ⟨m.w.mem, (t0 :: ts).getLast (by simp), y, m.w.shown⟩ :=
  C70_rounded hA (binary_rounding hp (le_refl (R / 2 ^ p))) cfg ps ty rank h hme he w hw hlog tPrev t0 minH maxH h0 h1 h2 h3

end

/-! ## The diagram `Demo` with `double` numbers -/

section
local instance (priority := high) onDouble : Arith ℚ := Arith.rounded double

/-- `Demo` with a method that computes with `double` numbers. -/
def cfg (st : Strategy) (stp : Stepper ℚ) : Config ℚ := { Demo.cfg st with stepper := some stp }

theorem demo_sealed (st : Strategy) (stp : Stepper ℚ) (hs : stp.Dim) :
    (cfg st stp).Sealed C58.demoWires (fun _ => .scalar) (fun b => if b = 1 then 2 else if b = 2 then 1 else 0) :=
  have h := C59.demo_sealed st
  { dbg := h.dbg, assembled := h.assembled, proper := h.proper, hash := h.hash, sane := h.sane, once := h.once, provided := h.provided, loops := h.loops,
    inputs := h.inputs, modelInput := h.modelInput, inputOnce := h.inputOnce, inputFree := h.inputFree, stepper := fun _ e => (by cases e; exact hs),
    stepped := fun _ => rfl, reuse := h.reuse }

theorem demo_new (st : Strategy) (stp : Stepper ℚ) : Demo.world.New (cfg st stp) (fun _ => .scalar) where
  fine := have h := C56.demo_fine strict st; { types := h.types, cells := h.cells, members := h.members }
  done := fun _ => rfl
  record := fun l hl hd => (C56.demo_noDelay st ⟨l, hl, hd⟩).elim

/-- The machine after `init(t0)`. -/
def begun (st : Strategy) (stp : Stepper ℚ) (t0 : ℚ) : Machine ℚ := stateOf (Call.exec (cfg st stp) (.init t0) { w := Demo.world, s := { tPrev := 0 } })

/-- All hypotheses of `C70_binary` hold for `Demo` with each of the methods, and `run` may be called with a smallest step of `2 ^ (-40)` for times up to 64.  The
numbers are rounded: 1/10 + 2/10 is not 3/10. -/
example (st : Strategy) (stp : Stepper ℚ) (hs : stp ∈ [euler, rk4, rkf45]) :
    (cfg st stp).Sealed C58.demoWires (fun _ => .scalar) (fun b => if b = 1 then 2 else if b = 2 then 1 else 0) ∧ (∀ p ∈ C58.demoWires, p.obj.Plain) ∧
    (∀ s, (cfg st stp).stepper = some s → s ∈ [euler, rk4, rkf45]) ∧ Demo.world.New (cfg st stp) (fun _ => .scalar) ∧ Demo.world.log = [] ∧
    double (1 / 2 ^ 40) = 1 / 2 ^ 40 ∧ 16 * ((129 : ℚ) / 2 ^ 53) ≤ 1 / 2 ^ 40 ∧ (0 :: [(1 : ℚ), 2, 64]).Pairwise (· < ·) ∧
    (∀ t ∈ 0 :: [(1 : ℚ), 2, 64], double t = t ∧ 2 * |t| + 1 ≤ 129) ∧ (Arith.lit (1 / 10) +. Arith.lit (2 / 10) : ℚ) ≠ Arith.lit (3 / 10) := by
  refine ⟨demo_sealed st stp ?_, by simp [C58.demoWires, Make.Plain], fun s e => by cases e; exact hs, demo_new st stp, rfl, by decide +kernel, by norm_num,
    by decide +kernel, by decide +kernel, by decide +kernel⟩
  simp only [List.mem_cons, List.not_mem_nil, or_false] at hs
  rcases hs with rfl | rfl | rfl
  · exact C26.dim_provided.1
  · exact C26.dim_provided.2.1
  · exact C26.dim_provided.2.2

/-- So `run` returns at 1, 2 and 64. -/
example (st : Strategy) : ∃ m, RunsTo (cfg st rkf45) (1 / 2 ^ 40) 1 (begun st rkf45 0) [1, 2, 64] m := by
  obtain ⟨m0, V, x0, q1, _, _, _, _, _, q⟩ := C70_binary (A := onDouble) 53 (by norm_num) rfl (cfg st rkf45) _ _ _ (demo_sealed st rkf45 C26.dim_provided.2.2)
    (by simp [C58.demoWires, Make.Plain]) (fun s e => by cases e; simp) Demo.world (demo_new st rkf45) rfl 0 0 (1 / 2 ^ 40) 1 129 (by norm_num) (by norm_num)
    (by decide +kernel) (by norm_num)
  have e : begun st rkf45 0 = m0 := by unfold begun; rw [q1]; rfl
  rw [e]
  exact (q [1, 2, 64] (by decide +kernel) (by decide +kernel)).1

/-- Times that follow each other. -/
example : (0 :: [(1 / 2 : ℚ), 1, 3]).IsChain Later := by
  have h : ∀ t u : ℚ, t < u → Later t u := fun t u h => ⟨decide_eq_true h, decide_eq_false (not_lt.2 h.le), decide_eq_false (ne_of_gt h), decide_eq_false (lt_irrefl u),
    decide_eq_true (le_refl _)⟩
  simp only [List.isChain_cons_cons, List.IsChain.singleton, and_true]
  exact ⟨h _ _ (by norm_num), h _ _ (by norm_num), h _ _ (by norm_num)⟩

/-- At the time `2 ^ 30` (34 years in seconds) steps between `2 ^ (-25)` and `2 ^ (-24)` (30 and 60 nanoseconds) are lost. -/
theorem lost (nh : ℚ) : (2 ^ 30 : ℚ) +. fmax (1 / 2 ^ 25) (fmin nh (1 / 2 ^ 24)) = 2 ^ 30 := by
  rw [rounded_fmax, rounded_fmin]
  have hm := binary_mono (p := 53) (by norm_num)
  obtain ⟨k1, k2⟩ := clamp_bounds (show (1 / 2 ^ 25 : ℚ) < 1 / 2 ^ 24 by norm_num) nh
  refine le_antisymm ?_ ?_
  · refine le_trans (hm (add_le_add_right k2 _)) (le_of_eq ?_)
    decide +kernel
  · refine le_trans (le_of_eq ?_) (hm (show (2 ^ 30 : ℚ) ≤ 2 ^ 30 + max (1 / 2 ^ 25) (min nh (1 / 2 ^ 24)) by
      linarith [show (0 : ℚ) < 1 / 2 ^ 25 by norm_num]))
    decide +kernel

/-- With Euler, `run` returns there, with one step. -/
example (st : Strategy) : (begun st euler (2 ^ 30)).s.initialized = true ∧ 0 < (begun st euler (2 ^ 30)).s.svSize ∧ (begun st euler (2 ^ 30)).s.tPrev = 2 ^ 30 ∧
    Later (2 ^ 30 : ℚ) (2 ^ 30 + 2) ∧ ∃ m, Call.exec (cfg st euler) (.run 2 (2 ^ 30 + 2) (1 / 2 ^ 25) (1 / 2 ^ 24)) (begun st euler (2 ^ 30)) = .ok () m := by
  refine ⟨by cases st <;> decide +kernel, by cases st <;> decide +kernel, by cases st <;> decide +kernel, ⟨by decide +kernel, by decide +kernel, by decide +kernel,
    by decide +kernel, by decide +kernel⟩, _, eq_of_returns (by cases st <;> decide +kernel)⟩

/-- The first pass of the loop: the step from `2 ^ 30` to `2 ^ 30 + 2` is rejected. -/
def rejects (st : Strategy) : Bool :=
  match beginStep (cfg st rkf45) (2 ^ 30) (begun st rkf45 (2 ^ 30)) with
  | .ok orig ma =>
    match (rkf45 (2 ^ 30) orig (2 ^ 30 + 2)).exec (minorCb (cfg st rkf45)) { ma with w := { ma.w with log := .trial (2 ^ 30) (2 ^ 30 + 2) :: ma.w.log } } with
    | .ok r _ => !(((2 ^ 30 + 2 : ℚ) -. 2 ^ 30) <=. r.2 || ((2 ^ 30 + 2 : ℚ) -. 2 ^ 30) <=. (1 / 2 ^ 25))
    | _ => false
  | _ => false

theorem rejects_eq (st : Strategy) : rejects st = true := by cases st <;> decide +kernel

/-- The condition of `C70_rounded` is needed: `Demo` with Rkf45, whose blocks are closed and typed, and which is simulated up to `2 ^ 30` seconds, is stuck when `run` is
called for `2 ^ 30 + 2` with a smallest step of `2 ^ (-25)` and a largest step of `2 ^ (-24)`, for any number of passes of the loop. -/
theorem C70_endless (st : Strategy) (fuel : Nat) :
    Call.exec (cfg st rkf45) (.init (2 ^ 30)) { w := Demo.world, s := { tPrev := 0 } } = .ok () (begun st rkf45 (2 ^ 30)) ∧
    ∃ m, Call.exec (cfg st rkf45) (.run fuel (2 ^ 30 + 2) (1 / 2 ^ 25) (1 / 2 ^ 24)) (begun st rkf45 (2 ^ 30)) = .error .fuel m := by
  have e0 : Call.exec (cfg st rkf45) (.init (2 ^ 30)) { w := Demo.world, s := { tPrev := 0 } } = .ok () (begun st rkf45 (2 ^ 30)) :=
    eq_of_returns (by cases st <;> decide +kernel)
  refine ⟨e0, ?_⟩
  have hwp := C59.C59_complete _ _ _ _ (demo_sealed st rkf45 C26.dim_provided.2.2)
  have hnd : ¬ (cfg st rkf45).Delays := C56.demo_noDelay st
  have hat : Attended (cfg st rkf45) (fun _ => .scalar) (begun st rkf45 (2 ^ 30)) := .call (.init (2 ^ 30)) (.new _ 0 (demo_new st rkf45)) rfl e0
  have hi : (begun st rkf45 (2 ^ 30)).s.initialized = true := by cases st <;> decide +kernel
  have hsv : 0 < (begun st rkf45 (2 ^ 30)).s.svSize := by cases st <;> decide +kernel
  have ht : (begun st rkf45 (2 ^ 30)).s.tPrev = 2 ^ 30 := by cases st <;> decide +kernel
  have hf : (Call.run fuel (2 ^ 30 + 2) (1 / 2 ^ 25) (1 / 2 ^ 24)).Fair (cfg st rkf45) (begun st rkf45 (2 ^ 30)) := by
    refine fun _ => ⟨fun hd => (hnd hd).elim, fun _ => ?_⟩
    rw [ht]
    exact ⟨by unfold Comparable; decide +kernel, by decide +kernel, by decide +kernel, by decide +kernel, fun h => (hnd h).elim⟩
  rcases C57.C57_no_failure _ _ _ hwp (fun hd => (hnd hd).elim) _ hat _ hf with ⟨m', hm, _⟩ | h
  swap
  · exact h
  exfalso
  have hr := rejects_eq st
  unfold rejects at hr
  generalize e1 : beginStep (cfg st rkf45) (2 ^ 30) (begun st rkf45 (2 ^ 30)) = b1 at hr
  cases b1 with
  | error _ _ => cases hr
  | ok orig ma =>
    simp only [] at hr
    generalize e2 : (rkf45 (2 ^ 30) orig (2 ^ 30 + 2)).exec (minorCb (cfg st rkf45))
      { ma with w := { ma.w with log := .trial (2 ^ 30) (2 ^ 30 + 2) :: ma.w.log } } = b2 at hr
    cases b2 with
    | error _ _ => cases hr
    | ok r mc =>
      simp only [Bool.not_eq_true'] at hr
      -- `run` got to its end, so the loop did
      have hm : run (cfg st rkf45) fuel (2 ^ 30 + 2) (1 / 2 ^ 25) (1 / 2 ^ 24) (begun st rkf45 (2 ^ 30)) = .ok () m' := hm
      rw [run_eq _ _ _ _ _ _ hi, if_pos hsv] at hm
      obtain ⟨_, m1, h1, _⟩ := (bind_ok _ _ _ _ _).1 hm
      unfold advance at h1
      obtain ⟨s, m2, h2, h3⟩ := (bind_ok _ _ _ _ _).1 h1
      cases h2
      rw [ht, if_neg (by decide +kernel), if_neg (by decide +kernel)] at h3
      obtain ⟨_, m3, h4, h5⟩ := (bind_ok _ _ _ _ _).1 h3
      obtain ⟨_, rfl⟩ := (debugVerify_ok _ _ _ _ _).1 h4
      obtain ⟨_, m3, h4, h5⟩ := (bind_ok _ _ _ _ _).1 h5
      obtain ⟨_, rfl⟩ := (debugVerify_ok _ _ _ _ _).1 h4
      obtain ⟨_, m3, h4, h5⟩ := (bind_ok _ _ _ _ _).1 h5
      obtain ⟨_, rfl⟩ := (debugVerify_ok _ _ _ _ _).1 h4
      cases fuel with
      | zero => cases h5
      | succ n =>
        rw [subLoop_reject (by decide +kernel) rfl e1 e2 (by rw [Bool.false_or]; exact hr)] at h5
        have := loop_trace (cfg := cfg st rkf45) (A := fun _ _ _ => True) (fun st hst t1 x t2 => any_answers _) (2 ^ 30 + 2) (1 / 2 ^ 25) (1 / 2 ^ 24) n (2 ^ 30)
          ((2 ^ 30) +. fmax (1 / 2 ^ 25) (fmin r.2 (1 / 2 ^ 24))) (r.2 <=. (1 / 2 ^ 25)) mc.w.log [] { mc with s := { mc.s with sv := some r.1 } } ⟨[], rfl, rfl⟩
        rw [h5] at this
        obtain ⟨es, q, _⟩ := this
        cases q.stuck (a := 2 ^ 30) (by decide +kernel) lost (by decide +kernel) rfl (lost _)

end
end Pooya.C70
