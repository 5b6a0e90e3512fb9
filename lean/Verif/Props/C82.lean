import Verif.Proof.Extended
import Verif.Props.C70

/-! # C82: simulation with overflow, infinities and not-a-numbers -/

namespace Pooya.C82

open Pooya C60 C69 C70

set_option linter.unusedSectionVars false

section
variable {K F : Type} [Arith K] [_root_.Field F] [LinearOrder F] [IsStrictOrderedRing F] [Archimedean F] {num : F → K} {rnd : F → F} {R ρ : F}
attribute [local instance] Arith.before

/-- Whatever the values of the signals are, the simulation can go on to all later times. -/
theorem onward_hosts {cfg : Config K} {ty : SigId → Ty} {rank : BlkId → Nat} {t u minH maxH : F} (hh : Hosts num rnd R) (h : cfg.WellPosed ty rank)
    (he : ∀ st, cfg.stepper = some st → st ∈ [euler, rk4, rkf45]) (hnd : ¬ cfg.Delays) (hf : Resolved rnd R ρ t u minH maxH) (h2 : 2 * (u - t) + minH ≤ R) (hu : t < u) :
    Onward cfg ty (num minH) (num maxH) (num t) (num u) := by
  have ho : cfg.Delays → OrderedArith K := fun hd => (hnd hd).elim
  have hans : Answering cfg HalvingK := fun st hst t1 x t2 => halvingK_provided st (he st hst) t1 x t2
  have hlt : (num t <. num u) = true := (hh.lt _ _).trans (decide_eq_true hu)
  have hback : (num u <. num t) = false := (hh.lt _ _).trans (decide_eq_false (not_lt.2 hu.le))
  have hne : (num u ==. num t) = false := (hh.eq _ _).trans (decide_eq_false (ne_of_gt hu))
  have hd : 0 < minH - ρ := by linarith [hf.coarse, hf.pos, hf.rho]
  have h0 : (Arith.lit 0 <. num minH) = true := by rw [hh.zero, hh.lt]; exact decide_eq_true hf.pos
  have hfair : ∀ (V : Vars) (n : Nat) (x : List K) (m : Machine K), Mark cfg ty V n (num t) x m → ∀ fuel, (Call.run fuel (num u) (num minH) (num maxH)).Fair cfg m := by
    intro V n x m hm fuel _
    rw [hm.time]
    exact ⟨fun _ => hlt, fun _ => ⟨.inr (.inr hlt), hback, h0, (hh.lt _ _).trans (decide_eq_true hf.lt), fun hd => (hnd hd).elim⟩⟩
  refine ⟨hlt, hne, hfair, fun V n x m hm fuel m' new hsv hx hlog => ?_, fun V n x m hm => ?_⟩
  · have hi := hm.ongoing.once.2
    constructor
    · obtain ⟨es, q1, new', q2, q3⟩ := (run_trace hans fuel (num u) (num minH) (num maxH) m hi hsv (by rw [hm.time]; exact hback) (by rw [hm.time]; exact hne)).1 m' hx
      have e : new = new' := List.append_cancel_right (hlog.symm.trans q2)
      subst e
      rw [hm.time] at q1
      obtain ⟨v, q4, q5⟩ := Hosts.tiles (fun x y hxy => (hh.lt x y).trans (decide_eq_true hxy)) hh hf h2 q1 rfl rfl (le_refl _) (fun e => ⟨e, le_refl _, hf.tRep⟩)
      unfold acceptsIn
      rw [q3]
      exact q5 rfl hu.le ▸ q4
    · intro st hst hs
      have hans' : Answering cfg (fun t1 t2 nh => nh = t2 -. t1) := fun st' hst' t1 x t2 => single_answers (by rw [hst] at hst'; cases hst'; exact hs) t1 x t2
      obtain ⟨es, q1, new', q2, q3⟩ := (run_trace hans' fuel (num u) (num minH) (num maxH) m hi hsv (by rw [hm.time]; exact hback) (by rw [hm.time]; exact hne)).1 m' hx
      have e : new = new' := List.append_cancel_right (hlog.symm.trans q2)
      subst e
      unfold acceptsIn
      rw [q3]
      rw [hm.time] at q1
      have hself : (num u <. num u) = false := (hh.lt _ _).trans (decide_eq_false (lt_irrefl u))
      cases q1 with
      | stop e => rw [hlt] at e; cases e
      | accept _ _ _ q =>
        cases q with
        | stop _ => rfl
        | accept e => rw [hself] at e; cases e
        | reject e => rw [hself] at e; cases e
      | reject _ e e' =>
        rw [e, hh.length hf (le_refl _) hu.le (le_refl _), hh.le, decide_eq_true (le_refl (rnd (u - t)))] at e'
        simp at e'
  · obtain ⟨N, hN⟩ := Archimedean.arch (u - t) hd
    rw [nsmul_eq_mul] at hN
    obtain ⟨B, hB⟩ := exists_pow_lt_of_lt_one (div_pos hf.pos (sub_pos.2 hu)) (show (3 / 4 : F) < 1 by norm_num)
    have hB' : (3 / 4) ^ B * (u - t) ≤ minH := ((lt_div_iff₀ (sub_pos.2 hu)).1 hB).le
    have hends := hh.ends hf h2 (hf.ends hB' N t (le_refl _) hN B u hf.tRep (le_refl _) hu hB' (.inr rfl)) (le_refl _) (fun e => ⟨e, le_refl _, hf.tRep⟩)
    have hen : (Call.run ((N - 1) * (B + 2) + (B + 2) + 1) (num u) (num minH) (num maxH)).Enough cfg m := fun _ => by
      rw [hm.time]
      exact ⟨_, _, hans, hends, by omega⟩
    have hr := runs_call h ho (attended_cared h ho hm.attended) _ (hfair V n x m hm ((N - 1) * (B + 2) + (B + 2) + 1))
    refine ⟨(N - 1) * (B + 2) + (B + 2) + 1, ?_⟩
    revert hr
    cases Call.exec cfg (.run ((N - 1) * (B + 2) + (B + 2) + 1) (num u) (num minH) (num maxH)) m with
    | error e m' => exact fun ⟨_, hn⟩ => (hn hen).elim
    | ok _ m' => exact fun _ => ⟨m', rfl⟩

/-- C82, for diagrams without `Delay` (with one it is false: `C82_delay_refuted`): in arithmetic with rounding and with values that are no numbers, if the smallest step
is at least sixteen times as large as rounding errors of the times and step sizes, `run` returns for all increasing times within a range, with each of the methods,
and a closed diagram passes through these times, with steps that follow each other and end exactly at each of the times - whatever the signals are: their
values may overflow, be infinite or not-a-numbers.  Nothing is assumed of what the operations do outside of the range. -/
theorem C82_partial (hh : Hosts num rnd R) (hr : Rounding rnd R ρ) (cfg : Config K) (ps : List (Wire K)) (ty : SigId → Ty) (rank : BlkId → Nat)
    (h : cfg.Sealed ps ty rank) (hme : ∀ p ∈ ps, p.obj.Plain) (hnd : ¬ cfg.Delays) (he : ∀ st, cfg.stepper = some st → st ∈ [euler, rk4, rkf45])
    (w : World K) (hw : w.New cfg ty) (hlog : w.log = []) (tPrev : K) (t0 minH maxH : F) (h0 : 0 < minH) (h1 : minH < maxH) (h2 : rnd minH = minH) (h3 : 16 * ρ ≤ minH) :
    ∃ (m0 : Machine K) (V : Vars) (x0 : List K), Call.exec cfg (.init (num t0)) { w := w, s := { tPrev := tPrev } } = .ok () m0 ∧ V = m0.vars ∧
      (∀ s, s ∈ V.scalars ++ V.arrays ↔ ∃ p ∈ ps, p.obj.isState = true ∧ p.Gives s) ∧ (∀ s, V.size s = (ty s).size) ∧
      cfg.Stands V w.mem x0 ∧ Committed cfg V w.mem (num t0) x0 m0.w.shown m0.w.mem ∧
      ∀ ts : List F, (t0 :: ts).Pairwise (· < ·) → (∀ t ∈ t0 :: ts, rnd t = t ∧ 4 * |t| + maxH ≤ R) →
        (∃ m, RunsTo cfg (num minH) (num maxH) m0 (ts.map num) m) ∧
        ∀ m, RunsTo cfg (num minH) (num maxH) m0 (ts.map num) m →
          ∃ y, Passes cfg V ⟨m0.w.mem, num t0, x0, m0.w.shown⟩ (ts.map num) ⟨m.w.mem, ((t0 :: ts).map num).getLast (by simp), y, m.w.shown⟩ := by
  obtain ⟨m0, V, x0, q1, q2, q3, q4, q5, q6, q7⟩ := passage_of cfg ps ty rank h hme (fun hd => (hnd hd).elim) w hw hlog tPrev (num t0) (num minH) (num maxH)
  refine ⟨m0, V, x0, q1, q2, q3, q4, q5, q6, fun ts hts hR => q7 (ts.map num) ?_⟩
  rw [← List.map_cons, List.isChain_map]
  refine List.IsChain.imp_of_mem_imp (fun a b ha hb hab => ?_) hts.isChain
  obtain ⟨_, a2⟩ := hR a ha
  obtain ⟨b1, b2⟩ := hR b hb
  have e1 := neg_abs_le a
  have e2 := le_abs_self b
  have e3 := abs_nonneg a
  have e4 := abs_nonneg b
  exact onward_hosts hh (C59.C59_complete cfg ps ty rank h) he hnd (R := R) (ρ := ρ) ⟨hr, by linarith, by linarith, by linarith, h2, b1, h3, h0, h1⟩ (by linarith) hab

end

/-! ## IEEE 754 -/

/-- The largest `double`. -/
def largest : ℚ := 2 ^ 1024 - 2 ^ 971

/-- The `double`s: rounding to 53 binary digits, results beyond `largest` are infinite. -/
@[reducible] def doubles : Arith (Ext ℚ) := Arith.extended double largest

section
variable [A : Arith (Ext ℚ)]

theorem hosts_doubles (hA : A = doubles) : Hosts Ext.num double (2 ^ 1000) := by
  subst hA
  have hr : Rounding double (2 ^ 1000) (2 ^ 1000 / 2 ^ 53) := binary_rounding (by norm_num) (le_refl _)
  refine hosts_extended hr (fun x hx => ?_) (by decide +kernel)
  have h1 := hr.near x hx
  have h2 := abs_sub_abs_le_abs_sub (double x) x
  have h3 : (2 : ℚ) ^ 1000 + 2 ^ 1000 / 2 ^ 53 ≤ largest := by decide +kernel
  generalize (2 : ℚ) ^ 1000 = b at *
  linarith

theorem lesser {R : ℚ} {num : ℚ → Ext ℚ} (h : Hosts num double (2 ^ 1000)) (hR : R ≤ 2 ^ 1000) : Hosts num double R :=
  ⟨fun x y e => h.add x y (e.trans hR), fun x y e => h.sub x y (e.trans hR), fun x y e => h.mul x y (e.trans hR), fun x y k e => h.div x y k (e.trans hR), h.lt, h.le, h.eq, h.zero, h.two⟩

attribute [local instance] Arith.before

/-- C82, `double`: whatever becomes of the signals, `run` returns for all increasing times up to `R / 4`, if the smallest step is at least `R * 2 ^ (-49)`. -/
theorem C82_double_partial (hA : A = doubles) (cfg : Config (Ext ℚ)) (ps : List (Wire (Ext ℚ))) (ty : SigId → Ty) (rank : BlkId → Nat)
    (h : cfg.Sealed ps ty rank) (hme : ∀ p ∈ ps, p.obj.Plain) (hnd : ¬ cfg.Delays) (he : ∀ st, cfg.stepper = some st → st ∈ [euler, rk4, rkf45])
    (w : World (Ext ℚ)) (hw : w.New cfg ty) (hlog : w.log = []) (tPrev : Ext ℚ) (t0 minH maxH R : ℚ) (hR : R ≤ 2 ^ 1000) (h0 : 0 < minH) (h1 : minH < maxH)
    (h2 : double minH = minH) (h3 : 16 * (R / 2 ^ 53) ≤ minH) :
    ∃ m0, Call.exec cfg (.init (.num t0)) { w := w, s := { tPrev := tPrev } } = .ok () m0 ∧
      ∀ ts : List ℚ, (t0 :: ts).Pairwise (· < ·) → (∀ t ∈ t0 :: ts, double t = t ∧ 4 * |t| + maxH ≤ R) →
        (∃ m, RunsTo cfg (.num minH) (.num maxH) m0 (ts.map .num) m) ∧
        ∀ m, RunsTo cfg (.num minH) (.num maxH) m0 (ts.map .num) m → ∃ x0 y, Passes cfg m0.vars ⟨m0.w.mem, .num t0, x0, m0.w.shown⟩ (ts.map .num)
          ⟨m.w.mem, ((t0 :: ts).map Ext.num).getLast (by simp), y, m.w.shown⟩ := by
  obtain ⟨m0, V, x0, q1, rfl, _, _, _, _, q⟩ := C82_partial (lesser (hosts_doubles hA) hR) (binary_rounding (p := 53) (by norm_num) (le_refl (R / 2 ^ 53))) cfg ps ty rank h hme hnd
    he w hw hlog tPrev t0 minH maxH h0 h1 h2 h3
  exact ⟨m0, q1, fun ts hts hR => ⟨(q ts hts hR).1, fun m hm => ⟨x0, (q ts hts hR).2 m hm⟩⟩⟩

end

section
local instance (priority := high) : Arith (Ext ℚ) := doubles

/-- C82, the step size control: an error estimate that is not a number counts like an estimate of zero.  The step is kept as it is, so it is accepted. -/
theorem C82_nan_accepted (h : Ext ℚ) : rkf45NewH h .nan = h := by
  unfold rkf45NewH
  have e : ((Arith.lit 0 : Ext ℚ) <. .nan) = false := by decide +kernel
  simp only [e, Bool.false_eq_true, if_false]
  rw [show ((Arith.lit 1 : Ext ℚ) <. Arith.lit (31640625/100000000)) = false by decide +kernel, show ((Arith.lit (50625/10000) : Ext ℚ) <. Arith.lit 1) = false by decide +kernel]
  simp

/-! ## Examples -/

def grow : Leaf (Ext ℚ) := { id := 1, links := [(0, 11#32)], kind := .integrator 0 0 }

/-- The integrator (signal 0) of itself. -/
def cfg (st : Strategy) (sp : Stepper (Ext ℚ)) : Config (Ext ℚ) where
  dbg := true
  model := .sub 100 [] [.leaf grow]
  deriv s := if s = 0 then some 0 else none
  inputs := none
  modelInput _ := ([], none)
  stepper := some sp
  strategy := st
  hash := id

def wires : List (Wire (Ext ℚ)) := [⟨1, .integrator .double, [C58.sc "in" 0], [C58.sc "out" 0]⟩]

/-- The initial value is `2 ^ 1020`. -/
def world : World (Ext ℚ) where
  sig _ := { ty := .scalar }
  mem _ := { value := .scalar (.num (2 ^ 1020)) }
  done _ := false
  log := []

theorem leaves_eq (st : Strategy) (sp : Stepper (Ext ℚ)) : (cfg st sp).model.leaves = [grow] := by simp [cfg, Block.leaves, leavesL]

theorem closed (st : Strategy) (sp : Stepper (Ext ℚ)) (hsp : sp ∈ [euler, rk4, rkf45]) : (cfg st sp).Sealed wires (fun _ => .scalar) (fun _ => 0) := by
  have hg : ∀ p ∈ wires, ∀ i, p.Gives i → p.id = 1 ∧ i = 0 := by
    intro p hp i hi
    obtain ⟨k, t, hi⟩ := hi
    simp only [wires, List.mem_cons, List.not_mem_nil, or_false] at hp
    subst hp
    simp only [C58.sc, List.mem_cons, List.not_mem_nil, or_false] at hi
    cases hi; exact ⟨rfl, rfl⟩
  have ht : ∀ p ∈ wires, ∀ i, p.Takes i → i = 0 := by
    intro p hp i hi
    obtain ⟨k, t, hi⟩ := hi
    simp only [wires, List.mem_cons, List.not_mem_nil, or_false] at hp
    subst hp
    simp only [C58.sc, List.mem_cons, List.not_mem_nil, or_false] at hi
    cases hi; rfl
  have hk : ∀ t, (cfg st sp).inputKeys t = [] := fun t => rfl
  exact {
    dbg := rfl
    assembled := ⟨[grow], by with_unfolding_all rfl, by rw [leaves_eq]⟩
    proper := by
      have : (cfg st sp).model.ids = [100, 1] := by simp [cfg, grow, Block.ids, Block.all, allL, Block.id]
      unfold Block.Proper
      rw [this]
      decide
    hash := fun _ => .refl _
    sane := by
      intro p hp
      simp only [wires, List.mem_cons, List.not_mem_nil, or_false] at hp
      subst hp
      refine ⟨fun q hq i t e => ?_, fun q hq i t e => ?_, .inl ⟨1, Nat.one_pos, trivial, trivial, fun q hq i m e => ?_, fun q hq i m e => ?_⟩⟩ <;>
        simp only [C58.sc, List.mem_cons, List.not_mem_nil, or_false] at hq
      · subst hq; cases e; rfl
      · subst hq; cases e; rfl
      · subst hq; cases e
      · subst hq; cases e
    once := fun p hp q hq i h1 h2 => by rw [(hg p hp i h1).1, (hg q hq i h2).1]
    provided := fun p hp i hi => .inr ⟨_, .head _, by rw [ht p hp i hi]; exact ⟨str "out", .scalar, .head _⟩⟩
    loops := fun p hp i hn q hq hgi => by
      simp only [wires, List.mem_cons, List.not_mem_nil, or_false] at hq
      subst hq
      exact .inl rfl
    inputs := fun f e => by cases e
    modelInput := ⟨fun t => ⟨fun p hp => (by simp only [cfg, List.not_mem_nil] at hp), fun e h => (by cases h)⟩, fun _ => rfl⟩
    inputOnce := fun t => by rw [hk]; decide
    inputFree := fun t s hs => by
      rw [hk] at hs
      cases hs
    stepper := fun st' e => by cases e; simp only [List.mem_cons, List.not_mem_nil, or_false] at hsp; rcases hsp with rfl | rfl | rfl <;> first | exact C26.dim_provided.1 | exact C26.dim_provided.2.1 | exact C26.dim_provided.2.2
    stepped := fun _ => rfl
    reuse := fun _ => ⟨_, .head _, rfl⟩ }

theorem new (st : Strategy) (sp : Stepper (Ext ℚ)) : world.New (cfg st sp) (fun _ => .scalar) where
  fine := {
    types := fun _ => rfl
    cells := fun s => ⟨fun e => (by cases e), fun v e => (by cases e)⟩
    members := by
      intro l hl
      rw [leaves_eq] at hl
      simp only [List.mem_cons, List.not_mem_nil, or_false] at hl
      subst hl
      exact ⟨rfl, fun _ => rfl⟩ }
  done := fun _ => rfl
  record := fun _ _ _ => rfl

theorem noDelay (st : Strategy) (sp : Stepper (Ext ℚ)) : ¬ (cfg st sp).Delays := by
  rintro ⟨l, hl, e⟩
  rw [leaves_eq, List.mem_singleton] at hl
  subst hl
  cases e

/-- The machine after `init(0)` and the calls of `run` for the times. -/
def at_ (st : Strategy) (sp : Stepper (Ext ℚ)) : List ℚ → Machine (Ext ℚ)
  | [] => stateOf (Call.exec (cfg st sp) (.init (.num 0)) { w := world, s := { tPrev := .num 0 } })
  | t :: ts => stateOf (Call.exec (cfg st sp) (.run 9 (.num t) (.num (1/1024)) (.num 1)) (at_ st sp ts))

theorem over_k1 (st : Strategy) : stepsIn (at_ st rkf45 [4]).w.log = [.trial (.num 0) (.num 4), .accept (.num 0) (.num 4)] := by cases st <;> decide +kernel
theorem over_k2 (st : Strategy) : (at_ st rkf45 [4]).w.shown 0 = some (.scalar .nan) := by cases st <;> decide +kernel
theorem over_k3 (st : Strategy) : (at_ st rkf45 [8, 4]).w.shown 0 = some (.scalar .nan) := by cases st <;> decide +kernel
theorem over_k4 (st : Strategy) : (at_ st rkf45 [8, 4]).s.tPrev = .num 8 := by cases st <;> decide +kernel
theorem over_k5 (st : Strategy) : (at_ st euler [1]).w.shown 0 = some (.scalar (.num (2 ^ 1021))) := by cases st <;> decide +kernel

/-- C82, what is false of the code: with Rkf45, the step from 0 to 4 overflows and its error estimate is not a number; it is accepted, although steps can be as
small as 1/1024, and the state is not a number at 4, nor at 8.  (With a step of Euler it is a number at 1.) -/
theorem C82_rkf45_refuted (st : Strategy) : stepsIn (at_ st rkf45 [4]).w.log = [.trial (.num 0) (.num 4), .accept (.num 0) (.num 4)] ∧
    (at_ st rkf45 [4]).w.shown 0 = some (.scalar .nan) ∧ (at_ st rkf45 [8, 4]).w.shown 0 = some (.scalar .nan) ∧ (at_ st rkf45 [8, 4]).s.tPrev = .num 8 ∧
    (at_ st euler [1]).w.shown 0 = some (.scalar (.num (2 ^ 1021))) := by
  exact ⟨over_k1 st, over_k2 st, over_k3 st, over_k4 st, over_k5 st⟩

/-- All hypotheses of `C82_double_partial` hold for this diagram, whose state is not a number soon, with each of the methods; so `run` returns for 4, 8 and 16. -/
example (st : Strategy) (sp : Stepper (Ext ℚ)) (hsp : sp ∈ [euler, rk4, rkf45]) : (at_ st sp []).w.shown 0 = some (.scalar (.num (2 ^ 1020))) ∧
    ∃ m, RunsTo (cfg st sp) (.num (1/1024)) (.num 1) (at_ st sp []) [.num 4, .num 8, .num 16] m := by
  obtain ⟨m0, q1, q⟩ := C82_double_partial rfl (cfg st sp) wires _ _ (closed st sp hsp) (by simp [wires, Make.Plain]) (noDelay st sp) (fun s e => by cases e; exact hsp) world
    (new st sp) rfl (.num 0) 0 (1/1024) 1 65 (by decide +kernel) (by norm_num) (by norm_num) (by decide +kernel) (by norm_num)
  have e : at_ st sp [] = m0 := by unfold at_; rw [q1]; rfl
  refine ⟨?_, e ▸ (q [4, 8, 16] (by decide +kernel) (by decide +kernel)).1⟩
  simp only [List.mem_cons, List.not_mem_nil, or_false] at hsp
  rcases hsp with rfl | rfl | rfl <;> cases st <;> decide +kernel

/-! ### A `Delay` -/

def late : Leaf (Ext ℚ) := { id := 1, links := [(0, Demo.rq), (1, Demo.rq), (2, Demo.rq), (3, Demo.ot)], kind := .delay (.num 10) 0 1 2 3 }

/-- The input 1 (signal 0) is delayed by the signal 1, which is not a number. -/
def dcfg (st : Strategy) : Config (Ext ℚ) where
  dbg := true
  model := .sub 100 [] [.leaf late]
  deriv _ := none
  inputs := none
  modelInput _ := ([(1, .scalar .nan), (2, .scalar (.num 7)), (0, .scalar (.num 1))], none)
  stepper := none
  strategy := st
  hash := id

def dwires : List (Wire (Ext ℚ)) := [⟨1, .delay .double (.num 10), [C58.sc "in" 0, C58.sc "delay" 1, C58.sc "initial" 2], [C58.sc "out" 3]⟩]

theorem dleaves (st : Strategy) : (dcfg st).model.leaves = [late] := by simp [dcfg, Block.leaves, leavesL]

theorem dclosed (st : Strategy) (hst : st ≠ .reuse) : (dcfg st).Sealed dwires (fun _ => .scalar) (fun _ => 0) := by
  have hg : ∀ p ∈ dwires, ∀ i, p.Gives i → p.id = 1 ∧ i = 3 := by
    intro p hp i hi
    obtain ⟨k, t, hi⟩ := hi
    simp only [dwires, List.mem_cons, List.not_mem_nil, or_false] at hp
    subst hp
    simp only [C58.sc, List.mem_cons, List.not_mem_nil, or_false] at hi
    cases hi; exact ⟨rfl, rfl⟩
  have ht : ∀ p ∈ dwires, ∀ i, p.Takes i → i ∈ [1, 2, 0] := by
    intro p hp i hi
    obtain ⟨k, t, hi⟩ := hi
    simp only [dwires, List.mem_cons, List.not_mem_nil, or_false] at hp
    subst hp
    simp only [C58.sc, List.mem_cons, List.not_mem_nil, or_false] at hi
    rcases hi with hi | hi | hi <;> cases hi <;> decide
  have hk : ∀ t, (dcfg st).inputKeys t = [1, 2, 0] := fun t => rfl
  exact {
    dbg := rfl
    assembled := ⟨[late], by with_unfolding_all rfl, by rw [dleaves]⟩
    proper := by
      have : (dcfg st).model.ids = [100, 1] := by simp [dcfg, late, Block.ids, Block.all, allL, Block.id]
      unfold Block.Proper
      rw [this]
      decide
    hash := fun _ => .refl _
    sane := by
      intro p hp
      simp only [dwires, List.mem_cons, List.not_mem_nil, or_false] at hp
      subst hp
      refine ⟨fun q hq i t e => ?_, fun q hq i t e => ?_, .inl ⟨1, Nat.one_pos, trivial, trivial, fun q hq i m e => ?_, fun q hq i m e => ?_⟩⟩ <;>
        simp only [C58.sc, List.mem_cons, List.not_mem_nil, or_false] at hq
      · rcases hq with rfl | rfl | rfl <;> cases e <;> rfl
      · subst hq; cases e; rfl
      · rcases hq with rfl | rfl | rfl <;> cases e
      · subst hq; cases e
    once := fun p hp q hq i h1 h2 => by rw [(hg p hp i h1).1, (hg q hq i h2).1]
    provided := fun p hp i hi => .inl fun t => by rw [hk]; exact ht p hp i hi
    loops := fun p hp i hn q hq hgi => by
      have k1 := (hg q hq i hgi).2
      have k2 : i ∈ [1, 2, 0] := by
        refine ht p hp i ?_
        simp only [dwires, List.mem_cons, List.not_mem_nil, or_false] at hp
        subst hp
        exact hn
      subst k1
      exact absurd k2 (by decide)
    inputs := fun f e => by cases e
    modelInput := ⟨fun t => ⟨fun p hp => by
      simp only [dcfg, List.mem_cons, List.not_mem_nil, or_false] at hp
      rcases hp with rfl | rfl | rfl <;> exact ⟨rfl, fun _ => rfl⟩, fun e h => (by cases h)⟩, fun _ => rfl⟩
    inputOnce := fun t => by rw [hk]; decide
    inputFree := fun t s hs => by
      rw [hk] at hs
      refine ⟨⟨_, .head _, ?_⟩, fun p hp hgi => ?_⟩
      · simp only [List.mem_cons, List.not_mem_nil, or_false] at hs
        rcases hs with rfl | rfl | rfl
        · exact ⟨str "delay", .scalar, .tail _ (.head _)⟩
        · exact ⟨str "initial", .scalar, .tail _ (.tail _ (.head _))⟩
        · exact ⟨str "in", .scalar, .head _⟩
      · have := (hg p hp s hgi).2
        subst this
        exact absurd hs (by decide)
    stepper := fun st e => by cases e
    stepped := by
      rintro ⟨p, hp, e⟩
      simp only [dwires, List.mem_cons, List.not_mem_nil, or_false] at hp
      subst hp
      cases e
    reuse := fun e => (hst e).elim }

theorem dnew (st : Strategy) : world.New (dcfg st) (fun _ => .scalar) where
  fine := {
    types := fun _ => rfl
    cells := fun _ => ⟨fun e => (by cases e), fun v e => (by cases e)⟩
    members := by
      intro l hl
      rw [dleaves] at hl
      simp only [List.mem_cons, List.not_mem_nil, or_false] at hl
      subst hl
      exact ⟨fun v hv => (by cases hv), rfl⟩ }
  done := fun _ => rfl
  record := fun _ _ _ => rfl

def outOfBounds {σ : Type} : EStateM.Result Err σ Unit → Bool
  | .error (.ub .outOfBounds) _ => true
  | _ => false

theorem of_outOfBounds {σ : Type} {r : EStateM.Result Err σ Unit} (h : outOfBounds r = true) : ∃ m, r = .error (.ub .outOfBounds) m := by
  unfold outOfBounds at h
  split at h
  · exact ⟨_, rfl⟩
  · cases h

/-- C82 is false with a `Delay`: a closed diagram - all hypotheses of `C82_double_partial` but one hold for it - in which the delay is not a number.  `init` returns, the next
`run` reads beyond the end of the record. -/
theorem C82_delay_refuted (st : Strategy) (hst : st ≠ .reuse) : (dcfg st).Sealed dwires (fun _ => .scalar) (fun _ => 0) ∧ (∀ p ∈ dwires, p.obj.Plain) ∧
    (∀ s, (dcfg st).stepper = some s → s ∈ [euler, rk4, rkf45]) ∧ world.New (dcfg st) (fun _ => .scalar) ∧ world.log = [] ∧
    ∃ m0, Call.exec (dcfg st) (.init (.num 0)) { w := world, s := { tPrev := .num 0 } } = .ok () m0 ∧
      ∃ m, Call.exec (dcfg st) (.run 9 (.num 1) (.num (1/1024)) (.num 1)) m0 = .error (.ub .outOfBounds) m := by
  refine ⟨dclosed st hst, by simp [dwires, Make.Plain], fun s e => (by cases e), dnew st, rfl, _, eq_of_returns ?_, of_outOfBounds ?_⟩ <;>
    (cases st <;> first | exact (hst rfl).elim | decide +kernel)

end

end Pooya.C82
