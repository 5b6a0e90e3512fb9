import Verif.Spec.Meet
import Verif.Props.C79
import Verif.Props.C82

/-! # C84: resets in floating-point arithmetic -/

namespace Pooya.C84

open Pooya C60 C69 C70 C79

set_option linter.unusedSectionVars false

section
variable {K : Type} [Arith K]

variable {cfg : Config K} {ps : List (Wire K)} {ty : SigId → Ty} {rank : BlkId → Nat} {minH maxH t u : K} {m m' : Machine K}

/-- The integrators hold a state vector. -/
theorem stands_of (h : cfg.WellPosed ty rank) {p : K → Prop} (hf : Fit cfg ty p m) : ∃ x, cfg.Stands m.vars m.w.mem x := by
  have ho := owned_of h
  have key : ∀ s ∈ m.vars.scalars ++ m.vars.arrays, ∃ v, (cfg.model.leaves.find? (fun l => decide (l.state = some s))).map (fun l => (m.w.mem l.id).value) = some v ∧
      v.hasTag (ty s) = true ∧ v.sizeOk (ty s) = true := by
    intro s hs
    obtain ⟨q1, q2⟩ := state_sig hf.call.layout ho.hash hs
    obtain ⟨l, hl, e⟩ := ho.integrated s q1 q2
    rw [ho.find hl e]
    have hm := hf.world.members l hl
    unfold Leaf.Members at hm
    rcases state_cases e with ⟨i, hk⟩ | ⟨i, tr, hk⟩ <;> rw [hk] at hm <;> exact ⟨_, rfl, hm.1, hm.2 rfl⟩
  refine ⟨_, (Within.packed_iff (fun _ _ => rfl)).2 ⟨fun s hs => ?_, fun s hs => ?_, rfl⟩⟩
  · obtain ⟨v, hv, f1, f2⟩ := key s (List.mem_append_left _ hs)
    have hs : s ∈ m.s.scalarStates := hs
    rw [hf.call.layout.scalarStates, (ho.hash _).mem_iff] at hs
    simp only [scalarStatesOf, List.mem_filter, Bool.and_eq_true, decide_eq_true_eq] at hs
    rw [← hf.world.types, hs.2.1] at f1
    rw [hv]
    cases v <;> simp_all [Val.hasTag]
  · obtain ⟨v, hv, f1, f2⟩ := key s (List.mem_append_right _ hs)
    have hs : s ∈ m.s.arrayStates := hs
    rw [hf.call.layout.arrayStates, (ho.hash _).mem_iff] at hs
    simp only [arrayStatesOf, List.mem_filter, Bool.and_eq_true] at hs
    have ha := hs.2.1
    rw [← hf.world.types] at f1 f2
    rw [hv]
    show ∃ w, some v = some (.array w) ∧ w.length = (m.w.sig s).ty.size
    cases hyy : (m.w.sig s).ty <;> rw [hyy] at ha f1 f2 <;> first | (cases ha; done) | skip
    cases v <;> simp_all [Val.hasTag, Val.sizeOk, Ty.size]

theorem mark_of (h : cfg.WellPosed ty rank) (hord : cfg.Delays → OrderedArith K) (ham : Attended cfg ty m) (hm : Ongoing cfg m) :
    ∃ x, Mark cfg ty m.vars m.s.nState m.s.tPrev x m := by
  obtain ⟨x, hx⟩ := stands_of h ((attended_cared h hord ham).fit hm.once.2)
  exact ⟨x, ham, hm, rfl, rfl, rfl, hx⟩

/-- Calls of `run` for times to which the simulation can go on. -/
theorem runs_meet [LT K] (h : cfg.WellPosed ty rank) (hord : cfg.Delays → OrderedArith K) {st : Stepper K} (hst : cfg.stepper = some st)
    (hc : ∀ l ∈ cfg.model.leaves, l.Tame) (ts : List K) : ∀ {m : Machine K},
    Attended cfg ty m → Ongoing cfg m → 0 < m.s.nState → (∀ l ∈ cfg.model.leaves, ∀ o, l.state = some o → o ∈ m.vars.scalars ++ m.vars.arrays) →
    (m.s.tPrev :: ts).IsChain (Onward cfg ty minH maxH) →
      (∃ m', RunsTo cfg minH maxH m ts m') ∧ ∀ m', RunsTo cfg minH maxH m ts m' → ∃ new, m'.w.log = new ++ m.w.log ∧
        ResetsTo cfg m.vars st minH maxH m.w.mem m.w.shown m.s.tPrev ts (stepsIn new) m'.w.mem m'.w.shown ∧ Meets m.s.tPrev ts (acceptsIn new) ∧ (st ∈ [euler, rk4] → acceptsIn new = (m.s.tPrev :: ts).zip ts) := by
  induction ts with
  | nil =>
    intro m _ _ _ _ _
    refine ⟨⟨m, .nil⟩, fun m' hr => ?_⟩
    cases hr
    exact ⟨[], rfl, .nil, .nil, fun _ => rfl⟩
  | cons u us ih =>
    intro m ham hm h0 hh hts
    obtain ⟨hu, hus⟩ := List.isChain_cons_cons.1 hts
    obtain ⟨x, hmk⟩ := mark_of h hord ham hm
    have next : ∀ {N : Nat} {m1 : Machine K}, Call.exec cfg (.run N u minH maxH) m = .ok () m1 → Attended cfg ty m1 ∧ Ongoing cfg m1 ∧ 0 < m1.s.nState ∧ m1.vars = m.vars ∧ m1.s.tPrev = u := by
      intro N m1 g
      have hr := runs_call h hord (attended_cared h hord ham) _ (hu.fair _ _ _ _ hmk N)
      rw [g] at hr
      exact ⟨.call _ ham (hu.fair _ _ _ _ hmk N) g, .run _ _ _ _ hm g, by rw [(fixed_run hm.once.2 g).nState]; exact h0, vars_fixed (fixed_run hm.once.2 g), hr.2.2.1⟩
    constructor
    · obtain ⟨N, m1, g⟩ := hu.returns _ _ _ _ hmk
      obtain ⟨a1, a2, a3, av, a4⟩ := next g
      obtain ⟨⟨m', g'⟩, -⟩ := ih a1 a2 a3 (by rw [av]; exact hh) (by rw [a4]; exact hus)
      exact ⟨m', .cons N g g'⟩
    · intro m' hr
      cases hr with
      | @cons _ m1 _ _ _ fuel g g' =>
        obtain ⟨a1, a2, a3, av, a4⟩ := next g
        have hdim := h.typed.stepper st hst
        have hr := hm.ride (owned_of h) h.typed.dbg (fun st' e => by rw [hst] at e; cases e; exact hdim) hc hh
        have hsv : 0 < m.s.svSize := by rw [hr.ready.sized.1]; exact h0
        obtain ⟨-, n1, y, e1, e2⟩ := C79_run cfg h.typed.dbg (owned_of h) st hst hdim hc m m1 hm hh h0 fuel u minH maxH hu.lt hu.ne g
        obtain ⟨b1, b2⟩ := hu.apart _ _ _ _ hmk fuel m1 n1 hsv g e1
        obtain ⟨n2, e3, e4, c1, c2⟩ := (ih a1 a2 a3 (by rw [av]; exact hh) (by rw [a4]; exact hus)).2 m' g'
        rw [a4] at c1 c2 e4
        rw [av] at e4
        have ea : acceptsIn (n2 ++ n1) = acceptsIn n1 ++ acceptsIn n2 := by unfold acceptsIn; rw [stepsIn_append, List.filterMap_append]
        refine ⟨n2 ++ n1, by rw [e3, e1, List.append_assoc], ?_, ?_, fun hs => ?_⟩
        · rw [stepsIn_append]
          exact .cons e2 e4
        · rw [ea]
          exact .cons b1 c1
        · rw [ea, b2 st hst hs, c2 hs]
          rfl

/-- What is proved of a simulation: `init` returns, calls of `run` for the times return, and what results is a course with resets from the members after `init`, its
accepted steps meeting each of the times.  With `Euler` and `Rk4` there is one step from each time to the next. -/
def Follows [LT K] (cfg : Config K) (ps : List (Wire K)) (ty : SigId → Ty) (st : Stepper K) (w : World K) (tPrev t0 minH maxH : K) (Times : List K → Prop) : Prop :=
  ∃ (m0 : Machine K) (V : Vars), Call.exec cfg (.init t0) { w := w, s := { tPrev := tPrev } } = .ok () m0 ∧ V = m0.vars ∧
    (∀ s, s ∈ V.scalars ++ V.arrays ↔ ∃ p ∈ ps, p.obj.isState = true ∧ p.Gives s) ∧ (∀ s, V.size s = (ty s).size) ∧
    ∀ ts : List K, Times ts → (∃ m, RunsTo cfg minH maxH m0 ts m) ∧
      ∀ m, RunsTo cfg minH maxH m0 ts m → ∃ new, m.w.log = new ++ m0.w.log ∧
        ResetsTo cfg V st minH maxH m0.w.mem m0.w.shown t0 ts (stepsIn new) m.w.mem m.w.shown ∧ Meets t0 ts (acceptsIn new) ∧
        (st ∈ [euler, rk4] → acceptsIn new = (t0 :: ts).zip ts)

theorem follows_of [LT K] (h : cfg.Sealed ps ty rank) (hord : cfg.Delays → OrderedArith K) (hi : ∃ p ∈ ps, p.obj.isState = true) {st : Stepper K} (hst : cfg.stepper = some st)
    {w : World K} (hw : w.New cfg ty) (hlog : w.log = []) (tPrev t0 minH maxH : K) {Times : List K → Prop}
    (hT : ∀ ts, Times ts → (t0 :: ts).IsChain (Onward cfg ty minH maxH)) : Follows cfg ps ty st w tPrev t0 minH maxH Times := by
  have hp := C59.C59_complete cfg ps ty rank h
  obtain ⟨m0, g1, g2⟩ := C57.C57_init cfg ty rank hp hord _ (.new w tPrev hw) rfl t0
  have hat : Attended cfg ty m0 := .call (.init t0) (.new w tPrev hw) rfl g1
  have hon : Ongoing cfg m0 := .init w tPrev t0 hw.done hlog g1
  obtain ⟨-, hty, hn, hV, hh⟩ := attended_layout h hord hi hat g2.init
  have ht : m0.s.tPrev = t0 := g2.time
  refine ⟨m0, m0.vars, g1, rfl, hV, fun s => by show (m0.w.sig s).ty.size = _; rw [hty], fun ts hts => ?_⟩
  have := runs_meet hp hord hst (tame_leaf h) ts hat hon hn hh (minH := minH) (maxH := maxH) (by rw [ht]; exact hT ts hts)
  rw [ht] at this
  exact this

attribute [local instance] Arith.before

/-- C84, `Euler` and `Rk4`, in any arithmetic: a closed diagram of blocks of all provided classes with at least one integrator, with or without trigger, follows its
equations and resets at all times that follow each other, with one step from each to the next.  A diagram with a `Delay` needs comparisons that are total. -/
theorem C84_single (cfg : Config K) (ps : List (Wire K)) (ty : SigId → Ty) (rank : BlkId → Nat) (h : cfg.Sealed ps ty rank) (hi : ∃ p ∈ ps, p.obj.isState = true)
    (st : Stepper K) (hst : cfg.stepper = some st) (he : st ∈ [euler, rk4]) (hord : cfg.Delays → OrderedArith K)
    (w : World K) (hw : w.New cfg ty) (hlog : w.log = []) (tPrev t0 minH maxH : K) (h0 : (Arith.lit 0 <. minH) = true) (h1 : (minH <. maxH) = true) :
    Follows cfg ps ty st w tPrev t0 minH maxH (fun ts => (t0 :: ts).IsChain Later) :=
  follows_of h hord hi hst hw hlog tPrev t0 minH maxH fun _ hts =>
    hts.imp fun _ _ hab => onward_single (C59.C59_complete cfg ps ty rank h) hord (fun st' e => by rw [hst] at e; cases e; exact he) h0 h1 hab

end

section
variable {F : Type} [_root_.Field F] [LinearOrder F] [IsStrictOrderedRing F] [Archimedean F] [A : Arith F] {rnd : F → F} {R ρ : F}

/-- C84, all methods, with rounding: if the smallest step is at least sixteen times as large as rounding errors of the times and step sizes, a closed diagram with
integrators, with or without trigger, follows its equations and resets at all increasing times, each operation being rounded. -/
theorem C84_rounded (hA : A = Arith.rounded rnd) (hr : Rounding rnd R ρ) (cfg : Config F) (ps : List (Wire F)) (ty : SigId → Ty) (rank : BlkId → Nat)
    (h : cfg.Sealed ps ty rank) (hi : ∃ p ∈ ps, p.obj.isState = true) (st : Stepper F) (hst : cfg.stepper = some st) (he : st ∈ [euler, rk4, rkf45])
    (w : World F) (hw : w.New cfg ty) (hlog : w.log = []) (tPrev t0 minH maxH : F) (h0 : 0 < minH) (h1 : minH < maxH) (h2 : rnd minH = minH) (h3 : 16 * ρ ≤ minH) :
    Follows cfg ps ty st w tPrev t0 minH maxH (fun ts => (t0 :: ts).Pairwise (· < ·) ∧ ∀ t ∈ t0 :: ts, rnd t = t ∧ 2 * |t| + maxH ≤ R) := by
  refine follows_of h (fun _ => ordered_rounded hA) hi hst hw hlog tPrev t0 minH maxH fun ts ⟨hts, hR⟩ => ?_
  refine List.IsChain.imp_of_mem_imp (fun a b ha hb hab => ?_) hts.isChain
  obtain ⟨_, a2⟩ := hR a ha
  obtain ⟨b1, b2⟩ := hR b hb
  refine onward_rounded hA (C59.C59_complete cfg ps ty rank h) (fun st' e => by rw [hst] at e; cases e; exact he) (R := R) (ρ := ρ)
    ⟨hr, by linarith [abs_nonneg a], by linarith [abs_nonneg b], ?_, h2, b1, h3, h0, h1⟩ hab
  linarith [neg_abs_le a, le_abs_self b]

end

section
variable {K F : Type} [Arith K] [_root_.Field F] [LinearOrder F] [IsStrictOrderedRing F] [Archimedean F] {num : F → K} {rnd : F → F} {R ρ : F}
attribute [local instance] Arith.before

/-- C84, with overflow, infinities and not-a-numbers, for diagrams without `Delay` (with one it is false: `C82_delay_refuted`): the same, whatever the values of the signals
are.  Nothing is assumed of what the operations do outside of the range of the times. -/
theorem C84_hosts_partial (hh : Hosts num rnd R) (hr : Rounding rnd R ρ) (cfg : Config K) (ps : List (Wire K)) (ty : SigId → Ty) (rank : BlkId → Nat)
    (h : cfg.Sealed ps ty rank) (hi : ∃ p ∈ ps, p.obj.isState = true) (hnd : ¬ cfg.Delays) (st : Stepper K) (hst : cfg.stepper = some st) (he : st ∈ [euler, rk4, rkf45])
    (w : World K) (hw : w.New cfg ty) (hlog : w.log = []) (tPrev : K) (t0 minH maxH : F) (h0 : 0 < minH) (h1 : minH < maxH) (h2 : rnd minH = minH) (h3 : 16 * ρ ≤ minH) :
    Follows cfg ps ty st w tPrev (num t0) (num minH) (num maxH)
      (fun us => ∃ ts : List F, us = ts.map num ∧ (t0 :: ts).Pairwise (· < ·) ∧ ∀ t ∈ t0 :: ts, rnd t = t ∧ 4 * |t| + maxH ≤ R) := by
  refine follows_of h (fun hd => (hnd hd).elim) hi hst hw hlog tPrev (num t0) (num minH) (num maxH) ?_
  rintro _ ⟨ts, rfl, hts, hR⟩
  rw [← List.map_cons, List.isChain_map]
  refine List.IsChain.imp_of_mem_imp (fun a b ha hb hab => ?_) hts.isChain
  obtain ⟨_, a2⟩ := hR a ha
  obtain ⟨b1, b2⟩ := hR b hb
  have e1 := neg_abs_le a
  have e2 := le_abs_self b
  have e3 := abs_nonneg a
  have e4 := abs_nonneg b
  exact C82.onward_hosts hh (C59.C59_complete cfg ps ty rank h) (fun st' e => by rw [hst] at e; cases e; exact he) hnd (R := R) (ρ := ρ)
    ⟨hr, by linarith, by linarith, by linarith, h2, b1, h3, h0, h1⟩ (by linarith) hab

end

/-! ## IEEE 754 -/

section
variable [A : Arith ℚ]

/-- C84, `double`: with the rounding of IEEE 754 double precision - or any number `p` of binary digits. -/
theorem C84_binary (p : Nat) (hp : 0 < p) (hA : A = Arith.rounded (binary p)) (cfg : Config ℚ) (ps : List (Wire ℚ)) (ty : SigId → Ty) (rank : BlkId → Nat)
    (h : cfg.Sealed ps ty rank) (hi : ∃ p ∈ ps, p.obj.isState = true) (st : Stepper ℚ) (hst : cfg.stepper = some st) (he : st ∈ [euler, rk4, rkf45])
    (w : World ℚ) (hw : w.New cfg ty) (hlog : w.log = []) (tPrev t0 minH maxH R : ℚ) (h0 : 0 < minH) (h1 : minH < maxH) (h2 : binary p minH = minH)
    (h3 : 16 * (R / 2 ^ p) ≤ minH) :
    Follows cfg ps ty st w tPrev t0 minH maxH (fun ts => (t0 :: ts).Pairwise (· < ·) ∧ ∀ t ∈ t0 :: ts, binary p t = t ∧ 2 * |t| + maxH ≤ R) :=
  C84_rounded hA (binary_rounding hp (le_refl (R / 2 ^ p))) cfg ps ty rank h hi st hst he w hw hlog tPrev t0 minH maxH h0 h1 h2 h3

end

section
variable [A : Arith (Ext ℚ)]
attribute [local instance] Arith.before

/-- C84, `double` with overflow, infinities and not-a-numbers. -/
theorem C84_double_partial (hA : A = C82.doubles) (cfg : Config (Ext ℚ)) (ps : List (Wire (Ext ℚ))) (ty : SigId → Ty) (rank : BlkId → Nat)
    (h : cfg.Sealed ps ty rank) (hi : ∃ p ∈ ps, p.obj.isState = true) (hnd : ¬ cfg.Delays) (st : Stepper (Ext ℚ)) (hst : cfg.stepper = some st) (he : st ∈ [euler, rk4, rkf45])
    (w : World (Ext ℚ)) (hw : w.New cfg ty) (hlog : w.log = []) (tPrev : Ext ℚ) (t0 minH maxH R : ℚ) (hR : R ≤ 2 ^ 1000) (h0 : 0 < minH) (h1 : minH < maxH)
    (h2 : double minH = minH) (h3 : 16 * (R / 2 ^ 53) ≤ minH) :
    Follows cfg ps ty st w tPrev (.num t0) (.num minH) (.num maxH)
      (fun us => ∃ ts : List ℚ, us = ts.map .num ∧ (t0 :: ts).Pairwise (· < ·) ∧ ∀ t ∈ t0 :: ts, double t = t ∧ 4 * |t| + maxH ≤ R) :=
  C84_hosts_partial (C82.lesser (C82.hosts_doubles hA) hR) (binary_rounding (p := 53) (by norm_num) (le_refl (R / 2 ^ 53))) cfg ps ty rank h hi hnd st hst he
    w hw hlog tPrev t0 minH maxH h0 h1 h2 h3

end

/-! ## Examples -/

section
local instance (priority := high) onDouble : Arith ℚ := Arith.rounded double

theorem closed (st : Strategy) (sp : Stepper ℚ) (hs : sp.Dim) : (C79.cfg st sp).Sealed C79.wires C79.types (fun _ => 0) :=
  have h := C79.closed st (@euler ℚ instArithRat) (by simp)
  { dbg := h.dbg, assembled := h.assembled, proper := h.proper, hash := h.hash, sane := h.sane, once := h.once, provided := h.provided, loops := h.loops,
    inputs := h.inputs, modelInput := h.modelInput, inputOnce := h.inputOnce, inputFree := h.inputFree, stepper := fun _ e => (by cases e; exact hs),
    stepped := fun _ => rfl, reuse := h.reuse }

theorem new (st : Strategy) (sp : Stepper ℚ) : C79.world.New (C79.cfg st sp) C79.types :=
  have h := C79.new st sp
  ⟨⟨h.fine.types, h.fine.cells, h.fine.members⟩, h.done, h.record⟩

/-- The machine after `init(0)` and the calls of `run` for the times. -/
def at_ (st : Strategy) (sp : Stepper ℚ) : List ℚ → Machine ℚ
  | [] => stateOf (Call.exec (C79.cfg st sp) (.init 0) { w := C79.world, s := { tPrev := 0 } })
  | t :: ts => stateOf (Call.exec (C79.cfg st sp) (.run 9 t (1/1024) 10) (at_ st sp ts))

theorem dim {sp : Stepper ℚ} (hs : sp ∈ [euler, rk4, rkf45]) : sp.Dim := by
  simp only [List.mem_cons, List.not_mem_nil, or_false] at hs
  rcases hs with rfl | rfl | rfl
  · exact C26.dim_provided.1
  · exact C26.dim_provided.2.1
  · exact C26.dim_provided.2.2

/-- All hypotheses of `C84_binary` hold for the diagram of C79, whose trigger is set from 1 on, before 2, with `double` numbers and each of the methods; so `run`
returns for 1/2, 3/2 and 3, in steps that end there. -/
example (st : Strategy) (sp : Stepper ℚ) (hs : sp ∈ [euler, rk4, rkf45]) : ∃ m new, RunsTo (C79.cfg st sp) (1/1024) 10 (at_ st sp []) [1/2, 3/2, 3] m ∧
    m.w.log = new ++ (at_ st sp []).w.log ∧ Meets 0 [1/2, 3/2, 3] (acceptsIn new) := by
  obtain ⟨m0, V, q1, _, _, _, q⟩ := C84_binary (A := onDouble) 53 (by norm_num) rfl (C79.cfg st sp) C79.wires _ _ (closed st sp (dim hs)) ⟨_, .head _, rfl⟩ sp rfl hs C79.world (new st sp) rfl
    0 0 (1/1024) 10 16 (by norm_num) (by norm_num) (by decide +kernel) (by norm_num)
  have e : at_ st sp [] = m0 := by unfold at_; rw [q1]; rfl
  obtain ⟨⟨m, g⟩, q⟩ := q [1/2, 3/2, 3] (by constructor <;> decide +kernel)
  obtain ⟨new, r1, _, r2, _⟩ := q m g
  exact ⟨m, new, e ▸ g, e ▸ r1, r2⟩

/-- The first step, to a time that is rounded: 1/10 as a `double`.  The state is 5 + 1/10, rounded; after the reset at 1, and at 3/2, the step to 2 begins with 0. -/
example (st : Strategy) : [(at_ st euler [double (1/10)]), (at_ st euler [3/2, 1, double (1/10)]), (at_ st euler [2, 3/2, 1, double (1/10)])].map (fun m => (m.w.shown 2, m.w.shown 1)) =
    [(some (.scalar (double (5 + double (1/10)))), some (.bool false)), (some (.scalar (1/2)), some (.bool true)), (some (.scalar (1/2)), some (.bool false))] ∧
    double (5 + double (1/10)) ≠ 5 + double (1/10) := by
  constructor
  · cases st <;> decide +kernel
  · decide +kernel

end

section
local instance (priority := high) : Arith (Ext ℚ) := C82.doubles

def tint : Leaf (Ext ℚ) := { id := 1, links := [(0, Demo.inp), (1, Demo.rq), (2, Demo.st)], kind := .trigInt 0 1 2 }

/-- The integrator (signal 2) of the input (signal 0), which is infinite until 1; the trigger (signal 1) is set from 1 on, before 2. -/
def cfg (st : Strategy) (sp : Stepper (Ext ℚ)) : Config (Ext ℚ) where
  dbg := true
  model := .sub 100 [] [.leaf tint]
  deriv s := if s = 2 then some 0 else none
  inputs := none
  modelInput t := ([(0, .scalar (if t <. .num 1 then .inf true else .num 1)), (1, .bool ((.num 1 <=. t) && (t <. .num 2)))], none)
  stepper := some sp
  strategy := st
  hash := id

def xwires : List (Wire (Ext ℚ)) := [⟨1, .trigInt .double, [C58.sc "in" 0, (str "trigger", .val 1 .bool)], [C58.sc "out" 2]⟩]

def xworld : World (Ext ℚ) where
  sig s := { ty := C79.types s }
  mem _ := { value := .scalar (.num 5) }
  done _ := false
  log := []

theorem leaves_eq (st : Strategy) (sp : Stepper (Ext ℚ)) : (cfg st sp).model.leaves = [tint] := by simp [cfg, Block.leaves, leavesL]

theorem xclosed (st : Strategy) (sp : Stepper (Ext ℚ)) (hsp : sp ∈ [euler, rk4, rkf45]) : (cfg st sp).Sealed xwires C79.types (fun _ => 0) := by
  have hg : ∀ p ∈ xwires, ∀ i, p.Gives i → p.id = 1 ∧ i = 2 := by
    intro p hp i hi
    obtain ⟨k, t, hi⟩ := hi
    simp only [xwires, List.mem_cons, List.not_mem_nil, or_false] at hp
    subst hp
    simp only [C58.sc, List.mem_cons, List.not_mem_nil, or_false] at hi
    cases hi; exact ⟨rfl, rfl⟩
  have ht : ∀ p ∈ xwires, ∀ i, p.Takes i → i = 0 ∨ i = 1 := by
    intro p hp i hi
    obtain ⟨k, t, hi⟩ := hi
    simp only [xwires, List.mem_cons, List.not_mem_nil, or_false] at hp
    subst hp
    simp only [C58.sc, List.mem_cons, List.not_mem_nil, or_false] at hi
    rcases hi with hi | hi <;> cases hi
    · exact .inl rfl
    · exact .inr rfl
  have hk : ∀ t, (cfg st sp).inputKeys t = [0, 1] := fun t => rfl
  exact {
    dbg := rfl
    assembled := ⟨[tint], by with_unfolding_all rfl, by rw [leaves_eq]⟩
    proper := by
      have : (cfg st sp).model.ids = [100, 1] := by simp [cfg, tint, Block.ids, Block.all, allL, Block.id]
      unfold Block.Proper
      rw [this]
      decide
    hash := fun _ => .refl _
    sane := by
      intro p hp
      simp only [xwires, List.mem_cons, List.not_mem_nil, or_false] at hp
      subst hp
      refine ⟨fun q hq i t e => ?_, fun q hq i t e => ?_, .inl ⟨1, Nat.one_pos, trivial, trivial, fun q hq i m e => ?_, fun q hq i m e => ?_⟩⟩ <;>
        simp only [C58.sc, List.mem_cons, List.not_mem_nil, or_false] at hq
      · rcases hq with rfl | rfl <;> cases e <;> rfl
      · subst hq; cases e; rfl
      · rcases hq with rfl | rfl <;> cases e
      · subst hq; cases e
    once := fun p hp q hq i h1 h2 => by rw [(hg p hp i h1).1, (hg q hq i h2).1]
    provided := fun p hp i hi => .inl fun t => by
      rw [hk]
      rcases ht p hp i hi with rfl | rfl <;> decide
    loops := fun p hp i hn q hq hgi => by
      simp only [xwires, List.mem_cons, List.not_mem_nil, or_false] at hq
      subst hq
      exact .inl rfl
    inputs := fun f e => by cases e
    modelInput := ⟨fun t => ⟨fun p hp => by
      simp only [cfg, List.mem_cons, List.not_mem_nil, or_false] at hp
      rcases hp with rfl | rfl <;> exact ⟨rfl, fun _ => rfl⟩, fun e h => (by cases h)⟩, fun _ => rfl⟩
    inputOnce := fun t => by rw [hk]; decide
    inputFree := fun t s hs => by
      rw [hk] at hs
      simp only [List.mem_cons, List.not_mem_nil, or_false] at hs
      refine ⟨⟨_, .head _, ?_⟩, fun p hp hgi => ?_⟩
      · rcases hs with rfl | rfl
        · exact ⟨str "in", .scalar, .head _⟩
        · exact ⟨str "trigger", .bool, .tail _ (.head _)⟩
      · have := (hg p hp s hgi).2
        rcases hs with rfl | rfl <;> cases this
    stepper := fun st' e => by cases e; simp only [List.mem_cons, List.not_mem_nil, or_false] at hsp; rcases hsp with rfl | rfl | rfl <;> first | exact C26.dim_provided.1 | exact C26.dim_provided.2.1 | exact C26.dim_provided.2.2
    stepped := fun _ => rfl
    reuse := fun _ => ⟨_, .head _, rfl⟩ }

theorem xnew (st : Strategy) (sp : Stepper (Ext ℚ)) : xworld.New (cfg st sp) C79.types where
  fine := {
    types := fun _ => rfl
    cells := fun s => ⟨fun e => (by cases e), fun v e => (by cases e)⟩
    members := by
      intro l hl
      rw [leaves_eq] at hl
      simp only [List.mem_cons, List.not_mem_nil, or_false] at hl
      subst hl
      exact ⟨rfl, fun _ => rfl⟩ }
  done := fun _ => rfl
  record := fun _ _ _ => rfl

theorem noDelay (st : Strategy) (sp : Stepper (Ext ℚ)) : ¬ (cfg st sp).Delays := by
  rintro ⟨l, hl, e⟩
  rw [leaves_eq, List.mem_singleton] at hl
  subst hl
  cases e

/-- The machine after `init(0)` and the calls of `run` for the times. -/
def xat (st : Strategy) (sp : Stepper (Ext ℚ)) : List ℚ → Machine (Ext ℚ)
  | [] => stateOf (Call.exec (cfg st sp) (.init (.num 0)) { w := xworld, s := { tPrev := .num 0 } })
  | t :: ts => stateOf (Call.exec (cfg st sp) (.run 9 (.num t) (.num (1/1024)) (.num 1)) (xat st sp ts))

/-- All hypotheses of `C84_double_partial` hold for this diagram with each of the methods; so `run` returns for 1, 2 and 3. -/
example (st : Strategy) (sp : Stepper (Ext ℚ)) (hs : sp ∈ [euler, rk4, rkf45]) :
    ∃ m, RunsTo (cfg st sp) (.num (1/1024)) (.num 1) (xat st sp []) [.num 1, .num 2, .num 3] m := by
  obtain ⟨m0, V, q1, _, _, _, q⟩ := C84_double_partial rfl (cfg st sp) xwires _ _ (xclosed st sp hs) ⟨_, .head _, rfl⟩ (noDelay st sp) sp rfl hs xworld (xnew st sp) rfl
    (.num 0) 0 (1/1024) 1 16 (by decide +kernel) (by norm_num) (by norm_num) (by decide +kernel) (by norm_num)
  have e : xat st sp [] = m0 := by unfold xat; rw [q1]; rfl
  exact e ▸ (q [.num 1, .num 2, .num 3] ⟨[1, 2, 3], rfl, by decide +kernel, by decide +kernel⟩).1

/-- The hypotheses of `C84_single` hold for it with `Euler` and `Rk4`, with any limits of the step size, the largest may be infinite. -/
example (st : Strategy) (sp : Stepper (Ext ℚ)) (hs : sp ∈ [euler, rk4]) : ∃ m, RunsTo (cfg st sp) (.num (1/1024)) (.inf true) (xat st sp []) [.num (1/3), .num 2, .inf true] m := by
  obtain ⟨m0, V, q1, _, _, _, q⟩ := C84_single (cfg st sp) xwires _ _ (xclosed st sp (by simp at hs ⊢; tauto)) ⟨_, .head _, rfl⟩ sp rfl hs (fun hd => (noDelay st sp hd).elim)
    xworld (xnew st sp) rfl (.num 0) (.num 0) (.num (1/1024)) (.inf true) (by decide +kernel) (by decide +kernel)
  have e : xat st sp [] = m0 := by unfold xat; rw [q1]; rfl
  have hl : ∀ {a b : Ext ℚ}, (a <. b) = true → (b <. a) = false → (b ==. a) = false → (b <. b) = false → ((b -. a) <=. (b -. a)) = true → Later a b := fun h1 h2 h3 h4 h5 => ⟨h1, h2, h3, h4, h5⟩
  refine e ▸ (q [.num (1/3), .num 2, .inf true] ?_).1
  refine .cons_cons (hl ?_ ?_ ?_ ?_ ?_) (.cons_cons (hl ?_ ?_ ?_ ?_ ?_) (.cons_cons (hl ?_ ?_ ?_ ?_ ?_) (.singleton _))) <;> decide +kernel

/-- The state is infinite at 1, when the trigger is set; a reset is to the number 0, so that it is 1 at 2. -/
example (st : Strategy) : ((xat st euler [1]).w.shown 2, (xat st euler [2, 1]).w.shown 2) = (some (.scalar (.inf true)), some (.scalar (.num 1))) := by
  cases st <;> decide +kernel

end

end Pooya.C84
