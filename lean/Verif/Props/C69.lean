import Verif.Props.C60
import Verif.Proof.Settle
import Verif.Spec.Passage

/-! # C69: diagrams with memory follow their equations from time to time -/

namespace Pooya.C69

open Pooya C60

set_option linter.unusedSectionVars false

section
variable {K : Type} [Arith K]

variable {cfg : Config K} {ps : List (Wire K)} {ty : SigId → Ty} {rank : BlkId → Nat} {V : Vars} {n : Nat} {t u minH maxH : K} {x : List K} {m m' : Machine K}

theorem kind_calm {o : Make K} (ho : o.Plain) {ib ob : Entries} {b : Bound} {i : BlkId} {ls : List (SigId × Flags)} {k : Kind K}
    (hk : o.kind ib ob b = .ok k) : (⟨i, ls, k⟩ : Leaf K).Calm := by
  unfold Leaf.Calm
  unfold Make.kind at hk
  split at hk <;> first | (exact ho.elim) | (cases hk; exact trivial) | skip
  · split at hk <;> cases hk
    exact trivial
  · split at hk <;> cases hk
    exact trivial
  · split at hk <;> cases hk
    exact trivial
  · cases hk

theorem calm_leaf (h : cfg.Sealed ps ty rank) (hm : ∀ p ∈ ps, p.obj.Plain) : ∀ l ∈ cfg.model.leaves, l.Calm := by
  intro l hl
  obtain ⟨ls, h1, h2⟩ := h.assembled
  obtain ⟨p, hp, d1, d2, e⟩ := C58.all_mem h1 l (h2.mem_iff.1 hl)
  have hme := hm p hp
  obtain ⟨b, s, _, hk, _⟩ := C58.inv (fun a b c e f he => by rw [he] at hme; exact hme) e
  exact kind_calm hme hk

/-- The end of `init` is the end of a step. -/
theorem init_committed (h : cfg.WellPosed ty rank) (hc : ∀ l ∈ cfg.model.leaves, l.Calm) {w : World K}
    (hw : w.New cfg ty) (hlog : w.log = []) {tPrev t0 : K} (hx : Call.exec cfg (.init t0) { w := w, s := { tPrev := tPrev } } = .ok () m)
    (hl : C57.Left cfg ty t0 m) (hs : cfg.Stands m.vars m.w.mem x) : Committed cfg m.vars w.mem t0 x m.w.shown m.w.mem := by
  have ho := owned_of h
  have hon : Ongoing cfg m := .init w tPrev t0 hw.done hlog hx
  have hco := hon.course ho h.typed.dbg h.typed.stepper hc
  have hr : Reach cfg { w := w, s := { tPrev := tPrev } } := .new w tPrev hw.done hlog
  obtain ⟨m1, h1, h2, h3, _, _, _, _, k1, k2⟩ := init_last h.typed.proper (reach_mid cfg hr) hx
  have hset : ∀ l ∈ cfg.model.leaves, Settled l (w.mem l.id) (m1.w.mem l.id) := by
    intro l hl
    by_cases hst : cfg.strategy = .fast
    · obtain ⟨w1, w2, w3, ls, e1, e2, e3, e4, _, e6⟩ := k2 hst
      have q1 := moves_preStep (T := Settles l) cfg.dbg t0 cfg.model (fun l' hl' => settles_pre h.typed.proper hl hl' cfg.dbg t0) w1 (hc l hl)
      rw [e2] at q1
      have q1 : Settled l (w1.mem l.id) (w2.mem l.id) := q1
      have q2 := settles_acts h.typed.proper hl e3 e6 (hc l hl)
      rw [e1] at q1
      rw [e4]
      exact q1.trans q2
    · rw [k1 hst]; exact .refl (hc l hl) _
  obtain ⟨p1, p2⟩ := process_shown h.typed.dbg h.typed.proper h1 h3
  refine ⟨⟨p1, Packed.congr hs (fun s hs => ?_) (fun _ _ => rfl), fun l hl => process_solved h.typed.dbg h.typed.proper hl (hc l hl) h1 h2 h3 (hset l hl)⟩,
    fun l hl => process_stored h.typed.dbg h.typed.proper hl (hc l hl) h1 h3 (hset l hl)⟩
  obtain ⟨l, hl', e⟩ := hco.integrated ho s hs
  rw [ho.find hl' e]
  have hcal := hc l hl'
  unfold Leaf.Calm at hcal
  rcases state_cases e with ⟨i, hk⟩ | ⟨i, tr, hk⟩
  · have hpre : s ∈ l.preOuts := by unfold Leaf.preOuts; rw [hk]; exact List.mem_singleton.2 rfl
    have := C36_initial cfg h.typed.proper hl' hk (fun l' hl' hs' => h.drivers.prePre l' hl' l (by assumption) s hs' hpre)
      (fun l' hl' hs' => h.drivers.outPre l' hl' l (by assumption) s hs' hpre) hr hx
    have hasg : (m.w.sig s).assigned = true := (hl.values s (.inl (.inr (state_sig hco.ready.layout ho.hash hs)))).1
    rw [shown_val hasg]
    exact this.1.trans (congrArg some this.2.symm)
  · rw [hk] at hcal; exact hcal.elim

theorem packed_nil {K : Type} {val : SigId → Option (Val K)} {size : SigId → Nat} {ss sa : List SigId} {x : List K} (h : ss ++ sa = []) :
    Packed val size ss sa x ↔ x = [] := by
  obtain ⟨rfl, rfl⟩ := List.append_eq_nil_iff.1 h
  simp [Packed]

theorem vars_ne (h : cfg.WellPosed ty rank) (hl : Layout cfg m) (hn : 0 < m.s.nState) : m.vars.scalars ++ m.vars.arrays ≠ [] := by
  intro he
  obtain ⟨q1, q2⟩ := List.append_eq_nil_iff.1 he
  have q1 : m.s.scalarStates = [] := q1
  have q2 : m.s.arrayStates = [] := q2
  rw [hl.scalarStates] at q1
  rw [hl.arrayStates] at q2
  have p1 := h.typed.hash (scalarStatesOf cfg m.w)
  have p2 := h.typed.hash (arrayStatesOf cfg m.w)
  rw [q1] at p1
  rw [q2] at p2
  have q3 := hl.nState
  unfold stateSize at q3
  rw [p1.symm.eq_nil, p2.symm.eq_nil] at q3
  simp at q3
  omega

/-- A call of `run` without state variables. -/
theorem sampled (h : cfg.WellPosed ty rank) (ho : cfg.Delays → OrderedArith K) (hc : ∀ l ∈ cfg.model.leaves, l.Calm) (hm : Mark cfg ty V 0 t x m) {fuel : Nat}
    (hx : Call.exec cfg (.run fuel u minH maxH) m = .ok () m') : V.scalars ++ V.arrays = [] ∧ Committed cfg V m.w.mem u [] m'.w.shown m'.w.mem := by
  have hi := hm.ongoing.once.2
  have hco := hm.ongoing.course (owned_of h) h.typed.dbg h.typed.stepper hc
  have hnil : V.scalars ++ V.arrays = [] := by
    rw [← hm.vars]
    refine List.eq_nil_iff_forall_not_mem.2 fun s hs => ?_
    have := nState_pos h ((attended_cared h ho hm.attended).fit hi) hs
    have := hm.nState
    omega
  refine ⟨hnil, ?_⟩
  have hx : run cfg fuel u minH maxH m = .ok () m' := hx
  rcases run_ok hi hx with ⟨_, hf⟩ | ⟨e, _⟩
  · obtain ⟨y, m1, m2, f1, f2, f3, rfl⟩ := hf.ex
    obtain ⟨r1, e1⟩ := hco.ready.reset f2
    have hf1 : Full cfg m1 := by unfold Full; rw [e1]; exact hco.full
    have hset : ∀ l ∈ cfg.model.leaves, Settled l (m.w.mem l.id) (m1.w.mem l.id) := fun l hl => by rw [reset_mem f2]; exact .refl (hc l hl) _
    exact ⟨⟨(process_shown h.typed.dbg h.typed.proper r1.mid f3).1, (packed_nil hnil).2 rfl, fun l hl => process_solved h.typed.dbg h.typed.proper hl (hc l hl) r1.mid hf1 f3 (hset l hl)⟩,
      fun l hl => process_stored h.typed.dbg h.typed.proper hl (hc l hl) r1.mid f3 (hset l hl)⟩
  · rw [hco.ready.sized.1, hm.nState] at e; omega

/-- What a machine shows, at the time its simulation has reached. -/
def snap (m : Machine K) (x : List K) : Snapshot K := ⟨m.w.mem, m.s.tPrev, x, m.w.shown⟩

/-- The steps of a run follow each other; one step for Euler and Rk4. -/
def Apart [LT K] (cfg : Config K) (u minH maxH t : K) (m : Machine K) : Prop :=
  ∀ (fuel : Nat) (m' : Machine K) (new : List (Event K)), 0 < m.s.svSize → Call.exec cfg (.run fuel u minH maxH) m = .ok () m' → m'.w.log = new ++ m.w.log →
    Tiles t u (acceptsIn new) ∧ ∀ st, cfg.stepper = some st → st ∈ [euler, rk4] → acceptsIn new = [(t, u)]

/-- A call of `run` takes the diagram to the next time. -/
theorem Mark.passes [LT K] (h : cfg.WellPosed ty rank) (ho : cfg.Delays → OrderedArith K) (hc : ∀ l ∈ cfg.model.leaves, l.Calm) (hn : 0 < n → cfg.stepper ≠ none)
    (hm : Mark cfg ty V n t x m) {fuel : Nat} (hfair : (Call.run fuel u minH maxH).Fair cfg m) (hlt : (t <. u) = true) (hne : (u ==. t) = false)
    (hap : Apart cfg u minH maxH t m) (hx : Call.exec cfg (.run fuel u minH maxH) m = .ok () m') :
    ∃ y, Mark cfg ty V n u y m' ∧ ∀ ts c, Passes cfg V (snap m' y) ts c → Passes cfg V (snap m x) (u :: ts) c := by
  have hi := hm.ongoing.once.2
  have hfx := fixed_run hi hx
  have hvars : m'.vars = V := (vars_fixed hfx).trans hm.vars
  have hat : Attended cfg ty m' := .call _ hm.attended hfair hx
  have htime := runs_call h ho (attended_cared h ho hm.attended) _ hfair
  rw [hx] at htime
  have hon : Ongoing cfg m' := .run _ _ _ _ hm.ongoing hx
  have htp : m'.s.tPrev = u := htime.2.2.1
  rcases Nat.eq_zero_or_pos n with rfl | hpos
  · obtain ⟨k1, k2⟩ := sampled h ho hc hm hx
    have hst : cfg.Stands V m'.w.mem [] := (packed_nil k1).2 rfl
    refine ⟨[], ⟨hat, hon, hvars, hfx.nState.trans hm.nState, htp, hst⟩, fun ts c hp => ?_⟩
    have := Passes.sample (a := snap m x) (b := snap m' []) k1 (by show Committed cfg V m.w.mem m'.s.tPrev [] _ _; rw [htp]; exact k2) hp
    rw [show (snap m' []).time = u from htp] at this
    exact this
  · obtain ⟨st, hst⟩ := Option.ne_none_iff_exists'.1 (hn hpos)
    have hco := hm.ongoing.course (owned_of h) h.typed.dbg h.typed.stepper hc
    have hsv : 0 < m.s.svSize := by rw [hco.ready.sized.1, hm.nState]; exact hpos
    obtain ⟨new, x1, y, g1, g2, g3, g4⟩ := C31_run cfg h.typed.dbg (owned_of h) st hst (h.typed.stepper st hst) hc hm.ongoing (by rw [hm.nState]; exact hpos)
      (t := u) (by rw [hm.time]; exact hlt) (by rw [hm.time]; exact hne) hx
    obtain ⟨e2, hsg⟩ := hap fuel m' new hsv hx g1
    rw [hm.vars] at g2 g3 g4
    have hx1 : x1 = x := packed_unique g2 hm.stands (fun _ _ => rfl)
    subst hx1
    refine ⟨y, ⟨hat, hon, hvars, hfx.nState.trans hm.nState, htp, g4⟩, fun ts c hp => ?_⟩
    have hne : V.scalars ++ V.arrays ≠ [] := by
      rw [← hm.vars]; exact vars_ne h hco.ready.layout (by rw [hm.nState]; exact hpos)
    have := Passes.steps (a := snap m x1) (b := snap m' y) (acceptsIn new) hne hst
      (by show Tiles m.s.tPrev m'.s.tPrev _; rw [htp, hm.time]; exact e2)
      (fun he => by show _ = [(m.s.tPrev, m'.s.tPrev)]; rw [htp, hm.time]; exact hsg st hst he)
      (by show Evolves cfg V st m'.s.tPrev _ m.s.tPrev x1 _ _ _ _; rw [htp]; exact g3) hp
    rw [show (snap m' y).time = u from htp] at this
    exact this

/-- From a time `t` the simulation can go on to the time `u`. -/
structure Onward [LT K] (cfg : Config K) (ty : SigId → Ty) (minH maxH t u : K) : Prop where
  lt : (t <. u) = true
  ne : (u ==. t) = false
  fair : ∀ (V : Vars) (n : Nat) (x : List K) (m : Machine K), Mark cfg ty V n t x m → ∀ fuel, (Call.run fuel u minH maxH).Fair cfg m
  apart : ∀ (V : Vars) (n : Nat) (x : List K) (m : Machine K), Mark cfg ty V n t x m → Apart cfg u minH maxH t m
  returns : ∀ (V : Vars) (n : Nat) (x : List K) (m : Machine K), Mark cfg ty V n t x m → ∃ fuel m', Call.exec cfg (.run fuel u minH maxH) m = .ok () m'

theorem Mark.courses [LT K] (h : cfg.WellPosed ty rank) (ho : cfg.Delays → OrderedArith K) (hc : ∀ l ∈ cfg.model.leaves, l.Calm) (hn : 0 < n → cfg.stepper ≠ none)
    (ts : List K) : ∀ {t : K} {x : List K} {m : Machine K}, (t :: ts).IsChain (Onward cfg ty minH maxH) → Mark cfg ty V n t x m →
      (∃ m', RunsTo cfg minH maxH m ts m') ∧
      ∀ m', RunsTo cfg minH maxH m ts m' → ∃ y, Passes cfg V (snap m x) ts (snap m' y) ∧ Mark cfg ty V n ((t :: ts).getLast (by simp)) y m' := by
  induction ts with
  | nil =>
    intro t x m _ hm
    refine ⟨⟨m, .nil⟩, fun m' hr => ?_⟩
    cases hr
    exact ⟨x, .nil, hm⟩
  | cons u us ih =>
    intro t x m hp hm
    obtain ⟨hu, hp'⟩ := List.isChain_cons_cons.1 hp
    constructor
    · obtain ⟨N, m1, g1⟩ := hu.returns _ _ _ _ hm
      obtain ⟨_, k, _⟩ := Mark.passes h ho hc hn hm (hu.fair _ _ _ _ hm N) hu.lt hu.ne (hu.apart _ _ _ _ hm) g1
      obtain ⟨⟨m', g2⟩, _⟩ := ih hp' k
      exact ⟨m', .cons N g1 g2⟩
    · intro m' hr
      cases hr with
      | cons fuel g1 g2 =>
        obtain ⟨y, k1, k2⟩ := Mark.passes h ho hc hn hm (hu.fair _ _ _ _ hm fuel) hu.lt hu.ne (hu.apart _ _ _ _ hm) g1
        obtain ⟨z, k3, k4⟩ := (ih hp' k1).2 m' g2
        refine ⟨z, k2 _ _ k3, ?_⟩
        rw [List.getLast_cons (by simp)]
        exact k4

/-- `C69_passage` for any arithmetic. -/
theorem passage_of [LT K] (cfg : Config K) (ps : List (Wire K)) (ty : SigId → Ty) (rank : BlkId → Nat) (h : cfg.Sealed ps ty rank)
    (hme : ∀ p ∈ ps, p.obj.Plain) (hord : cfg.Delays → OrderedArith K) (w : World K) (hw : w.New cfg ty) (hlog : w.log = []) (tPrev t0 minH maxH : K) :
    ∃ (m0 : Machine K) (V : Vars) (x0 : List K), Call.exec cfg (.init t0) { w := w, s := { tPrev := tPrev } } = .ok () m0 ∧ V = m0.vars ∧
      (∀ s, s ∈ V.scalars ++ V.arrays ↔ ∃ p ∈ ps, p.obj.isState = true ∧ p.Gives s) ∧ (∀ s, V.size s = (ty s).size) ∧
      cfg.Stands V w.mem x0 ∧ Committed cfg V w.mem t0 x0 m0.w.shown m0.w.mem ∧
      ∀ ts : List K, (t0 :: ts).IsChain (Onward cfg ty minH maxH) →
        (∃ m, RunsTo cfg minH maxH m0 ts m) ∧
        ∀ m, RunsTo cfg minH maxH m0 ts m → ∃ y, Passes cfg V ⟨m0.w.mem, t0, x0, m0.w.shown⟩ ts ⟨m.w.mem, (t0 :: ts).getLast (by simp), y, m.w.shown⟩ := by
  have hp := C59.C59_complete cfg ps ty rank h
  have ho := owned_of hp
  have hc := calm_leaf h hme
  obtain ⟨m0, g1, g2⟩ := C57.C57_init cfg ty rank hp hord _ (.new w tPrev hw) rfl t0
  have hat : Attended cfg ty m0 := .call (.init t0) (.new w tPrev hw) rfl g1
  have hon : Ongoing cfg m0 := .init w tPrev t0 hw.done hlog g1
  have hf := (attended_cared hp hord hat).fit g2.init
  have hmemV := init_vars h hf
  have hco := hon.course ho hp.typed.dbg hp.typed.stepper hc
  obtain ⟨x0, mb, b1, _, _, b4⟩ := runs_begin hp hf t0
  obtain ⟨x1, hx1⟩ := hco.start ho b1
  have hx01 : x0 = x1 := (hco.begin ho hx1 b1).1
  subst hx01
  have hw0 := init_stands hp hc hw hlog g1 hx1
  have hmk : Mark cfg ty m0.vars m0.s.nState t0 x0 m0 := ⟨hat, hon, rfl, rfl, g2.time, hx1⟩
  have hstp : 0 < m0.s.nState → cfg.stepper ≠ none := by
    intro hn e
    obtain ⟨s, hs⟩ := List.exists_mem_of_ne_nil _ (vars_ne hp hf.call.layout hn)
    obtain ⟨p, hp, hb, _⟩ := (hmemV s).1 hs
    have := h.stepped ⟨p, hp, hb⟩
    rw [e] at this; cases this
  refine ⟨m0, m0.vars, x0, g1, rfl, hmemV, fun s => by show (m0.w.sig s).ty.size = _; rw [hf.world.types], hw0,
    init_committed hp hc hw hlog g1 g2 hx1, fun ts hts => ?_⟩
  obtain ⟨k1, k2⟩ := Mark.courses hp hord hc hstp ts hts hmk
  refine ⟨k1, fun m hm => ?_⟩
  obtain ⟨y, k3, k4⟩ := k2 m hm
  refine ⟨y, ?_⟩
  have := k3
  unfold snap at this
  rw [k4.time, show m0.s.tPrev = t0 from g2.time] at this
  exact this

end

section
variable {F : Type} [_root_.Field F] [LinearOrder F] [IsStrictOrderedRing F] [Archimedean F]
attribute [local instance] Arith.exact

variable {cfg : Config F} {ps : List (Wire F)} {ty : SigId → Ty} {rank : BlkId → Nat} {V : Vars} {n : Nat} {t u minH maxH : F} {x : List F} {m m' : Machine F}

/-- In exact arithmetic the simulation can go on to all later times. -/
theorem onward_exact (h : cfg.WellPosed ty rank) (he : ∀ st, cfg.stepper = some st → st ∈ [euler, rk4, rkf45]) (h0 : 0 < minH) (h1 : minH < maxH) (hu : t < u) :
    Onward cfg ty minH maxH t u where
  lt := decide_eq_true hu
  ne := decide_eq_false (ne_of_gt hu)
  fair := fun V n x m hm fuel => fair_of hm hu h0 h1 fuel
  returns := fun V n x m hm => by
    obtain ⟨N, hN⟩ := C57.C57_run cfg ty rank h he m hm.attended u minH maxH (fair_of hm hu h0 h1 0) h0
    obtain ⟨m1, g1, _⟩ := hN N (le_refl _)
    exact ⟨N, m1, g1⟩
  apart := fun V n x m hm fuel m' new hsv hx hlog => by
    have hi := hm.ongoing.once.2
    obtain ⟨new', e1, e2⟩ := C27.C27_tiling cfg fuel u minH maxH m m' hi hsv (by rw [hm.time]; exact hu) h0 hx
    have e : new = new' := List.append_cancel_right (hlog.symm.trans e1)
    subst e
    refine ⟨hm.time ▸ e2, fun st hst he => ?_⟩
    obtain ⟨new', e1, e2⟩ := C29.C29_single cfg st he hst fuel u minH maxH m m' hi hsv (by rw [hm.time]; exact hu) hx
    have e : new = new' := List.append_cancel_right (hlog.symm.trans e1)
    subst e
    unfold acceptsIn; rw [e2, hm.time]; rfl

/-- C69: a closed diagram of blocks of all provided classes but `TriggeredIntegrator` - with or without memory (`Memory`, `Delay`, `Derivative`), with or without
integrators -, simulated with one of the provided methods (with no method at all if it has no integrators).  `init(t0)` returns; the signals then solve the
equations of the diagram at `t0`, with what the blocks held when they were made and the initial conditions as the state, and the blocks have stored what they store
at the end of a step.  Calls of `run` for any increasing times return, and what results is a passage of the diagram through these times. -/
theorem C69_passage (cfg : Config F) (ps : List (Wire F)) (ty : SigId → Ty) (rank : BlkId → Nat) (h : cfg.Sealed ps ty rank)
    (hme : ∀ p ∈ ps, p.obj.Plain) (he : ∀ st, cfg.stepper = some st → st ∈ [euler, rk4, rkf45])
    (w : World F) (hw : w.New cfg ty) (hlog : w.log = []) (tPrev t0 minH maxH : F) (h0 : 0 < minH) (h1 : minH < maxH) :
    ∃ (m0 : Machine F) (V : Vars) (x0 : List F), Call.exec cfg (.init t0) { w := w, s := { tPrev := tPrev } } = .ok () m0 ∧ V = m0.vars ∧
      (∀ s, s ∈ V.scalars ++ V.arrays ↔ ∃ p ∈ ps, p.obj.isState = true ∧ p.Gives s) ∧ (∀ s, V.size s = (ty s).size) ∧
      cfg.Stands V w.mem x0 ∧ Committed cfg V w.mem t0 x0 m0.w.shown m0.w.mem ∧
      ∀ ts : List F, (t0 :: ts).Pairwise (· < ·) →
        (∃ m, RunsTo cfg minH maxH m0 ts m) ∧
        ∀ m, RunsTo cfg minH maxH m0 ts m → ∃ y, Passes cfg V ⟨m0.w.mem, t0, x0, m0.w.shown⟩ ts ⟨m.w.mem, (t0 :: ts).getLast (by simp), y, m.w.shown⟩ := by
  obtain ⟨m0, V, x0, q1, q2, q3, q4, q5, q6, q7⟩ := passage_of cfg ps ty rank h hme (fun _ => C57.ordered_exact) w hw hlog tPrev t0 minH maxH
  exact ⟨m0, V, x0, q1, q2, q3, q4, q5, q6, fun ts hts => q7 ts (hts.isChain.imp fun a b hab => onward_exact (C59.C59_complete cfg ps ty rank h) he h0 h1 hab)⟩

end

/-! ## Uniqueness -/

section
variable {K : Type} [Arith K]

variable {cfg : Config K} {ps : List (Wire K)} {ty : SigId → Ty} {rank : BlkId → Nat} {V : Vars} {t : K} {x : List K}

theorem explicit_sealed (h : cfg.Sealed ps ty rank) (hV : ∀ s, s ∈ V.scalars ++ V.arrays ↔ ∃ p ∈ ps, p.obj.isState = true ∧ p.Gives s) : Explicit cfg V := by
  have hp := C59.C59_complete cfg ps ty rank h
  have hsrc : ∀ s, (cfg.Links s ∧ (cfg.deriv s).isSome = true) → s ∈ V.scalars ++ V.arrays := by
    rintro s ⟨_, e⟩
    obtain ⟨l, hl, e⟩ := C59.deriv_state h e
    obtain ⟨p, hp, hfit⟩ := C59.leaf_wire h hl
    exact (hV s).2 ⟨p, hp, (hfit.state s e).2, (hfit.state s e).1⟩
  refine ⟨⟨rank, fun l hl s f hs hr => ?_⟩, fun s hs d hd => ?_, hp.reads⟩
  · rcases hp.ranked l hl s ⟨f, hs, hr⟩ with (hi | hl) | h3
    · exact .inl (fun t => by rw [inputKeys_eq]; exact hi t)
    · exact .inr (.inl (hsrc s hl))
    · exact .inr (.inr h3)
  · obtain ⟨p, hpp, hb, hg⟩ := (hV s).1 hs
    obtain ⟨l, hl, hfit⟩ := C59.wire_leaf h hpp
    rcases hp.derivs s d (C59.link_of hl (hfit.links s (.inr hg))) hd with (hi | hl) | h3
    · exact .inl (fun t => by rw [inputKeys_eq]; exact hi t)
    · exact .inr (.inl (hsrc d hl))
    · exact .inr (.inr h3)

/-- A signal on a bus is assigned by the inputs, a state, or an output. -/
theorem sourced (h : cfg.Sealed ps ty rank) (hV : ∀ s, s ∈ V.scalars ++ V.arrays ↔ ∃ p ∈ ps, p.obj.isState = true ∧ p.Gives s) {s : SigId}
    (hs : ∃ p ∈ ps, p.Takes s ∨ p.Gives s) :
    (∀ t, s ∈ (cfg.inputVals t).map Prod.fst) ∨ s ∈ V.scalars ++ V.arrays ∨ ∃ l ∈ cfg.model.leaves, s ∈ l.outs := by
  have key : ∀ q ∈ ps, q.Gives s → s ∈ V.scalars ++ V.arrays ∨ ∃ l ∈ cfg.model.leaves, s ∈ l.outs := by
    intro q hq hg
    obtain ⟨l, hl, hfit⟩ := C59.wire_leaf h hq
    rcases hfit.gives s hg with ⟨_, ho⟩ | ⟨hb, _⟩
    · exact .inr ⟨l, hl, ho⟩
    · exact .inl ((hV s).2 ⟨q, hq, hb, hg⟩)
  obtain ⟨p, hpp, ht | hg⟩ := hs
  · rcases h.provided p hpp s ht with hi | ⟨q, hq, hg⟩
    · exact .inl (fun t => by rw [inputKeys_eq]; exact hi t)
    · exact .inr (key q hq hg)
  · exact .inr (key p hpp hg)

theorem solution_mem {mem mem' : BlkId → Mem K} (hm : ∀ l ∈ cfg.model.leaves, mem l.id = mem' l.id) {val : SigId → Option (Val K)}
    (h : Solution cfg V mem t x val) : Solution cfg V mem' t x val :=
  ⟨h.input, h.state, fun l hl hr => by rw [← hm l hl]; exact h.block l hl hr⟩

theorem rhs_mem {mem mem' : BlkId → Mem K} (hm : ∀ l ∈ cfg.model.leaves, mem l.id = mem' l.id) {d : List K}
    (h : Rhs cfg V mem t x d) : Rhs cfg V mem' t x d := by
  obtain ⟨val, h1, h2⟩ := h
  exact ⟨val, solution_mem hm h1, h2⟩

theorem by_unique {R R' : K → List K → List K → Prop} (hR : ∀ t x d d', R t x d → R' t x d' → d = d') {p : StepProg K} {r r' : List K × K}
    (h : p.By R r) (h' : p.By R' r') : r = r' := by
  induction p with
  | ret v hh => exact Eq.trans h h'.symm
  | call t v k ih =>
    obtain ⟨d, h1, h2⟩ := h
    obtain ⟨d', h1', h2'⟩ := h'
    rw [← hR _ _ _ _ h1 h1'] at h2'
    exact ih d h2 h2'

theorem stored_unique {l : Leaf K} (hc : ∀ c, l.kind ≠ .custom c) {v v' : SigId → Option (Val K)} {mem a b : Mem K}
    (hv : ∀ s ∈ l.postReads, v s = v' s) (h : l.Stored t v mem a) (h' : l.Stored t v' mem b) : a = b := by
  unfold Leaf.Stored at h h'
  unfold Leaf.postReads at hv
  split at h <;> rename_i hk <;> simp only [hk] at h' hv
  · obtain ⟨u, e1, rfl⟩ := h
    obtain ⟨u', e1', rfl⟩ := h'
    have := hv _ (List.mem_singleton.2 rfl)
    rw [e1, e1'] at this; cases this; rfl
  · obtain ⟨k, u, e1, p1, p2, p3, rfl⟩ := h
    obtain ⟨k', u', e1', p1', p2', p3', rfl⟩ := h'
    have := hv _ (List.mem_singleton.2 rfl)
    rw [e1, e1'] at this; cases this
    have hkk : k = k' := by
      rcases Nat.lt_trichotomy k k' with g | g | g
      · have e : mem.ts[k]? = some (mem.ts[k]'(by omega)) := List.getElem?_eq_getElem _
        have := (p1' k _ g e).symm.trans (p2 _ e); cases this
      · exact g
      · have e : mem.ts[k']? = some (mem.ts[k']'(by omega)) := List.getElem?_eq_getElem _
        have := (p1 k' _ g e).symm.trans (p2' _ e); cases this
    rw [hkk]
  · obtain ⟨u, e1, rfl⟩ := h
    obtain ⟨u', e1', rfl⟩ := h'
    have := hv _ (List.mem_singleton.2 rfl)
    rw [e1, e1'] at this; cases this; rfl
  · obtain ⟨u, e1, rfl⟩ := h
    obtain ⟨u', e1', rfl⟩ := h'
    have := hv _ (List.mem_singleton.2 rfl)
    rw [e1, e1'] at this; cases this; rfl
  · obtain ⟨u, e1, rfl⟩ := h
    obtain ⟨u', e1', rfl⟩ := h'
    have := hv _ (List.mem_singleton.2 rfl)
    rw [e1, e1'] at this; cases this; rfl
  · rename_i c
    exact (hc c hk).elim
  · rw [h, h']

/-- Two snapshots agree on what the diagram consists of. -/
structure Alike (cfg : Config K) (ps : List (Wire K)) (a b : Snapshot K) : Prop where
  time : a.time = b.time
  state : a.state = b.state
  mem : ∀ l ∈ cfg.model.leaves, a.mem l.id = b.mem l.id
  vals : ∀ s, (∃ p ∈ ps, p.Takes s ∨ p.Gives s) → a.vals s = b.vals s

theorem committed_unique (h : cfg.Sealed ps ty rank) (hV : ∀ s, s ∈ V.scalars ++ V.arrays ↔ ∃ p ∈ ps, p.obj.isState = true ∧ p.Gives s)
    {mem mem' m1 m2 : BlkId → Mem K} (hm : ∀ l ∈ cfg.model.leaves, mem l.id = mem' l.id) {v v' : SigId → Option (Val K)}
    (h1 : Committed cfg V mem t x v m1) (h2 : Committed cfg V mem' t x v' m2) :
    (∀ l ∈ cfg.model.leaves, m1 l.id = m2 l.id) ∧ ∀ s, (∃ p ∈ ps, p.Takes s ∨ p.Gives s) → v s = v' s := by
  have hp := C59.C59_complete cfg ps ty rank h
  obtain ⟨_, u1, u2, u3⟩ := (solution_mem hm h1.solution).unique (explicit_sealed h hV) hp.complete h2.solution
  have hvals : ∀ s, (∃ p ∈ ps, p.Takes s ∨ p.Gives s) → v s = v' s := by
    intro s hs
    rcases sourced h hV hs with g | g | ⟨l, hl, g⟩
    · exact u3 s (g t)
    · exact u2 s g
    · exact u1 l hl s g
  refine ⟨fun l hl => ?_, hvals⟩
  obtain ⟨p, hpp, hfit⟩ := C59.leaf_wire h hl
  have s1 := h1.stored l hl
  rw [hm l hl] at s1
  refine stored_unique hfit.code (fun s hs => hvals s ?_) s1 (h2.stored l hl)
  rcases hfit.post s hs with g | g
  · exact ⟨p, hpp, .inl g⟩
  · exact ⟨p, hpp, .inr (hfit.state s g).1⟩

/-- C69, determinism: with Euler's method or Rk4, or without integrators, there is one passage of the diagram through given times, in any
arithmetic. -/
theorem C69_unique [LT K] (cfg : Config K) (ps : List (Wire K)) (ty : SigId → Ty) (rank : BlkId → Nat) (h : cfg.Sealed ps ty rank)
    (V : Vars) (hV : ∀ s, s ∈ V.scalars ++ V.arrays ↔ ∃ p ∈ ps, p.obj.isState = true ∧ p.Gives s) (he : ∀ st, cfg.stepper = some st → st ∈ [euler, rk4])
    (a a' b b' : Snapshot K) (ha : Alike cfg ps a a') (ts : List K) (h1 : Passes cfg V a ts b) (h2 : Passes cfg V a' ts b') : Alike cfg ps b b' := by
  have hp := C59.C59_complete cfg ps ty rank h
  have hR : ∀ (mem mem' : BlkId → Mem K), (∀ l ∈ cfg.model.leaves, mem l.id = mem' l.id) → ∀ t x d d', Rhs cfg V mem t x d → Rhs cfg V mem' t x d' → d = d' :=
    fun mem mem' hm t x d d' q q' => Rhs.unique (explicit_sealed h hV) hp.complete (rhs_mem hm q) q'
  induction h1 generalizing a' with
  | nil => cases h2; exact ha
  | @steps a c b ts st steps k1 k2 k3 k4 k5 k6 ih =>
    generalize hl : c.time :: ts = l at h2
    cases h2 with
    | nil => cases hl
    | @steps _ c' _ ts' st' steps' q1 q2 q3 q4 q5 q6 =>
      obtain ⟨e1, rfl⟩ := List.cons_eq_cons.1 hl
      obtain rfl : st = st' := Option.some_inj.1 (k2.symm.trans q2)
      rw [k4 (he _ k2)] at k5
      rw [q4 (he _ q2)] at q5
      refine ih c' ?_ q6
      cases k5 with
      | step _ _ _ _ g => cases g
      | last r1 r2 r3 r4 =>
        cases q5 with
        | step _ _ _ _ g => cases g
        | last w1 w2 w3 w4 =>
          rw [← ha.time, ← ha.state, ← e1] at w3
          have e := by_unique (hR _ _ ha.mem) r3 w3
          have e : c.state = c'.state := congrArg Prod.fst e
          rw [← e1, ← e] at w4
          obtain ⟨g1, g2⟩ := committed_unique h hV ha.mem r4 w4
          exact ⟨e1, e, g1, g2⟩
    | @sample _ c' _ ts' q1 q2 q3 => exact (k1 q1).elim
  | @sample a c b ts k1 k2 k3 ih =>
    generalize hl : c.time :: ts = l at h2
    cases h2 with
    | nil => cases hl
    | @steps _ c' _ ts' st' steps' q1 q2 q3 q4 q5 q6 => exact (q1 k1).elim
    | @sample _ c' _ ts' q1 q2 q3 =>
      obtain ⟨e1, rfl⟩ := List.cons_eq_cons.1 hl
      refine ih c' ?_ q3
      have x1 := (packed_nil k1).1 k2.solution.state
      have x2 := (packed_nil k1).1 q2.solution.state
      rw [← e1, x2] at q2
      rw [x1] at k2
      obtain ⟨g1, g2⟩ := committed_unique h hV ha.mem k2 q2
      exact ⟨e1, x1.trans x2.symm, g1, g2⟩

end

/-! ## Example -/

def delayed : Leaf ℚ := { id := 1, links := [(0, Demo.rq), (1, Demo.rq), (2, Demo.rq), (3, Demo.ot)], kind := .delay 10 0 1 2 3 }
def remembered : Leaf ℚ := { id := 2, links := [(3, Demo.inp), (4, Demo.ot)], kind := .memory 3 4 }

/-- The input `t² + 1` (signal 0) is delayed by 1/2 (signal 1), with the value 7 (signal 2) before; a `Memory` shows the delayed signal (3) of the step before.
No integrators. -/
def cfg (st : Strategy) : Config ℚ where
  dbg := true
  model := .sub 100 [] [.leaf delayed, .leaf remembered]
  deriv _ := none
  inputs := none
  modelInput t := ([(1, .scalar (1/2)), (2, .scalar 7), (0, .scalar (t * t + 1))], none)
  stepper := none
  strategy := st
  hash := id

def wires : List (Wire ℚ) :=
  [⟨1, .delay .double 10, [C58.sc "in" 0, C58.sc "delay" 1, C58.sc "initial" 2], [C58.sc "out" 3]⟩, ⟨2, .memory .double, [C58.sc "in" 3], [C58.sc "out" 4]⟩]

def world : World ℚ where
  sig _ := { ty := .scalar }
  mem _ := { value := .scalar 9 }
  done _ := false
  log := []

theorem leaves_eq (st : Strategy) : (cfg st).model.leaves = [delayed, remembered] := by simp [cfg, Block.leaves, leavesL]

theorem sealed (st : Strategy) (hst : st ≠ .reuse) : (cfg st).Sealed wires (fun _ => .scalar) (fun b => b) := by
  have hg : ∀ p ∈ wires, ∀ i, p.Gives i → (p.id, i) ∈ [((1 : Nat), (3 : Nat)), (2, 4)] := by
    intro p hp i hi
    obtain ⟨k, t, hi⟩ := hi
    simp only [wires, List.mem_cons, List.not_mem_nil, or_false] at hp
    rcases hp with rfl | rfl <;> (simp only [C58.sc, List.mem_cons, List.not_mem_nil, or_false] at hi; cases hi; decide)
  have ht : ∀ p ∈ wires, ∀ i, p.Takes i → (p.id, i) ∈ [((1 : Nat), (0 : Nat)), (1, 1), (1, 2), (2, 3)] := by
    intro p hp i hi
    obtain ⟨k, t, hi⟩ := hi
    simp only [wires, List.mem_cons, List.not_mem_nil, or_false] at hp
    rcases hp with rfl | rfl
    · simp only [C58.sc, List.mem_cons, List.not_mem_nil, or_false] at hi
      rcases hi with hi | hi | hi <;> cases hi <;> decide
    · simp only [C58.sc, List.mem_cons, List.not_mem_nil, or_false] at hi
      cases hi; decide
  have hk : ∀ t, (cfg st).inputKeys t = [1, 2, 0] := fun t => rfl
  exact {
    dbg := rfl
    assembled := ⟨[delayed, remembered], by with_unfolding_all rfl, by rw [leaves_eq]⟩
    proper := by
      have : (cfg st).model.ids = [100, 1, 2] := by simp [cfg, delayed, remembered, Block.ids, Block.all, allL, Block.id]
      unfold Block.Proper
      rw [this]
      decide
    hash := fun _ => .refl _
    sane := by
      intro p hp
      have ha : ∀ es : Entries, (∀ q ∈ es, ∃ k i, q = C58.sc k i) → Agrees (fun _ => .scalar) es ∧ Sized 1 es := by
        intro es hes
        refine ⟨fun q hq i t e => ?_, fun q hq i m e => ?_⟩ <;> (obtain ⟨k, j, rfl⟩ := hes q hq; cases e)
        rfl
      have h1 : ∀ a i, ∀ q ∈ [C58.sc a i], ∃ k i, q = C58.sc k i := fun a i q hq => by
        rw [List.mem_singleton] at hq; exact ⟨_, _, hq⟩
      have h3 : ∀ q ∈ [C58.sc "in" 0, C58.sc "delay" 1, C58.sc "initial" 2], ∃ k i, q = C58.sc k i := fun q hq => by
        simp only [List.mem_cons, List.not_mem_nil, or_false] at hq
        rcases hq with rfl | rfl | rfl <;> exact ⟨_, _, rfl⟩
      simp only [wires, List.mem_cons, List.not_mem_nil, or_false] at hp
      rcases hp with rfl | rfl
      · exact ⟨(ha _ h3).1, (ha _ (h1 _ _)).1, .inl ⟨1, Nat.one_pos, trivial, trivial, (ha _ h3).2, (ha _ (h1 _ _)).2⟩⟩
      · exact ⟨(ha _ (h1 _ _)).1, (ha _ (h1 _ _)).1, .inl ⟨1, Nat.one_pos, trivial, trivial, (ha _ (h1 _ _)).2, (ha _ (h1 _ _)).2⟩⟩
    once := by
      intro p hp q hq i h1 h2
      have key : ∀ a ∈ [((1 : Nat), (3 : Nat)), (2, 4)], ∀ b ∈ [((1 : Nat), (3 : Nat)), (2, 4)], a.2 = b.2 → a.1 = b.1 := by decide
      exact key _ (hg p hp i h1) _ (hg q hq i h2) rfl
    provided := by
      intro p hp i hi
      have key : ∀ a ∈ [((1 : Nat), (0 : Nat)), (1, 1), (1, 2), (2, 3)], a.2 ∈ [1, 2, 0] ∨ a.2 = 3 := by decide
      rcases key _ (ht p hp i hi) with e | e
      · exact .inl (fun t => by rw [hk]; exact e)
      · exact .inr ⟨_, .head _, str "out", .scalar, by rw [show i = 3 from e]; exact .head _⟩
    loops := by
      intro p hp i hn q hq hgi
      have key : ∀ a ∈ [((1 : Nat), (0 : Nat)), (1, 1), (1, 2), (2, 3)], ∀ b ∈ [((1 : Nat), (3 : Nat)), (2, 4)], a.2 = b.2 → b.1 < a.1 := by decide
      have G := hg q hq i hgi
      have T := ht p hp i
      simp only [wires, List.mem_cons, List.not_mem_nil, or_false] at hp
      rcases hp with rfl | rfl
      · exact .inr (key _ (T hn) _ G rfl)
      · exact hn.elim
    inputs := fun f e => by cases e
    modelInput := ⟨fun t => ⟨fun p hp => by
      simp only [cfg, List.mem_cons, List.not_mem_nil, or_false] at hp
      rcases hp with rfl | rfl | rfl <;> exact ⟨rfl, fun _ => rfl⟩, fun e h => (by cases h)⟩, fun _ => rfl⟩
    inputOnce := fun t => by rw [hk]; decide
    inputFree := fun t s hs => by
      rw [hk] at hs
      refine ⟨⟨_, .head _, ?_⟩, fun p hp hgi => ?_⟩
      · simp only [List.mem_cons, List.not_mem_nil, or_false] at hs
        rcases hs with rfl | rfl | rfl
        · exact ⟨str "delay", .scalar, .tail _ (.head _)⟩
        · exact ⟨str "initial", .scalar, .tail _ (.tail _ (.head _))⟩
        · exact ⟨str "in", .scalar, .head _⟩
      · have key : ∀ a ∈ [((1 : Nat), (3 : Nat)), (2, 4)], ¬ a.2 ∈ [1, 2, 0] := by decide
        exact key _ (hg p hp s hgi) hs
    stepper := fun st e => by cases e
    stepped := by
      rintro ⟨p, hp, e⟩
      simp only [wires, List.mem_cons, List.not_mem_nil, or_false] at hp
      rcases hp with rfl | rfl <;> cases e
    reuse := fun e => (hst e).elim }

theorem new (st : Strategy) : world.New (cfg st) (fun _ => .scalar) where
  fine := {
    types := fun _ => rfl
    cells := fun _ => ⟨fun e => (by cases e), fun v e => (by cases e)⟩
    members := by
      intro l hl
      rw [leaves_eq] at hl
      simp only [List.mem_cons, List.not_mem_nil, or_false] at hl
      rcases hl with rfl | rfl
      · exact ⟨fun v hv => (by cases hv), rfl⟩
      · exact ⟨rfl, fun _ => rfl⟩ }
  done := fun _ => rfl
  record := fun _ _ _ => rfl

/-- The machine after `init(0)` and the calls of `run` for the times. -/
def at_ (st : Strategy) : List ℚ → Machine ℚ
  | [] => stateOf (Call.exec (cfg st) (.init 0) { w := world, s := { tPrev := 0 } })
  | t :: ts => stateOf (Call.exec (cfg st) (.run 1 t (1/10) 10) (at_ st ts))

/-- All hypotheses hold; the delayed signal is 7 at 0, 1 at 1 (the input at 0 - the newest record) and 2 at 2 (the input at 1: the record of time 2 is
not made yet); the memory shows it one step later. -/
example (st : Strategy) (hst : st ≠ .reuse) : (cfg st).Sealed wires (fun _ => .scalar) (fun b => b) ∧ (∀ p ∈ wires, p.obj.Plain) ∧
    (∀ stp, (cfg st).stepper = some stp → stp ∈ [euler, rk4, rkf45]) ∧ world.New (cfg st) (fun _ => .scalar) ∧ world.log = [] ∧
    [(0 : ℚ), 1, 2].Pairwise (· < ·) ∧ RunsTo (cfg st) (1/10) 10 (at_ st []) [1, 2] (at_ st [2, 1]) ∧
    [(at_ st []), (at_ st [1]), (at_ st [2, 1])].map (fun m => (m.w.shown 3, m.w.shown 4)) =
      [(some (.scalar 7), some (.scalar 9)), (some (.scalar 1), some (.scalar 7)), (some (.scalar 2), some (.scalar 1))] := by
  refine ⟨sealed st hst, ?_, ?_, new st, rfl, by decide +kernel, ?_, ?_⟩
  · simp [wires, Make.Plain]
  · intro stp e; cases e
  · exact .cons (m1 := at_ st [1]) 1 (eq_of_returns (by cases st <;> first | exact (hst rfl).elim | decide +kernel))
      (.cons 1 (eq_of_returns (by cases st <;> first | exact (hst rfl).elim | decide +kernel)) .nil)
  · cases st <;> first | exact (hst rfl).elim | decide +kernel

/-- The diagram passes through the times 1 and 2, in one way: any passage from the snapshot after `init(0)` ends with the values 2 and 1. -/
example (st : Strategy) (hst : st ≠ .reuse) : ∃ (V : Vars) (a b : Snapshot ℚ), Passes (cfg st) V a [1, 2] b ∧ a.mem = (at_ st []).w.mem ∧ a.time = 0 ∧
    ∀ b', Passes (cfg st) V a [1, 2] b' → b'.vals 3 = some (.scalar 2) ∧ b'.vals 4 = some (.scalar 1) := by
  have hpl : ∀ p ∈ wires, p.obj.Plain := by simp [wires, Make.Plain]
  obtain ⟨m0, V, x0, g1, g2, g3, _, _, _, g⟩ := C69_passage (cfg st) wires _ _ (sealed st hst) hpl (fun stp e => by cases e) world (new st) rfl 0 0 (1/10) 10
    (by norm_num) (by norm_num)
  have hm0 : m0 = at_ st [] := by unfold at_; rw [g1]; rfl
  subst hm0
  obtain ⟨y, hy⟩ := (g [1, 2] (by decide +kernel)).2 (at_ st [2, 1])
    (.cons (m1 := at_ st [1]) 1 (eq_of_returns (by cases st <;> first | exact (hst rfl).elim | decide +kernel))
      (.cons 1 (eq_of_returns (by cases st <;> first | exact (hst rfl).elim | decide +kernel)) .nil))
  refine ⟨V, _, _, hy, rfl, rfl, fun b' hb' => ?_⟩
  have hu := (C69_unique (cfg st) wires _ _ (sealed st hst) V g3 (fun stp e => by cases e) _ _ _ _ ⟨rfl, rfl, fun _ _ => rfl, fun _ _ => rfl⟩ _ hb' hy).vals
  rw [hu 3 ⟨_, .head _, .inr ⟨str "out", .scalar, .head _⟩⟩, hu 4 ⟨_, .tail _ (.head _), .inr ⟨str "out", .scalar, .head _⟩⟩]
  show (at_ st [2, 1]).w.shown 3 = _ ∧ (at_ st [2, 1]).w.shown 4 = _
  clear hu hb' hy g g1 g2 g3
  cases st <;> first | exact (hst rfl).elim | (constructor <;> decide +kernel)

end Pooya.C69
