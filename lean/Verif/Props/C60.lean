import Verif.Spec.Trajectory
import Verif.Props.C31
import Verif.Props.C59

/-! # C60: closed diagrams are initial value problems, and the simulator computes the points of the chosen method -/

namespace Pooya.C60

open Pooya

set_option linter.unusedSectionVars false

section
variable {K : Type} [Arith K] {cfg : Config K} {ps : List (Wire K)} {ty : SigId → Ty} {rank : BlkId → Nat}

theorem inputKeys_eq (cfg : Config K) (t : K) : (cfg.inputVals t).map Prod.fst = cfg.inputKeys t := by
  unfold Config.inputVals Config.inputKeys
  rw [List.map_append]
  cases cfg.inputs <;> rfl

theorem owned_of (h : cfg.WellPosed ty rank) : Owned cfg := ⟨h.typed.proper, h.drivers, h.integrated, h.typed.hash⟩

/-- The state signals of a simulator after `init`. -/
theorem explicit_of (h : cfg.WellPosed ty rank) {p : K → Prop} {m : Machine K} (hf : Fit cfg ty p m) : Explicit cfg m.vars where
  ranked := ⟨rank, fun l hl s f hs hr => by
    rcases h.ranked l hl s ⟨f, hs, hr⟩ with (hi | hl) | h3
    · exact .inl (fun t => by rw [inputKeys_eq]; exact hi t)
    · exact .inr (.inl (hf.listed h hl))
    · exact .inr (.inr h3)⟩
  derivs := fun s hs d hd => by
    obtain ⟨k1, k2⟩ := state_sig hf.call.layout h.typed.hash hs
    rcases h.derivs s d k1 hd with (hi | hl) | h3
    · exact .inl (fun t => by rw [inputKeys_eq]; exact hi t)
    · exact .inr (.inl (hf.listed h hl))
    · exact .inr (.inr h3)
  reads := h.reads

theorem le_sum {l : List Nat} {a : Nat} (h : a ∈ l) : a ≤ l.sum := by
  induction l with
  | nil => cases h
  | cons b l ih =>
    rw [List.sum_cons]
    rcases List.mem_cons.1 h with rfl | h
    · omega
    · have := ih h; omega

theorem nState_pos (h : cfg.WellPosed ty rank) {p : K → Prop} {m : Machine K} (hf : Fit cfg ty p m) {s : SigId} (hs : s ∈ m.vars.scalars ++ m.vars.arrays) :
    0 < m.s.nState := by
  obtain ⟨k1, k2⟩ := state_sig hf.call.layout h.typed.hash hs
  have hz := h.sizes s k2
  rw [hf.call.layout.nState]
  unfold stateSize
  rcases List.mem_append.1 hs with hs | hs
  · have hs : s ∈ m.s.scalarStates := hs
    rw [hf.call.layout.scalarStates, (h.typed.hash _).mem_iff] at hs
    have := List.length_pos_of_mem hs
    omega
  · have hs : s ∈ m.s.arrayStates := hs
    rw [hf.call.layout.arrayStates, (h.typed.hash _).mem_iff] at hs
    have : (m.w.sig s).ty.size ≤ ((arrayStatesOf cfg m.w).map (fun s => (m.w.sig s).ty.size)).sum :=
      le_sum (List.mem_map_of_mem hs)
    rw [hf.world.types] at this
    omega

/-- C60, right-hand side: once `init` has returned, the equations of a complete diagram define one vector of derivatives for every time and every
state, whatever values the blocks have stored.  (`C59_complete`: closed diagrams are complete.) -/
theorem C60_rhs (cfg : Config K) (ty : SigId → Ty) (rank : BlkId → Nat) (h : cfg.WellPosed ty rank) (ho : cfg.Delays → OrderedArith K)
    (hc : ∀ l ∈ cfg.model.leaves, l.Calm) (m : Machine K) (hm : Attended cfg ty m) (hg : Ongoing cfg m) (t : K) (x : List K) (hx : x.length = m.s.nState) :
    ∃ d, d.length = m.s.nState ∧ ∀ d', Rhs cfg m.vars m.w.mem t x d' ↔ d' = d := by
  have hi := hg.once.2
  have hf := (attended_cared h ho hm).fit hi
  have hcc : CanCompare cfg := fun hd => (ho hd).total
  obtain ⟨d, m', g1, g2, g3, g4⟩ := runs_minor h hcc hf hx t
  have hco := hg.course (owned_of h) h.typed.dbg h.typed.stepper hc
  obtain ⟨_, _, k3, k4⟩ := hco.minor (owned_of h) h.typed.dbg rfl hx g1
  exact ⟨d, k3, fun d' => ⟨fun h' => Rhs.unique (explicit_of h hf) h.complete h' k4, fun e => e ▸ k4⟩⟩

theorem fixed_run {m m' : Machine K} {fuel : Nat} {t minH maxH : K} (hi : m.s.initialized = true)
    (hx : Call.exec cfg (.run fuel t minH maxH) m = .ok () m') : Fixed m m' := by
  have hx : run cfg fuel t minH maxH m = .ok () m' := hx
  have := (covers_fixed cfg).run fuel t minH maxH m hi
  rw [hx] at this
  exact this

theorem evolves_solution (ha : ∀ l ∈ cfg.model.leaves, l.Algebraic) {V : Vars} {st : Stepper K} {t s : K} {x y : List K} {steps : List (K × K)}
    {mem mem' : BlkId → Mem K} {val : SigId → Option (Val K)} (h : Evolves cfg V st t mem s x steps y val mem') (m : BlkId → Mem K) : Solution cfg V m t y val := by
  induction h with
  | last _ _ _ h4 => exact h4.solution.algebraic ha
  | step _ _ _ _ _ ih => exact ih

/-- A simulation at time `t` with the state `x` in the integrators. -/
structure Mark (cfg : Config K) (ty : SigId → Ty) (V : Vars) (n : Nat) (t : K) (x : List K) (m : Machine K) : Prop where
  attended : Attended cfg ty m
  ongoing : Ongoing cfg m
  vars : m.vars = V
  nState : m.s.nState = n
  time : m.s.tPrev = t
  stands : cfg.Stands V m.w.mem x

variable {V : Vars} {n : Nat} {x : List K} {m m' : Machine K}

/-- The signals after `init` solve the diagram. -/
theorem init_solution (h : cfg.WellPosed ty rank) (hc : ∀ l ∈ cfg.model.leaves, l.Calm) (ha : ∀ l ∈ cfg.model.leaves, l.Algebraic) {w : World K}
    (hw : w.New cfg ty) (hlog : w.log = []) {tPrev t0 : K} (hx : Call.exec cfg (.init t0) { w := w, s := { tPrev := tPrev } } = .ok () m)
    (hl : C57.Left cfg ty t0 m) (hs : cfg.Stands m.vars m.w.mem x) (mem : BlkId → Mem K) : Solution cfg m.vars mem t0 x m.w.shown := by
  have ho := owned_of h
  have hon : Ongoing cfg m := .init w tPrev t0 hw.done hlog hx
  have hco := hon.course ho h.typed.dbg h.typed.stepper hc
  have hr : Reach cfg { w := w, s := { tPrev := tPrev } } := .new w tPrev hw.done hlog
  obtain ⟨m1, h1, h2, h3, _⟩ := init_last h.typed.proper (reach_mid cfg hr) hx
  obtain ⟨p1, p2⟩ := process_shown h.typed.dbg h.typed.proper h1 h3
  refine ⟨p1, Packed.congr hs (fun s hs => ?_) (fun _ _ => rfl), fun l hl' hreq => ?_⟩
  · obtain ⟨l, hl', e⟩ := hco.integrated ho s hs
    rw [ho.find hl' e]
    have hcal := hc l hl'
    unfold Leaf.Calm at hcal
    rcases state_cases e with ⟨i, hk⟩ | ⟨i, tr, hk⟩
    · have hpre : s ∈ l.preOuts := by unfold Leaf.preOuts; rw [hk]; exact List.mem_singleton.2 rfl
      have := C36_initial cfg h.typed.proper hl' hk (fun l' hl' hs' => h.drivers.prePre l' hl' l (by assumption) s hs' hpre)
        (fun l' hl' hs' => h.drivers.outPre l' hl' l (by assumption) s hs' hpre) hr hx
      have hasg : (m.w.sig s).assigned = true := (hl.values s (.inl (.inr (state_sig hco.ready.layout ho.hash hs)))).1
      rw [shown_val hasg]
      exact this.1.trans (congrArg some this.2.symm)
    · rw [hk] at hcal; exact hcal.elim
  · have ht := hl.time
    rw [← ht]
    refine C55_call cfg h.typed.dbg h.typed.proper hr (.init t0 hx) hl' (ha l hl') ⟨fun e => h.builder l hl' (by rw [e]), fun _ s hq => ?_⟩ _
    obtain ⟨f, k1, k2⟩ := hq
    obtain ⟨v, hv⟩ := hreq s f k1 k2
    exact shown_some hv

/-- The state signals are the outputs of the integrators. -/
theorem init_vars (h : cfg.Sealed ps ty rank) {p : K → Prop} (hf : Fit cfg ty p m) (s : SigId) :
    s ∈ m.vars.scalars ++ m.vars.arrays ↔ ∃ p ∈ ps, p.obj.isState = true ∧ p.Gives s := by
  have hp := C59.C59_complete cfg ps ty rank h
  constructor
  · intro hs
    obtain ⟨k1, k2⟩ := state_sig hf.call.layout hp.typed.hash hs
    obtain ⟨l, hl, e⟩ := C59.deriv_state h k2
    obtain ⟨p, hp, hfit⟩ := C59.leaf_wire h hl
    exact ⟨p, hp, (hfit.state s e).2, (hfit.state s e).1⟩
  · rintro ⟨p, hpp, hb, hg⟩
    obtain ⟨l, hl, hfit⟩ := C59.wire_leaf h hpp
    rcases hfit.gives s hg with ⟨hb', _⟩ | ⟨_, e⟩
    · rw [hb] at hb'; cases hb'
    · refine hf.listed hp ⟨C59.link_of hl (hfit.links s (.inr hg)), ?_⟩
      exact (C58_states cfg ps h.assembled (C59.sealed_proper h)).2.1 l hl s e

/-- The first state consists of the initial conditions. -/
theorem init_stands (h : cfg.WellPosed ty rank) (hc : ∀ l ∈ cfg.model.leaves, l.Calm) {w : World K} (hw : w.New cfg ty) (hlog : w.log = []) {tPrev t0 : K}
    (hx : Call.exec cfg (.init t0) { w := w, s := { tPrev := tPrev } } = .ok () m) (hs : cfg.Stands m.vars m.w.mem x) : cfg.Stands m.vars w.mem x := by
  have ho := owned_of h
  have hon : Ongoing cfg m := .init w tPrev t0 hw.done hlog hx
  have hco := hon.course ho h.typed.dbg h.typed.stepper hc
  refine Packed.congr hs (fun s hs => ?_) (fun _ _ => rfl)
  obtain ⟨l, hl, e⟩ := hco.integrated ho s hs
  rw [ho.find hl e]
  have hcal := hc l hl
  unfold Leaf.Calm at hcal
  rcases state_cases e with ⟨i, hk⟩ | ⟨i, tr, hk⟩
  · have hpre : s ∈ l.preOuts := by unfold Leaf.preOuts; rw [hk]; exact List.mem_singleton.2 rfl
    have := C36_initial cfg h.typed.proper hl hk (fun l' hl' hs' => h.drivers.prePre l' hl' l hl s hs' hpre)
      (fun l' hl' hs' => h.drivers.outPre l' hl' l hl s hs' hpre) (.new w tPrev hw.done hlog) hx
    exact congrArg some this.2.symm
  · rw [hk] at hcal; exact hcal.elim

theorem kind_memoryless {o : Make K} (ho : o.Memoryless) {ib ob : Entries} {b : Bound} {i : BlkId} {ls : List (SigId × Flags)} {k : Kind K}
    (hk : o.kind ib ob b = .ok k) : (⟨i, ls, k⟩ : Leaf K).Algebraic ∧ (⟨i, ls, k⟩ : Leaf K).Calm := by
  unfold Leaf.Algebraic Leaf.Calm
  unfold Make.kind at hk
  split at hk <;> first | (exact ho.elim) | (cases hk; exact ⟨trivial, trivial⟩) | skip
  · split at hk <;> cases hk
    exact ⟨trivial, trivial⟩
  · split at hk <;> cases hk
    exact ⟨trivial, trivial⟩
  · split at hk <;> cases hk
    exact ⟨trivial, trivial⟩
  · cases hk

/-- The leaves of a diagram of blocks without memory. -/
theorem memoryless_leaf (h : cfg.Sealed ps ty rank) (hm : ∀ p ∈ ps, p.obj.Memoryless) {l : Leaf K} (hl : l ∈ cfg.model.leaves) : l.Algebraic ∧ l.Calm := by
  obtain ⟨ls, h1, h2⟩ := h.assembled
  obtain ⟨p, hp, d1, d2, e⟩ := C58.all_mem h1 l (h2.mem_iff.1 hl)
  have hme := hm p hp
  obtain ⟨b, s, _, hk, _⟩ := C58.inv (fun a b c e f he => by rw [he] at hme; exact hme) e
  exact kind_memoryless hme hk

end

section
variable {F : Type} [_root_.Field F] [LinearOrder F] [IsStrictOrderedRing F] [Archimedean F]
attribute [local instance] Arith.exact

variable {cfg : Config F} {ps : List (Wire F)} {ty : SigId → Ty} {rank : BlkId → Nat} {V : Vars} {n : Nat} {t u minH maxH : F} {x : List F} {m m' : Machine F}

theorem fair_of (hm : Mark cfg ty V n t x m) (hu : t < u) (h0 : 0 < minH) (h1 : minH < maxH) (fuel : Nat) : (Call.run fuel u minH maxH).Fair cfg m := by
  intro _
  rw [hm.time]
  exact ⟨fun _ => decide_eq_true hu, fun _ => ⟨.inr (.inr (decide_eq_true hu)), decide_eq_false (not_lt.2 hu.le), by simpa using h0, decide_eq_true h1, fun _ => C57.C57_exact cfg t u minH maxH h0⟩⟩

/-- A call of `run` applies steps of the method. -/
theorem Mark.run (h : cfg.WellPosed ty rank) (hc : ∀ l ∈ cfg.model.leaves, l.Calm) (ha : ∀ l ∈ cfg.model.leaves, l.Algebraic) {st : Stepper F}
    (hst : cfg.stepper = some st) {f : F → List F → List F}
    (hf : (∀ mem t x d, Rhs cfg V mem t x d → d = f t x) ∧ ∀ (st : Stepper F) (t : F) (mem : BlkId → Mem F) (s : F) (x : List F) (steps : List (F × F))
      (y : List F) (val : SigId → Option (Val F)) (mem' : BlkId → Mem F), Evolves cfg V st t mem s x steps y val mem' → y = st.over f x steps)
    (hn : 0 < n) (hm : Mark cfg ty V n t x m) (hu : t < u) (h0 : 0 < minH) (h1 : minH < maxH) {fuel : Nat}
    (hx : Call.exec cfg (.run fuel u minH maxH) m = .ok () m') :
    ∃ steps, Tiles t u steps ∧ (st ∈ [euler, rk4] → steps = [(t, u)]) ∧ Mark cfg ty V n u (st.over f x steps) m' ∧
      ∀ mem, Solution cfg V mem u (st.over f x steps) m'.w.shown := by
  have ho := owned_of h
  have hi := hm.ongoing.once.2
  have hfx := fixed_run hi hx
  have hvars : m'.vars = V := (vars_fixed hfx).trans hm.vars
  have hat : Attended cfg ty m' := .call _ hm.attended (fair_of hm hu h0 h1 fuel) hx
  have htime := runs_call h (fun _ => C57.ordered_exact) (attended_cared h (fun _ => C57.ordered_exact) hm.attended) _ (fair_of hm hu h0 h1 fuel)
  rw [hx] at htime
  have hon : Ongoing cfg m' := .run _ _ _ _ hm.ongoing hx
  have hco := hm.ongoing.course ho h.typed.dbg h.typed.stepper hc
  have hsv : 0 < m.s.svSize := by rw [hco.ready.sized.1, hm.nState]; exact hn
  obtain ⟨new, x1, y, g1, g2, g3, g4⟩ := C31_run cfg h.typed.dbg ho st hst (h.typed.stepper st hst) hc hm.ongoing (by rw [hm.nState]; exact hn)
    (t := u) (by rw [hm.time]; exact decide_eq_true hu) (by rw [hm.time]; exact decide_eq_false (ne_of_gt hu)) hx
  obtain ⟨new', e1, e2⟩ := C27.C27_tiling cfg fuel u minH maxH m m' hi hsv (by rw [hm.time]; exact hu) h0 hx
  have e : new = new' := List.append_cancel_right (g1.symm.trans e1)
  subst e
  have hsg : st ∈ [euler, rk4] → acceptsIn new = [(t, u)] := by
    intro he
    obtain ⟨new', e1, e2⟩ := C29.C29_single cfg st he hst fuel u minH maxH m m' hi hsv (by rw [hm.time]; exact hu) hx
    have e : new = new' := List.append_cancel_right (g1.symm.trans e1)
    subst e
    unfold acceptsIn; rw [e2, hm.time]; rfl
  rw [hm.vars] at g2 g3 g4
  have hx1 : x1 = x := packed_unique g2 hm.stands (fun _ _ => rfl)
  subst hx1
  rw [hm.time] at g3 e2
  have hy := hf.2 _ _ _ _ _ _ _ _ _ g3
  refine ⟨acceptsIn new, e2, hsg, ?_⟩
  rw [← hy]
  exact ⟨⟨hat, hon, hvars, hfx.nState.trans hm.nState, htime.2.2.1, g4⟩, evolves_solution ha g3⟩

/-- Calls of `run` return and apply steps of the method. -/
theorem Mark.runs (h : cfg.WellPosed ty rank) (hc : ∀ l ∈ cfg.model.leaves, l.Calm) (ha : ∀ l ∈ cfg.model.leaves, l.Algebraic) {st : Stepper F}
    (hst : cfg.stepper = some st) (he : st ∈ [euler, rk4, rkf45]) {f : F → List F → List F}
    (hf : (∀ mem t x d, Rhs cfg V mem t x d → d = f t x) ∧ ∀ (st : Stepper F) (t : F) (mem : BlkId → Mem F) (s : F) (x : List F) (steps : List (F × F))
      (y : List F) (val : SigId → Option (Val F)) (mem' : BlkId → Mem F), Evolves cfg V st t mem s x steps y val mem' → y = st.over f x steps)
    (hn : 0 < n) (h0 : 0 < minH) (h1 : minH < maxH) (ts : List F) : ∀ {t : F} {x : List F} {m : Machine F}, (t :: ts).Pairwise (· < ·) →
    Mark cfg ty V n t x m → (∀ mem, Solution cfg V mem t x m.w.shown) → (∃ m', RunsTo cfg minH maxH m ts m') ∧
      ∀ m', RunsTo cfg minH maxH m ts m' → ∃ y, Follows st f t x ts y ∧ (st ∈ [euler, rk4] → y = st.iterate f t x ts) ∧
        Mark cfg ty V n ((t :: ts).getLast (by simp)) y m' ∧ ∀ mem, Solution cfg V mem ((t :: ts).getLast (by simp)) y m'.w.shown := by
  induction ts with
  | nil =>
    intro t x m _ hm hsol
    refine ⟨⟨m, .nil⟩, fun m' hr => ?_⟩
    cases hr
    exact ⟨x, .nil, fun _ => rfl, hm, hsol⟩
  | cons u us ih =>
    intro t x m hp hm _
    have hu : t < u := (List.pairwise_cons.1 hp).1 u (by simp)
    have hp' := (List.pairwise_cons.1 hp).2
    constructor
    · obtain ⟨N, hN⟩ := C57.C57_run cfg ty rank h (fun st' e => by rw [hst] at e; cases e; exact he) m hm.attended u minH maxH
        (fair_of hm hu h0 h1 0) h0
      obtain ⟨m1, g1, _⟩ := hN N (le_refl _)
      obtain ⟨_, _, _, k, k'⟩ := hm.run h hc ha hst hf hn hu h0 h1 g1
      obtain ⟨⟨m', g2⟩, _⟩ := ih hp' k k'
      exact ⟨m', .cons N g1 g2⟩
    · intro m' hr
      cases hr with
      | cons fuel g1 g2 =>
        obtain ⟨steps, k0, k00, k1, k2⟩ := hm.run h hc ha hst hf hn hu h0 h1 g1
        obtain ⟨_, k3⟩ := ih hp' k1 k2
        obtain ⟨y, k4, k5, k6, k7⟩ := k3 m' g2
        refine ⟨y, .cons steps k0 k4, fun e => ?_, ?_⟩
        · rw [k5 e, k00 e]; rfl
        rw [List.getLast_cons (by simp)]
        exact ⟨k6, k7⟩

/-- C60: a closed diagram of blocks without memory, with at least one integrator, simulated with one of the provided methods.  The outputs of the integrators form
a vector; the equations of the diagram define its derivative `f t x` for every time and state; the initial conditions given to the integrators form
the first state `x0`.  After `init(t0)`, calls of `run` for any increasing times return; the state of the integrators is then one that the formula of the method
gives for the right-hand side `f`, with steps that follow each other and end at each of the times (one step to each of the times for Euler and Rk4), and the
signals solve the equations of the diagram at the last time with this state. -/
theorem C60_trajectory (cfg : Config F) (ps : List (Wire F)) (ty : SigId → Ty) (rank : BlkId → Nat) (h : cfg.Sealed ps ty rank)
    (hme : ∀ p ∈ ps, p.obj.Memoryless) (hs : ∃ p ∈ ps, p.obj.isState = true) (st : Stepper F) (hst : cfg.stepper = some st) (he : st ∈ [euler, rk4, rkf45])
    (w : World F) (hw : w.New cfg ty) (hlog : w.log = []) (tPrev t0 minH maxH : F) (h0 : 0 < minH) (h1 : minH < maxH) :
    ∃ (m0 : Machine F) (V : Vars) (n : Nat) (f : F → List F → List F) (x0 : List F),
      Call.exec cfg (.init t0) { w := w, s := { tPrev := tPrev } } = .ok () m0 ∧ V = m0.vars ∧ n = m0.s.nState ∧ 0 < n ∧ x0.length = n ∧
      (∀ s, s ∈ V.scalars ++ V.arrays ↔ ∃ p ∈ ps, p.obj.isState = true ∧ p.Gives s) ∧ (∀ s, V.size s = (ty s).size) ∧
      (∀ mem t x d, x.length = n → (Rhs cfg V mem t x d ↔ d = f t x)) ∧ (∀ t x, x.length = n → (f t x).length = n) ∧ cfg.Stands V w.mem x0 ∧
      ∀ ts : List F, (t0 :: ts).Pairwise (· < ·) →
        (∃ m, RunsTo cfg minH maxH m0 ts m) ∧
        ∀ m, RunsTo cfg minH maxH m0 ts m → ∃ y, Follows st f t0 x0 ts y ∧ (st ∈ [euler, rk4] → y = st.iterate f t0 x0 ts) ∧ cfg.Stands V m.w.mem y ∧
          ∀ mem, Solution cfg V mem ((t0 :: ts).getLast (by simp)) y m.w.shown := by
  have hp := C59.C59_complete cfg ps ty rank h
  have ho := owned_of hp
  have ha : ∀ l ∈ cfg.model.leaves, l.Algebraic := fun l hl => (memoryless_leaf h hme hl).1
  have hc : ∀ l ∈ cfg.model.leaves, l.Calm := fun l hl => (memoryless_leaf h hme hl).2
  have hord : cfg.Delays → OrderedArith F := fun _ => C57.ordered_exact
  obtain ⟨m0, g1, g2⟩ := C57.C57_init cfg ty rank hp hord _ (.new w tPrev hw) rfl t0
  have hat : Attended cfg ty m0 := .call (.init t0) (.new w tPrev hw) rfl g1
  have hon : Ongoing cfg m0 := .init w tPrev t0 hw.done hlog g1
  have hf := (attended_cared hp hord hat).fit g2.init
  have hmemV := init_vars h hf
  have hn : 0 < m0.s.nState := by
    obtain ⟨p, hpp, hb⟩ := hs
    obtain ⟨l, hl, hfit⟩ := C59.wire_leaf h hpp
    obtain ⟨s, e⟩ := hfit.owns hb
    exact nState_pos hp hf ((hmemV s).2 ⟨p, hpp, hb, (hfit.state s e).1⟩)
  have hex := explicit_of hp hf
  obtain ⟨f, hf1, hf2⟩ := C31_integrates cfg m0.vars hex hp.complete ha
  have hrhs : ∀ mem t x d, x.length = m0.s.nState → (Rhs cfg m0.vars mem t x d ↔ d = f t x) := by
    intro mem t x d hx
    refine ⟨hf1 mem t x d, fun e => ?_⟩
    obtain ⟨d', _, hd'⟩ := C60_rhs cfg ty rank hp hord hc m0 hat hon t x hx
    have hr := (hd' d').2 rfl
    have e' := hf1 _ _ _ _ hr
    rw [e, ← e']
    obtain ⟨val, k1, k2⟩ := hr
    exact ⟨val, k1.algebraic ha, k2⟩
  have hco := hon.course ho hp.typed.dbg hp.typed.stepper hc
  obtain ⟨x0, mb, b1, _, _, b4⟩ := runs_begin hp hf t0
  obtain ⟨x1, hx1⟩ := hco.start ho b1
  have hx01 : x0 = x1 := (hco.begin ho hx1 b1).1
  subst hx01
  have hw0 := init_stands hp hc hw hlog g1 hx1
  refine ⟨m0, m0.vars, m0.s.nState, f, x0, g1, rfl, rfl, hn, b4, hmemV, fun s => by show (m0.w.sig s).ty.size = _; rw [hf.world.types], hrhs, ?_, hw0, fun ts hts => ?_⟩
  · intro t x hx
    obtain ⟨d', hl, hd'⟩ := C60_rhs cfg ty rank hp hord hc m0 hat hon t x hx
    rw [← hf1 _ _ _ _ ((hd' d').2 rfl)]; exact hl
  · obtain ⟨k1, k2⟩ := Mark.runs hp hc ha hst he ⟨hf1, hf2⟩ hn h0 h1 ts hts ⟨hat, hon, rfl, rfl, g2.time, hx1⟩
      (init_solution hp hc ha hw hlog g1 g2 hx1)
    refine ⟨k1, fun m hm => ?_⟩
    obtain ⟨y, k3, k4, k5, k6⟩ := k2 m hm
    exact ⟨y, k3, k4, k5.stands, k6⟩

end

/-! ## Example -/

/-- The diagram `x' = 2 (t + 1) + x`, `x(0) = 5`, with Euler's method: the hypotheses hold, and after `run(1)` and `run(2)` the state is
5, 5 + 7 = 12, 12 + 16 = 28. -/
example (st : Strategy) : (Demo.cfg st).Sealed C58.demoWires (fun _ => .scalar) (fun b => if b = 1 then 2 else if b = 2 then 1 else 0) ∧
    (∀ p ∈ C58.demoWires, p.obj.Memoryless) ∧ (∃ p ∈ C58.demoWires, p.obj.isState = true) ∧ (Demo.cfg st).stepper = some euler ∧
    Demo.world.New (Demo.cfg st) (fun _ => .scalar) ∧ Demo.world.log = [] ∧ [(0 : ℚ), 1, 2].Pairwise (· < ·) ∧
    (∀ f : ℚ → List ℚ → List ℚ, (∀ t x, f t [x] = [2 * (t + 1) + x]) → Stepper.iterate euler f 0 [5] [1, 2] = [28]) ∧
    RunsTo (Demo.cfg st) (1/10) 10 (C36.ready st) [1, 2] (stateOf (Call.exec (Demo.cfg st) (.run 100 2 (1/10) 10) (Demo.after st))) := by
  refine ⟨C59.demo_sealed st, ?_, ⟨_, .tail _ (.head _), rfl⟩, rfl, C57.demo_new st, rfl, by decide +kernel, fun f hf => ?_, ?_⟩
  · simp [C58.demoWires, Make.Memoryless]
  · have h1 : vadd [5] (vsmul (1 - 0) (f 0 [5])) = [12] := by rw [hf]; decide +kernel
    show vadd (vadd [5] (vsmul (1 - 0) (f 0 [5]))) (vsmul (2 - 1) (f 1 (vadd [5] (vsmul (1 - 0) (f 0 [5]))))) = [28]
    rw [h1, hf]; decide +kernel
  · exact .cons (m1 := Demo.after st) 100 (eq_of_returns (by cases st <;> decide +kernel)) (.cons 100 (eq_of_returns (by cases st <;> decide +kernel)) .nil)

end Pooya.C60
