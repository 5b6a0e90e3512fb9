import Verif.Proof.Equations
import Verif.Proof.LeafRun
import Verif.Spec.Demo

/-! # C55: an evaluation solves the equations of the blocks -/

namespace Pooya

set_option linter.unusedSectionVars false

variable {K : Type} [Arith K]

namespace C55

/-- The leaf had its turn: with FastSimulator always, otherwise if what it requires is assigned. -/
def Served (cfg : Config K) (l : Leaf K) (m : Machine K) : Prop :=
  l.kind ≠ .builder ∧ (cfg.strategy ≠ .fast → ∀ s, l.Requires s → (m.w.sig s).assigned = true)

/-- The members `mem` are those of the leaf in `w`, after `pre_step(t)` if `p`. -/
def Members (l : Leaf K) (p : Bool) (t : K) (w : World K) (mem : Mem K) : Prop :=
  match l.kind with
  | .integrator .. | .trigInt .. => True
  | .custom c => if p then ∃ r, c.pre t (w.mem l.id).user = .ok r ∧ mem = { w.mem l.id with user := r.1 } else mem = w.mem l.id
  | _ => mem = w.mem l.id

theorem setAll_mem {dbg : Bool} {ss : List SigId} {vs : List (Option (Val K))} {w w' : World K} (h : setAll dbg ss vs w = .ok () w') : w'.mem = w.mem := by
  induction ss generalizing vs w with
  | nil => cases vs <;> (cases h; rfl)
  | cons s ss ih =>
    cases vs with
    | nil => cases h; rfl
    | cons o vs =>
      cases o with
      | none => exact ih h
      | some u =>
        unfold setAll at h
        obtain ⟨_, w1, h1, h2⟩ := ok_bind h
        rw [ih h2, setv_ok h1]

theorem pre_members {dbg : Bool} {l : Leaf K} {t : K} {wa wb w : World K} (h : l.pre dbg t wa = .ok () wb) (hw : w.mem l.id = wa.mem l.id) :
    Members l true t w (wb.mem l.id) := by
  rw [pre_apply] at h
  unfold Leaf.preBody at h
  unfold Members
  cases hk : l.kind <;> rw [hk] at h <;> try (cases h; exact hw.symm)
  · trivial
  · trivial
  · rename_i c
    obtain ⟨mm, w1, h1, h2⟩ := ok_bind h
    cases h1
    obtain ⟨r, w2, h3, h4⟩ := ok_bind h2
    obtain ⟨e, rfl⟩ := liftE_inv h3
    obtain ⟨_, w3, h5, h6⟩ := ok_bind h4
    cases h5
    dsimp only
    rw [if_pos rfl]
    refine ⟨r, ?_, ?_⟩
    · rw [hw]; exact e
    · rw [setAll_mem h6]
      have e1 : upd wa.mem l.id { wa.mem l.id with user := r.1 } l.id = { wa.mem l.id with user := r.1 } := by simp [upd]
      rw [hw]
      exact e1

end C55

/-- After an evaluation of the diagram at time `t` the values of the assigned signals satisfy the equation of every block that had its turn. -/
theorem C55_evaluation (cfg : Config K) (hdbg : cfg.dbg = true) (hp : cfg.model.Proper) {t : K} {p q : Bool} {m m' : Machine K} (hm : Mid cfg m)
    (hf : Full cfg m) (h : processModel cfg t p q m = .ok () m') :
    ∃ mem : BlkId → Mem K, ∀ l ∈ cfg.model.leaves, C55.Members l p t m.w (mem l.id) ∧ (C55.Served cfg l m' → l.Solved t (mem l.id) m'.w.shown) := by
  obtain ⟨w1, w2, m3, h1, h2, h3, h4⟩ := processModel_ok h
  have hm1 : Mid cfg { m with w := w1 } := mid_of ((covers_mid cfg).inputs t) hm (by show inW _ m = _; unfold inW; rw [h1])
  have e2 : (∀ l ∈ cfg.model.leaves, C55.Members l p t m.w (w2.mem l.id)) ∧ Mid cfg { m with w := w2 } := by
    cases p with
    | false =>
      rw [if_neg (by simp)] at h2
      rw [h2, inputs_mem h1]
      refine ⟨fun l hl => ?_, hm1⟩
      unfold C55.Members
      cases hk : l.kind <;> trivial
    | true =>
      rw [if_pos rfl] at h2
      refine ⟨fun l hl => ?_, mid_of ((covers_mid cfg).pre t) hm1 (by show inW _ _ = _; unfold inW; dsimp only; rw [h2])⟩
      obtain ⟨wa, wb, l2, k1, k2, k3, _⟩ := preStep_leaf hp h2 hl
      rw [k3]
      exact C55.pre_members k1 (by rw [k2, inputs_mem h1])
  obtain ⟨ls, a1, a2, a3, a4, a5⟩ := eval_acts hp e2.2 h3
  have hsig : m'.w.sig = m3.w.sig := by
    cases q with
    | false => rw [if_neg (by simp)] at h4; rw [h4]
    | true =>
      rw [if_pos rfl] at h4
      obtain ⟨w4, h4, rfl⟩ := h4
      exact postStep_sig h4
  rw [hdbg] at a1
  refine ⟨w2.mem, fun l hl => ⟨e2.1 l hl, fun hs => ?_⟩⟩
  have hin : l ∈ ls := by
    by_cases hst : cfg.strategy = .fast
    · rw [a5 hst]; exact hf hst l hl
    · refine a4 hst l hl hs.1 (fun s hr => ?_)
      rw [← hsig]; exact hs.2 hst s hr
  have := acts_solved a1 a2 hin
  have e : m'.w.shown = m3.w.shown := by funext s; unfold World.shown; rw [hsig]
  rw [e]
  exact this

namespace C55

theorem call_last {cfg : Config K} (hp : cfg.model.Proper) {m0 : Machine K} (hr : Reach cfg m0) {m : Machine K} {ms : List (Machine K)}
    (h : Simulated cfg m0 (m :: ms)) : Reach cfg m ∧ Full cfg m ∧ m.s.initialized = true ∧
      ∃ (p : Bool) (m1 m2 : Machine K), Mid cfg m1 ∧ Full cfg m1 ∧ processModel cfg m.s.tPrev p true m1 = .ok () m2 ∧ m.w = m2.w := by
  generalize hms : m :: ms = l at h
  induction h generalizing m ms with
  | @init m' t hx =>
    cases hms
    have hr' : Reach cfg m' := by
      have := Reach.call (cfg := cfg) (.init t) hr
      rw [hx] at this; exact this
    obtain ⟨m1, h1, h2, h3, h4, h5, _⟩ := init_last hp (reach_mid cfg hr) hx
    have e := processModel_sim cfg t true true m1
    rw [h3] at e
    have e : m'.s = { m1.s with po := m'.s.po } := e
    refine ⟨hr', full_init hp hx, by rw [e]; exact h4, true, m1, m', h1, h2, ?_, rfl⟩
    have : m'.s.tPrev = t := by rw [e]; exact h5
    rw [this]; exact h3
  | @run m1 m' ms' sig fuel t minH maxH _ hx ih =>
    cases hms
    obtain ⟨i1, i2, i3, _⟩ := ih rfl
    have hru : Reach cfg { m1 with w := { m1.w with sig := sig } } := .user sig i1
    have hr' : Reach cfg m' := by
      have := Reach.call (cfg := cfg) (.run fuel t minH maxH) hru
      rw [hx] at this; exact this
    have hfu : Full cfg { m1 with w := { m1.w with sig := sig } } := i2
    have hx : run cfg fuel t minH maxH { m1 with w := { m1.w with sig := sig } } = .ok () m' := hx
    have hi' : m'.s.initialized = true := by
      have := (covers_fixed cfg).run fuel t minH maxH { m1 with w := { m1.w with sig := sig } } i3
      rw [hx] at this
      exact this.initialized.trans i3
    have hf' : Full cfg m' := full_run (m := { m1 with w := { m1.w with sig := sig } }) i3 hfu hx
    have ht : m'.s.tPrev = t := (run_time cfg fuel t minH maxH { m1 with w := { m1.w with sig := sig } } i3).1 m' hx
    refine ⟨hr', hf', hi', ?_⟩
    rw [run_eq _ _ _ _ _ _ (by exact i3)] at hx
    have key : ∃ ma, Mid cfg ma ∧ finish cfg t ma = .ok () m' := by
      split at hx
      · obtain ⟨_, ma, g1, g2⟩ := ok_bind hx
        exact ⟨ma, mid_of ((covers_mid cfg).advance fuel t minH maxH) (reach_mid cfg hru) g1, g2⟩
      · exact ⟨_, reach_mid cfg hru, hx⟩
    obtain ⟨ma, k1, k2⟩ := key
    obtain ⟨x, mb, mc, f1, f2, f3, f4⟩ := (finish_ok k2).ex
    have hmb : Mid cfg mb := mid_of ((covers_mid cfg).reset x) k1 f2
    have e := processModel_sim cfg t (decide (x.length = 0)) true mb
    rw [f3] at e
    have e : mc.s = { mb.s with po := mc.s.po } := e
    rw [ht]
    refine ⟨_, mb, mc, hmb, ?_, f3, by rw [f4]⟩
    intro hs l hl
    have := hf' hs l hl
    rw [f4] at this
    have : l ∈ mc.s.fast.flatten := this
    rw [e] at this
    exact this

end C55

/-- When `init(t)` or `run(t)` returns, the values of the assigned signals satisfy, at time `t`, the equation of every block without members that
had its turn. -/
theorem C55_call (cfg : Config K) (hdbg : cfg.dbg = true) (hp : cfg.model.Proper) {m0 m : Machine K} (hr : Reach cfg m0) {ms : List (Machine K)}
    (h : Simulated cfg m0 (m :: ms)) {l : Leaf K} (hl : l ∈ cfg.model.leaves) (ha : l.Algebraic) (hs : C55.Served cfg l m) (mem : Mem K) :
    l.Solved m.s.tPrev mem m.w.shown := by
  obtain ⟨_, _, _, p, m1, m2, h1, h2, h3, h4⟩ := C55.call_last hp hr h
  obtain ⟨mem', hm⟩ := C55_evaluation cfg hdbg hp h1 h2 h3
  rw [h4]
  refine Solved.algebraic ha ((hm l hl).2 ⟨hs.1, fun e s hq => ?_⟩)
  rw [← h4]; exact hs.2 e s hq

/-- Without algebraic loop the equations have at most one solution: two assignments of values to signals that satisfy the equations of all blocks
and agree in the signals that no block assigns (model inputs and state variables) are the same. -/
theorem C55_unique (L : List (Leaf K)) (hf : LoopFree L) (hc : ∀ l ∈ L, l.Complete) (t : K) (mem : BlkId → Mem K)
    (v1 v2 : SigId → Option (Val K)) (h1 : ∀ l ∈ L, l.Solved t (mem l.id) v1) (h2 : ∀ l ∈ L, l.Solved t (mem l.id) v2)
    (h0 : ∀ s, (∀ l ∈ L, s ∉ l.outs) → v1 s = v2 s) : v1 = v2 := by
  obtain ⟨rank, hrk⟩ := hf
  have : ∀ n s, rank s < n → v1 s = v2 s := by
    intro n
    induction n with
    | zero => intro s h; omega
    | succ n ih =>
      intro s hs
      by_cases hd : ∃ l ∈ L, s ∈ l.outs
      · obtain ⟨l, hl, ho⟩ := hd
        refine Solved.det (hc l hl) (h1 l hl) (h2 l hl) (fun x hx => ih x ?_) ho
        have := hrk l hl s ho x hx
        omega
      · exact h0 s (fun l hl ho => hd ⟨l, hl, ho⟩)
  funext s
  exact this _ s (Nat.lt_succ_self _)

/-- Hence the values after a call are determined by the model inputs and the state variables: of a diagram without algebraic loop and without
blocks with members (other than integrators), in which every block had its turn, the signals show the only solution of the equations. -/
theorem C55_determined (cfg : Config K) (hdbg : cfg.dbg = true) (hp : cfg.model.Proper) (hf : LoopFree cfg.model.leaves)
    (hc : ∀ l ∈ cfg.model.leaves, l.Complete) (ha : ∀ l ∈ cfg.model.leaves, l.Algebraic) {m0 m : Machine K} (hr : Reach cfg m0)
    {ms : List (Machine K)} (h : Simulated cfg m0 (m :: ms)) (hs : ∀ l ∈ cfg.model.leaves, l.kind ≠ .builder → C55.Served cfg l m) (mem : BlkId → Mem K)
    (val : SigId → Option (Val K)) (hv : ∀ l ∈ cfg.model.leaves, l.Solved m.s.tPrev (mem l.id) val)
    (h0 : ∀ s, (∀ l ∈ cfg.model.leaves, s ∉ l.outs) → val s = m.w.shown s) : val = m.w.shown := by
  refine C55_unique cfg.model.leaves hf hc m.s.tPrev mem val m.w.shown hv (fun l hl => ?_) h0
  by_cases hk : l.kind = .builder
  · unfold Leaf.Solved; rw [hk]; trivial
  · exact C55_call cfg hdbg hp hr h hl (ha l hl) (hs l hl hk) _

namespace C55

theorem simulated (st : Strategy) : Simulated (Demo.cfg st) Demo.start [Demo.after st, stateOf (Call.exec (Demo.cfg st) (.init 0) Demo.start)] := by
  refine .run (stateOf (Call.exec (Demo.cfg st) (.init 0) Demo.start)).w.sig 100 1 (1/10) 10 (.init 0 (eq_of_returns (by cases st <;> decide +kernel))) ?_
  exact eq_of_returns (by cases st <;> decide +kernel)

/-- `C55_determined` on the diagram `x' = 2 u(t) + x`, `u(t) = t + 1`, after `init(0)`, `run(1)`: every hypothesis is met, and the solution is
`u = 2`, `2 u = 4`, `x = 12`, `x' = 16`. -/
example (st : Strategy) : (Demo.cfg st).dbg = true ∧ (Demo.cfg st).model.Proper ∧ LoopFree (Demo.cfg st).model.leaves ∧
    (∀ l ∈ (Demo.cfg st).model.leaves, l.Complete) ∧ (∀ l ∈ (Demo.cfg st).model.leaves, l.Algebraic) ∧ Reach (Demo.cfg st) Demo.start ∧
    (∀ l ∈ (Demo.cfg st).model.leaves, Served (Demo.cfg st) l (Demo.after st)) ∧
    [0, 1, 2, 3].map (Demo.after st).w.shown = [some (.scalar 2), some (.scalar 4), some (.scalar 12), some (.scalar 16)] := by
  have hlv : (Demo.cfg st).model.leaves = [Demo.add, Demo.gain, Demo.source, Demo.integ] := Demo.leaves_eq
  refine ⟨rfl, Demo.proper st, ?_, ?_, ?_, .new _ _ (fun _ => rfl) rfl, ?_, by cases st <;> decide +kernel⟩
  · rw [hlv]; exact ⟨fun s => if s = 3 then 2 else if s = 1 then 1 else 0, by decide +kernel⟩
  · rw [hlv]; simp [Leaf.Complete, Demo.add, Demo.gain, Demo.source, Demo.integ]
  · rw [hlv]; simp [Leaf.Algebraic, Demo.add, Demo.gain, Demo.source, Demo.integ]
  · rw [hlv]
    intro l hl
    refine ⟨?_, fun _ s hs => ?_⟩
    · rcases (by simpa using hl : l = Demo.add ∨ l = Demo.gain ∨ l = Demo.source ∨ l = Demo.integ) with rfl | rfl | rfl | rfl <;>
        simp [Demo.add, Demo.gain, Demo.source, Demo.integ]
    · have hsg : s ∈ [0, 1, 2, 3] := by
        obtain ⟨f, hf, _⟩ := hs
        have := List.mem_map_of_mem (f := Prod.fst) hf
        dsimp only at this
        revert this
        have h4 : ∀ l ∈ [Demo.add, Demo.gain, Demo.source, Demo.integ], ∀ s ∈ l.links.map Prod.fst, s ∈ [0, 1, 2, 3] := by decide +kernel
        exact h4 l hl s
      have : ∀ s ∈ [0, 1, 2, 3], ((Demo.after st).w.sig s).assigned = true := by cases st <;> decide +kernel
      exact this s hsg

end C55

end Pooya
