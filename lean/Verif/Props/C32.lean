import Verif.Props.C33

/-! C32: repeating a step. -/

namespace Pooya

set_option linter.unusedSectionVars false

variable {K : Type} [Arith K]

/-- `run(t)` with `t` equal to the previous time keeps the time, and the state of an integrator becomes the value with which its next step
would have begun anyway: the value itself for an `Integrator`, and for a `TriggeredIntegrator` unless a reset is pending.
Full statement: the state of every integrator is unchanged; it is false, see `C32_refuted`. -/
theorem C32_repeat_partial (cfg : Config K) (h : Owned cfg) (hdim : ∀ st, cfg.stepper = some st → Stepper.Dim st) {m m' : Machine K}
    (hm : Once cfg m) (hi : m.s.initialized = true) (h0 : 0 < m.s.nState) {n : Nat} {t minH maxH : K} (ht : (t ==. m.s.tPrev) = true)
    (hx : Call.exec cfg (.run n t minH maxH) m = .ok () m') :
    m'.s.tPrev = t ∧ ∀ l ∈ cfg.model.leaves, ∀ out, l.state = some out → (cfg.deriv out).isSome →
      ((m.w.sig out).ty = .scalar ∨ (m.w.sig out).ty.isArray = true) →
      (m'.w.mem l.id).value = l.start (m.w.mem l.id) ∧ m'.value out = some (l.start (m.w.mem l.id)) := by
  have hr := once_ready hdim hm hi
  obtain ⟨x, m1, m2, m3, ha, r1, f1, hxl, hn, f2, f3, f4⟩ := run_final hdim hr hi h0 hx
  have hkey : ∃ ma, beginStep cfg t (m.record (.warnRepeated t)) = .ok x ma ∧ m1 = ma.withSv x := by
    cases ha with
    | @again ma x' _ _ hb =>
      have f1 : some x' = some x := f1
      cases f1
      exact ⟨ma, hb, rfl⟩
    | steps _ e => rw [ht] at e; cases e
  obtain ⟨ma, hb, e1⟩ := hkey
  refine ⟨by rw [f4], fun l hl out hs hd hty => ?_⟩
  obtain ⟨ra, ea, la⟩ := (hr.record (e := .warnRepeated t)).begin hb
  have ea : ma.s = m.s := ea
  have p1 := begin_packed h (hr.record (e := .warnRepeated t)) hb
  have p2 := eval_holds h r1 hxl f2 f3
  have hs3 : m3.s.scalarStates = m.s.scalarStates ∧ m3.s.arrayStates = m.s.arrayStates := by
    have q2 := (r1.reset f2).2
    have q3 := ((r1.reset f2).1.process f3).2
    rw [q3, q2, e1]
    constructor
    · show ma.s.scalarStates = _; rw [ea]
    · show ma.s.arrayStates = _; rw [ea]
  unfold Machine.holds at p2
  rw [hs3.1, hs3.2] at p2
  have hmem : out ∈ m.s.scalarStates ++ m.s.arrayStates := by
    have hlink : out ∈ linkedSigs cfg.model := by
      exact mem_linkedSigs cfg out (h.drivers.preLink l hl out (state_preOuts hs))
    rw [List.mem_append, hr.layout.scalarStates, hr.layout.arrayStates, (h.hash _).mem_iff, (h.hash _).mem_iff]
    rcases hty with e | e
    · left; simp [scalarStatesOf, hlink, e, hd]
    · right; simp [arrayStatesOf, hlink, e, hd]
  have hsz : m3.w.size = m.w.size := by
    funext s
    have g1 := (covers_fixed cfg).beginStep t (m.record (.warnRepeated t))
    rw [hb] at g1
    have g2 := (covers_fixed cfg).reset x m1
    rw [f2] at g2
    have g3 := (covers_fixed cfg).processModel t false true m2
    rw [f3] at g3
    have g1 : (ma.w.sig s).ty = (m.w.sig s).ty := g1.ty s
    have g2 : (m2.w.sig s).ty = (m1.w.sig s).ty := g2.ty s
    have g3 : (m3.w.sig s).ty = (m2.w.sig s).ty := g3.ty s
    show (m3.w.sig s).ty.size = (m.w.sig s).ty.size
    rw [g3, g2, e1]
    show (ma.w.sig s).ty.size = _
    rw [g1]
  rw [hsz] at p2
  have hv := packed_inj p2 p1 out hmem
  have hval : m3.w.val out = some (l.start (m.w.mem l.id)) := by
    rw [hv]
    show cfg.startVal m.w out = _
    unfold Config.startVal
    rw [h.find hl hs]
    rfl
  obtain ⟨v, b, k1, k2, _⟩ := process_integ h.proper hl hs (r1.reset f2).1.mid f3
  rw [if_pos rfl] at k2
  have k2 : m3.w.val out = some v := k2
  rw [hval] at k2
  subst f4
  refine ⟨?_, hval⟩
  show (m3.w.mem l.id).value = _
  rw [k1]
  exact (Option.some.inj k2).symm

/-- For `Integrator` blocks the state with which the next step begins is the state. -/
theorem C32_integrator_partial (l : Leaf K) {x out : SigId} (hk : l.kind = .integrator x out) (m : Mem K) : l.start m = m.value := by
  unfold Leaf.start Leaf.pending
  rw [hk]; rfl

namespace C32

/-- `C32_repeat_partial` on the diagram `x' = 2 u(t) + x`: the state after `run(1)` is 12, also after repeating `run(1)`. -/
example (st : Strategy) : Owned (Demo.cfg st) ∧ Once (Demo.cfg st) (Demo.after st) ∧ (Demo.after st).s.initialized = true ∧
    0 < (Demo.after st).s.nState ∧ ((1 : ℚ) ==. (Demo.after st).s.tPrev) = true ∧
    returns (Call.exec (Demo.cfg st) (.run 100 1 (1/10) 10) (Demo.after st)) = true ∧
    ((stateOf (Call.exec (Demo.cfg st) (.run 100 1 (1/10) 10) (Demo.after st))).w.mem 4).value = .scalar 12 := by
  refine ⟨C36.owned st, C22.demo_once st, ?_, ?_, ?_, ?_, ?_⟩ <;> (cases st <;> decide +kernel)

/-- A `TriggeredIntegrator` with a trigger that is always set. -/
def cfg (st : Strategy) : Config ℚ := { C33.cfg st with
  model := .sub 100 [] [.leaf C33.slope, .leaf { id := 2, links := [(5, Demo.ot)], kind := .const (.bool true) 5 }, .leaf C33.tint] }

def ready : Machine ℚ := stateOf (Call.exec (cfg .plain) (.init 0) C33.start)

end C32

/-- A `TriggeredIntegrator` loses its state when a step is repeated: after `init(0)` it is 5, after `run(0)` it is 0. -/
theorem C32_refuted : (C32.ready.w.mem 4).value = .scalar 5 ∧ C32.ready.value 2 = some (.scalar 5) ∧
    returns (Call.exec (C32.cfg .plain) (.run 100 0 (1/10) 10) C32.ready) = true ∧
    ((stateOf (Call.exec (C32.cfg .plain) (.run 100 0 (1/10) 10) C32.ready)).w.mem 4).value = .scalar 0 ∧
    (stateOf (Call.exec (C32.cfg .plain) (.run 100 0 (1/10) 10) C32.ready)).value 2 = some (.scalar 0) := by
  refine ⟨?_, ?_, ?_, ?_, ?_⟩ <;> decide +kernel

end Pooya
