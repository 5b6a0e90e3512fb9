import Verif.Proof.Carry
import Verif.Props.C22
import Verif.Props.C26

/-! C36: an `Integrator` starts at its initial value and holds its state. -/

namespace Pooya

set_option linter.unusedSectionVars false

variable {K : Type} [Arith K]

/-- After `init` the output of an `Integrator` is the initial condition given to its constructor. -/
theorem C36_initial (cfg : Config K) (hp : cfg.model.Proper) {l : Leaf K} {x out : SigId} (hl : l ∈ cfg.model.leaves)
    (hk : l.kind = .integrator x out) (hd : ∀ l' ∈ cfg.model.leaves, out ∈ l'.preOuts → l'.id = l.id)
    (ho : ∀ l' ∈ cfg.model.leaves, out ∉ l'.outs) {m0 m : Machine K} (hr : Reach cfg m0) {t : K}
    (h : Call.exec cfg (.init t) m0 = .ok () m) :
    m.value out = some (m0.w.mem l.id).value ∧ (m.w.mem l.id).value = (m0.w.mem l.id).value := by
  have hs : l.state = some out := by unfold Leaf.state; rw [hk]
  have hst : ∀ mm : Mem K, l.start mm = mm.value := fun mm => by unfold Leaf.start Leaf.pending; rw [hk]; rfl
  have haf : ∀ mm : Mem K, l.afterPre mm = mm := fun mm => by unfold Leaf.afterPre Leaf.pending; rw [hk]; rfl
  obtain ⟨m1, h1, h2, h3, h4, h5, h6, h7, h8, h9⟩ := init_last hp (reach_mid cfg hr) h
  have hm1 : (m1.w.mem l.id).value = (m0.w.mem l.id).value := by
    by_cases hf : cfg.strategy = .fast
    · obtain ⟨w1, w2, w3, ls, k1, k2, k3, k4, k5, k6⟩ := h9 hf
      obtain ⟨b, e, _⟩ := acts_integ hs k3 (fun l' hl' e => leaf_eq hp (k6 l' hl') hl e)
      obtain ⟨_, _, e2⟩ := preStep_integ hp hl hs hd k2
      rw [k4, e, e2, haf, k1]
    · rw [h8 hf]
  have g1 := process_pre_value hp hl hs hd ho h1 h3
  rw [hst, hm1] at g1
  obtain ⟨v, b, e1, e2, _⟩ := process_integ hp hl hs h1 h3
  rw [if_pos rfl, g1] at e2
  refine ⟨g1, ?_⟩
  rw [e1]
  exact (Option.some.inj e2).symm

/-- An `Integrator` outputs its state at the start of a step without its input: `pre_step` needs only a free output of the right type. -/
theorem C36_no_wait (dbg : Bool) (t : K) (l : Leaf K) {x out : SigId} (hk : l.kind = .integrator x out) (w : World K)
    (ha : (w.sig out).assigned = false) (ht : (w.mem l.id).value.hasTag (w.sig out).ty = true)
    (hz : (w.mem l.id).value.sizeOk (w.sig out).ty = true) :
    ∃ w', l.pre dbg t w = .ok () w' ∧ (w'.sig out).assigned = true ∧ (w'.sig out).value = some (w.mem l.id).value := by
  obtain ⟨w', h⟩ := setv_succ (dbg := dbg) (w := { w with log := .pre l.id t :: w.log }) ht ha hz
  refine ⟨w', ?_, ?_⟩
  · rw [pre_apply]
    unfold Leaf.preBody
    rw [hk]
    show integPre dbg l.id out _ = _
    unfold integPre
    have e : debugVerify dbg (!(w.sig out).assigned) .debugVerify { w with log := .pre l.id t :: w.log } =
        (EStateM.Result.ok () { w with log := .pre l.id t :: w.log } : EStateM.Result Err (World K) Unit) := by
      unfold debugVerify
      rw [ha]
      simp [pure_apply]
    rw [bind_of_ok (a := (w.sig out).assigned) (by rfl), bind_of_ok e, bind_of_ok (a := w.mem l.id) (by rfl)]
    exact h
  · rw [setv_ok h]
    simp [upd]

/-- After a run, the state signals hold the vector the last accepted step ended with, and every integrator keeps the value of its output. -/
theorem C36_hold (cfg : Config K) (h : Owned cfg) (hdim : ∀ st, cfg.stepper = some st → Stepper.Dim st) {m m' : Machine K}
    (hm : Once cfg m) (hi : m.s.initialized = true) (h0 : 0 < m.s.nState) {n : Nat} {t minH maxH : K}
    (hx : Call.exec cfg (.run n t minH maxH) m = .ok () m') :
    (∃ x, m'.s.sv = some x ∧ m'.holds x) ∧
      ∀ l ∈ cfg.model.leaves, ∀ out, l.state = some out → m'.value out = some (m'.w.mem l.id).value := by
  obtain ⟨r, x, h1, h2, h3, h4⟩ := run_states h hdim (once_ready hdim hm hi) hi h0 hx
  refine ⟨⟨x, h1, h3⟩, fun l hl out hs => ?_⟩
  obtain ⟨x', m1, m2, m3, _, r1, _, _, _, f2, f3, f4⟩ := run_final hdim (once_ready hdim hm hi) hi h0 hx
  obtain ⟨v, b, e1, e2, _⟩ := process_integ h.proper hl hs (r1.reset f2).1.mid f3
  rw [if_pos rfl] at e2
  subst f4
  show m3.value out = some (m3.w.mem l.id).value
  rw [e2, e1]

/-- If all state variables belong to `Integrator` blocks, the next step starts with the vector the last accepted step ended with,
whatever the user does to the signals (other than changing their types) in between. -/
theorem C36_carry (cfg : Config K) (h : Owned cfg) (hint : ∀ l ∈ cfg.model.leaves, ∀ out, l.state = some out → ∃ x, l.kind = .integrator x out)
    (hdim : ∀ st, cfg.stepper = some st → Stepper.Dim st) {m m' : Machine K}
    (hm : Once cfg m) (hi : m.s.initialized = true) (h0 : 0 < m.s.nState) {n : Nat} {t minH maxH : K}
    (hx : Call.exec cfg (.run n t minH maxH) m = .ok () m') (sig : SigId → Cell K) (hsig : ∀ s, (sig s).ty = (m'.w.sig s).ty)
    {t' : K} {y : List K} {m'' : Machine K} (hy : beginStep cfg t' { m' with w := { m'.w with sig := sig } } = .ok y m'') :
    m'.s.sv = some y := by
  have hr := once_ready hdim hm hi
  have ho' : Once cfg m' := by
    have := hm.call (.run n t minH maxH) (fun t e => by cases e)
    rw [hx] at this; exact this
  obtain ⟨r, x, h1, h2, h3, h4⟩ := run_states h hdim hr hi h0 hx
  have hi' : m'.s.initialized = true := by
    have := (covers_fixed cfg).run n t minH maxH m hi
    have e : run cfg n t minH maxH m = .ok () m' := hx
    rw [e] at this
    exact this.initialized.trans hi
  have ru : Ready cfg { m' with w := { m'.w with sig := sig } } := once_ready hdim (ho'.user sig hsig) hi'
  have hp := begin_packed h ru hy
  rw [h1]
  congr 1
  refine packed_unique h3 hp (fun s hs => ?_)
  obtain ⟨k1, k2⟩ := state_sig r.layout h.hash hs
  obtain ⟨l, hl, hls⟩ := h.integrated s k1 k2
  have := h4 s hs
  rw [← this]
  unfold Config.keptVal Config.startVal
  rw [h.find hl hls]
  obtain ⟨x', hk⟩ := hint l hl s hls
  show some (m'.w.mem l.id).value = some (l.start (m'.w.mem l.id))
  unfold Leaf.start Leaf.pending
  rw [hk]; rfl

namespace C36

theorem owned (st : Strategy) : Owned (Demo.cfg st) where
  proper := Demo.proper st
  drivers := C22.demo_drivers st
  integrated := by
    intro s _ hs
    have : s = 2 := by
      by_cases e : s = 2
      · exact e
      · simp [Demo.cfg, e] at hs
    subst this
    exact ⟨Demo.integ, by show Demo.integ ∈ Demo.model.leaves; rw [Demo.leaves_eq]; simp, rfl⟩
  hash := fun _ => .refl _

theorem dim (st : Strategy) : ∀ s, (Demo.cfg st).stepper = some s → Stepper.Dim s := by
  rintro s ⟨⟩
  exact (C26.dim_provided (K := ℚ)).1

def ready (st : Strategy) : Machine ℚ := stateOf (Call.exec (Demo.cfg st) (.init 0) Demo.start)

/-- `C36_initial` on the diagram `x' = 2 u(t) + x` with `x0 = 5`. -/
example (st : Strategy) : Demo.integ ∈ (Demo.cfg st).model.leaves ∧ Demo.integ.kind = .integrator 3 2 ∧
    (∀ l' ∈ (Demo.cfg st).model.leaves, 2 ∈ l'.preOuts → l'.id = Demo.integ.id) ∧ (∀ l' ∈ (Demo.cfg st).model.leaves, 2 ∉ l'.outs) ∧
    Reach (Demo.cfg st) Demo.start ∧ Call.exec (Demo.cfg st) (.init 0) Demo.start = .ok () (ready st) ∧
    (ready st).value 2 = some (.scalar 5) := by
  have hlv : (Demo.cfg st).model.leaves = [Demo.add, Demo.gain, Demo.source, Demo.integ] := Demo.leaves_eq
  refine ⟨by rw [hlv]; simp, rfl, by rw [hlv]; decide +kernel, by rw [hlv]; decide +kernel, .new _ _ (fun _ => rfl) rfl, ?_, ?_⟩
  · exact eq_of_returns (by cases st <;> decide +kernel)
  · cases st <;> decide +kernel

/-- `C36_no_wait`: the input (signal 3) is not assigned. -/
example : (Demo.world.sig 2).assigned = false ∧ (Demo.world.mem 4).value.hasTag (Demo.world.sig 2).ty = true ∧
    (Demo.world.mem 4).value.sizeOk (Demo.world.sig 2).ty = true ∧ (Demo.world.sig 3).assigned = false := by decide +kernel

/-- `C36_hold` and `C36_carry`: after `run(1)` the state is 12; then the user overwrites all signals, and the next step starts with 12. -/
example (st : Strategy) : Once (Demo.cfg st) (ready st) ∧ (ready st).s.initialized = true ∧ 0 < (ready st).s.nState ∧
    Call.exec (Demo.cfg st) (.run 100 1 (1/10) 10) (ready st) = .ok () (Demo.after st) ∧
    (∀ l ∈ (Demo.cfg st).model.leaves, ∀ out, l.state = some out → ∃ x, l.kind = .integrator x out) ∧ (Demo.after st).s.sv = some [12] ∧
    (match beginStep (Demo.cfg st) 1 { Demo.after st with w := { (Demo.after st).w with sig := fun _ => { ty := .scalar, value := some (.scalar 7) } } } with
      | .ok y _ => y | .error _ _ => []) = [12] := by
  have hlv : (Demo.cfg st).model.leaves = [Demo.add, Demo.gain, Demo.source, Demo.integ] := Demo.leaves_eq
  refine ⟨.call _ (.new _ _ (fun _ => rfl) rfl) (fun _ _ => rfl), ?_, ?_, eq_of_returns ?_, ?_, ?_, ?_⟩
  · cases st <;> decide +kernel
  · cases st <;> decide +kernel
  · cases st <;> decide +kernel
  · rw [hlv]
    intro l hl out hs
    simp only [List.mem_cons, List.not_mem_nil, or_false] at hl
    rcases hl with rfl | rfl | rfl | rfl <;> simp [Leaf.state, Demo.add, Demo.gain, Demo.source, Demo.integ] at hs ⊢
    exact hs
  · cases st <;> decide +kernel
  · cases st <;> decide +kernel

end C36
end Pooya
