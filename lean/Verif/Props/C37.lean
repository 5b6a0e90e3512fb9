import Verif.Proof.Trigger
import Verif.Props.C33

/-! C37: the resets of a `TriggeredIntegrator`. -/

namespace Pooya

set_option linter.unusedSectionVars false

variable {K : Type} [Arith K]

/-- `l` is a `TriggeredIntegrator` of a model in a debug build: it requires the trigger and its output only, and nothing else drives its
output. -/
structure C37.Here (cfg : Config K) (l : Leaf K) (tr out : SigId) : Prop where
  dbg : cfg.dbg = true
  proper : cfg.model.Proper
  mem : l ∈ cfg.model.leaves
  kind : ∃ x, l.kind = .trigInt x tr out
  requires : ∀ s, l.Requires s → s = tr ∨ s = out
  pre : ∀ l' ∈ cfg.model.leaves, out ∈ l'.preOuts → l'.id = l.id
  act : ∀ l' ∈ cfg.model.leaves, out ∉ l'.outs
  input : ∀ t, out ∉ cfg.inputKeys t

namespace C37

variable {cfg : Config K} {l : Leaf K} {tr out : SigId}

theorem Here.state (h : Here cfg l tr out) : l.state = some out := by
  obtain ⟨x, hk⟩ := h.kind
  unfold Leaf.state; rw [hk]

/-- The state with which a step starts. -/
theorem begin_value (h : Here cfg l tr out) {m m' : Machine K} {t : K} {orig : List K} (hb : beginStep cfg t m = .ok orig m') :
    m'.value out = some (l.start (m.w.mem l.id)) ∧ m'.w.mem l.id = l.afterPre (m.w.mem l.id) := by
  obtain ⟨w1, w2, w3, h1, h2, h3, h4⟩ := beginStep_ok hb
  obtain ⟨e, h5, h6⟩ := getStates_ok h4
  subst e
  obtain ⟨_, g2, g3⟩ := preStep_integ h.proper h.mem h.state h.pre h3
  rw [inputs_mem h2, clear_mem h1] at g2 g3
  exact ⟨g2, g3⟩

theorem full_of_fast {m m' : Machine K} (hf : Full cfg m) (e : m'.s.fast = m.s.fast) : Full cfg m' := fun hs l hl => by
  rw [e]; exact hf hs l hl

theorem fixed_of {α : Type} {x : MM K α} (h : Moves Fixed x) {m m' : Machine K} {a : α} (hx : x m = .ok a m') : Fixed m m' := by
  have := h m
  rw [hx] at this
  exact this

theorem begin_keeps {m m' : Machine K} {t : K} {orig : List K} (hm : Mid cfg m) (hf : Full cfg m) (hb : beginStep cfg t m = .ok orig m') :
    Mid cfg m' ∧ Full cfg m' ∧ Fixed m m' := by
  refine ⟨mid_of ((covers_mid cfg).beginStep t) hm hb, ?_, fixed_of ((covers_fixed cfg).beginStep t) hb⟩
  obtain ⟨w1, w2, w3, h1, h2, h3, h4⟩ := beginStep_ok hb
  obtain ⟨e, _⟩ := getStates_ok h4
  subst e
  exact full_of_fast hf rfl

theorem reset_keeps {m m' : Machine K} {x : List K} (hm : Mid cfg m) (hf : Full cfg m) (hb : resetWith cfg x m = .ok () m') :
    Mid cfg m' ∧ Full cfg m' ∧ Fixed m m' := by
  refine ⟨mid_of ((covers_mid cfg).reset x) hm hb, ?_, fixed_of ((covers_fixed cfg).reset x) hb⟩
  have e := resetWith_sim cfg x m
  rw [hb] at e
  have e : m'.s = m.s := e
  exact full_of_fast hf (by rw [e])

/-- The members of the block during the evaluations of a stepper. -/
theorem stages (h : Here cfg l tr out) {p : StepProg K} {m m' : Machine K} {r : List K × K} (hm : Mid cfg m) (hf : Full cfg m)
    (ht : m.Tracks out) (hx : p.exec (minorCb cfg) m = .ok r m') :
    ∃ ms, Stages cfg p m ms r m' ∧ Mid cfg m' ∧ Full cfg m' ∧ m'.Tracks out ∧ (m'.w.mem l.id).value = (m.w.mem l.id).value ∧
      ((m'.w.mem l.id).triggered = true ↔ (m.w.mem l.id).triggered = true ∨ ∃ s ∈ ms, s.fires tr) := by
  induction p generalizing m with
  | ret v hh => cases hx; exact ⟨[], .ret _ _ _, hm, hf, ht, rfl, by simp⟩
  | call t v k ih =>
    unfold StepProg.exec at hx
    obtain ⟨d, m1, h1, h2⟩ := ok_bind hx
    obtain ⟨m2, g1, g2, g3⟩ := minor_ok h1
    obtain ⟨k1, k2, k5⟩ := reset_keeps hm hf g1
    have k3 : Mid cfg m1 := mid_of ((covers_mid cfg).processModel t false false) k1 g2
    have k4 : Full cfg m1 := full_process k2 g2
    have k6 : m1.Tracks out := (ht.fixed k5).fixed (fixed_of ((covers_fixed cfg).processModel t false false) g2)
    obtain ⟨x, hk⟩ := h.kind
    obtain ⟨b, b1, b2⟩ := process_trig h.dbg h.proper h.mem hk h.requires k1 k2 (reset_asg ht g1) g2
    obtain ⟨v', b', c1, c2, _⟩ := process_integ h.proper h.mem h.state k1 g2
    simp only [Bool.false_eq_true, if_false] at c1 c2
    rw [reset_mem g1] at b2 c1 c2
    obtain ⟨ms, q1, q2, q3, q6, q4, q5⟩ := ih d k3 k4 k6 h2
    refine ⟨m1 :: ms, .call h1 q1, q2, q3, q6, ?_, ?_⟩
    · rw [q4, c1]; exact c2
    · rw [q5, b1, b2]
      simp only [List.mem_cons, exists_eq_or_imp]
      exact or_assoc

/-- One trial step. -/
theorem trial (h : Here cfg l tr out) {m m1 m2 : Machine K} {t1 t2 : K} {orig : List K} {st : Stepper K} {r : List K × K} (hm : Mid cfg m)
    (hf : Full cfg m) (ht : m.Tracks out) (h1 : beginStep cfg t1 m = .ok orig m1) (h2 : (st t1 orig t2).exec (minorCb cfg) (m1.record (.trial t1 t2)) = .ok r m2) :
    ∃ ms, Stages cfg (st t1 orig t2) (m1.record (.trial t1 t2)) ms r m2 ∧ Mid cfg m2 ∧ Full cfg m2 ∧ m2.Tracks out ∧
      m1.value out = some (m2.w.mem l.id).value ∧
      ((m2.w.mem l.id).triggered = true ↔ ∃ s ∈ ms, s.fires tr) := by
  obtain ⟨g1, g2⟩ := begin_value h h1
  obtain ⟨g3, g4, g5⟩ := begin_keeps hm hf h1
  obtain ⟨ms, q1, q2, q3, q6, q4, q5⟩ := stages h (m := m1.record (.trial t1 t2)) (.other _ g3 rfl rfl rfl) (full_of_fast g4 rfl) (show m1.Tracks out from ht.fixed g5) h2
  have e : (m1.record (.trial t1 t2)).w.mem l.id = l.afterPre (m.w.mem l.id) := g2
  rw [e] at q4 q5
  refine ⟨ms, q1, q2, q3, q6, ?_, ?_⟩
  · rw [q4, afterPre_value]; exact g1
  · rw [q5]
    have : (l.afterPre (m.w.mem l.id)).triggered = false := by
      obtain ⟨x, hk⟩ := h.kind
      unfold Leaf.afterPre Leaf.pending
      rw [hk]
      cases ht : (m.w.mem l.id).triggered <;> simp [ht]
    rw [this]; simp

end C37

/-- A rejected trial step and the next attempt: the new attempt starts with the same state, or with zero if the trigger was set in one of the
evaluations of the rejected step. -/
theorem C37_retry_partial (cfg : Config K) {l : Leaf K} {tr out : SigId} (h : C37.Here cfg l tr out) {m m1 m2 m3 : Machine K} (hm : Mid cfg m)
    (hf : Full cfg m) (ht : m.Tracks out) {t1 t2 : K} {orig orig' : List K} {st : Stepper K} {r : List K × K} (h1 : beginStep cfg t1 m = .ok orig m1)
    (h2 : (st t1 orig t2).exec (minorCb cfg) (m1.record (.trial t1 t2)) = .ok r m2) (h3 : beginStep cfg t1 (m2.withSv r.1) = .ok orig' m3) :
    ∃ ms, Stages cfg (st t1 orig t2) (m1.record (.trial t1 t2)) ms r m2 ∧
      ((∃ s ∈ ms, s.fires tr) → ∃ v, m1.value out = some v ∧ m3.value out = some v.nought) ∧
      (¬ (∃ s ∈ ms, s.fires tr) → m3.value out = m1.value out) := by
  obtain ⟨ms, q1, q2, q3, q6, q4, q5⟩ := C37.trial h hm hf ht h1 h2
  obtain ⟨g1, _⟩ := C37.begin_value h h3
  have g1 : m3.value out = some (l.start (m2.w.mem l.id)) := g1
  obtain ⟨x, hk⟩ := h.kind
  have hst : l.start (m2.w.mem l.id) = if (m2.w.mem l.id).triggered then (m2.w.mem l.id).value.nought else (m2.w.mem l.id).value := by
    unfold Leaf.start Leaf.pending; rw [hk]
  refine ⟨ms, q1, fun hh => ⟨_, q4, ?_⟩, fun hh => ?_⟩
  · rw [g1, hst, if_pos (q5.2 hh)]
  · rw [g1, hst, if_neg (fun e => hh (q5.1 e)), q4]

/-- An accepted step, the evaluation at its end and the next step (in the same run or the next one): the next step starts with the state that the
evaluation showed, or with zero if the trigger was set in that evaluation or in one of the evaluations of the step.
Full statement: with zero only if the trigger was set in the evaluation at the end of the step; it is false, see `C37_refuted`. -/
theorem C37_next_partial (cfg : Config K) {l : Leaf K} {tr out : SigId} (h : C37.Here cfg l tr out) {m m1 m2 m3 m4 m5 m6 : Machine K}
    (hm : Mid cfg m) (hf : Full cfg m) (ht : m.Tracks out) {t1 t2 t2' : K} {orig orig' : List K} {st : Stepper K} {r : List K × K}
    (h1 : beginStep cfg t1 m = .ok orig m1) (h2 : (st t1 orig t2).exec (minorCb cfg) (m1.record (.trial t1 t2)) = .ok r m2)
    (h3 : resetWith cfg r.1 ((m2.withSv r.1).record (.accept t1 t2)) = .ok () m3) (h4 : processModel cfg t2 false true m3 = .ok () m4)
    (h5 : m5.w.mem = m4.w.mem) (h6 : beginStep cfg t2' m5 = .ok orig' m6) :
    ∃ ms, Stages cfg (st t1 orig t2) (m1.record (.trial t1 t2)) ms r m2 ∧
      (m4.fires tr ∨ (∃ s ∈ ms, s.fires tr) → ∃ v, m4.value out = some v ∧ m6.value out = some v.nought) ∧
      (¬ m4.fires tr → ¬ (∃ s ∈ ms, s.fires tr) → m6.value out = m4.value out) := by
  obtain ⟨ms, q1, q2, q3, q6, q4, q5⟩ := C37.trial h hm hf ht h1 h2
  obtain ⟨k1, k2, _⟩ := C37.reset_keeps (m := (m2.withSv r.1).record (.accept t1 t2)) (.other _ q2 rfl rfl rfl) (C37.full_of_fast q3 rfl) h3
  obtain ⟨x, hk⟩ := h.kind
  obtain ⟨b, b1, b2⟩ := process_trig h.dbg h.proper h.mem hk h.requires k1 k2 (reset_asg (m := (m2.withSv r.1).record (.accept t1 t2)) q6 h3) h4
  obtain ⟨v, b', c1, c2, _⟩ := process_integ h.proper h.mem h.state k1 h4
  rw [if_pos rfl] at c2
  have em : m3.w.mem = ((m2.withSv r.1).record (.accept t1 t2)).w.mem := reset_mem h3
  have em : m3.w.mem = m2.w.mem := em
  rw [em, q5] at b2
  have ev : (m4.w.mem l.id).value = v := by rw [c1]
  obtain ⟨g1, _⟩ := C37.begin_value h h6
  have hst : l.start (m5.w.mem l.id) = if (m4.w.mem l.id).triggered then v.nought else v := by
    unfold Leaf.start Leaf.pending; rw [hk, h5, ev]
  rw [hst, b1] at g1
  refine ⟨ms, q1, fun hh => ⟨v, c2, ?_⟩, fun n1 n2 => ?_⟩
  · rw [g1, if_pos (b2.2 hh.symm)]
  · rw [g1, if_neg (fun e => (b2.1 e).elim n2 n1), c2]

namespace C37

/-- `x' = 1`. -/
def one : Leaf ℚ := { id := 1, links := [(3, Demo.ot)], kind := .const (.scalar 1) 3 }

/-- The trigger is set at `t = 1` only. -/
def trig : Leaf ℚ := { id := 2, links := [(5, Demo.ot)], kind := .source (fun t => .ok (.bool (decide (t = 1)))) 5 }

def cfg (st : Strategy) : Config ℚ := { C33.cfg st with
  model := .sub 100 [] [.leaf one, .leaf trig, .leaf C33.tint]
  stepper := some euler }

/-- After `init(0)`, and after `run(1)`, `run(2)`, `run(3)`. -/
def at0 (st : Strategy) : Machine ℚ := stateOf (Call.exec (cfg st) (.init 0) C33.start)
def at1 (st : Strategy) : Machine ℚ := stateOf (Call.exec (cfg st) (.run 5 1 (1/10) 2) (at0 st))
def at2 (st : Strategy) : Machine ℚ := stateOf (Call.exec (cfg st) (.run 5 2 (1/10) 2) (at1 st))
def at3 (st : Strategy) : Machine ℚ := stateOf (Call.exec (cfg st) (.run 5 3 (1/10) 2) (at2 st))

theorem here (st : Strategy) : Here (cfg st) C33.tint 5 2 := by
  have hlv : (cfg st).model.leaves = [one, trig, C33.tint] := rfl
  refine ⟨rfl, by show (Block.ids (.sub 100 [] [.leaf one, .leaf trig, .leaf C33.tint])).Nodup; decide +kernel, by rw [hlv]; simp, ⟨_, rfl⟩, ?_, ?_, ?_, ?_⟩
  · rintro s ⟨f, hf, hr⟩
    simp only [C33.tint, List.mem_cons, List.not_mem_nil, or_false, Prod.mk.injEq] at hf
    rcases hf with ⟨rfl, rfl⟩ | ⟨rfl, rfl⟩ | ⟨rfl, rfl⟩
    · revert hr; decide
    · exact .inl rfl
    · exact .inr rfl
  · rw [hlv]; decide
  · rw [hlv]; decide
  · intro t h; cases h

/-- The hypotheses of the theorems: the step from 1 to 2, the evaluation at 2, and the start of the next step. -/
def b1 (st : Strategy) : Machine ℚ := stateOf (beginStep (cfg st) 1 (at1 st))
def b2 (st : Strategy) : Machine ℚ := stateOf ((euler 1 [0] 2).exec (minorCb (cfg st)) ((b1 st).record (.trial 1 2)))
def b3 (st : Strategy) : Machine ℚ := stateOf (resetWith (cfg st) [1] (((b2 st).withSv [1]).record (.accept 1 2)))
def b4 (st : Strategy) : Machine ℚ := stateOf (processModel (cfg st) 2 false true (b3 st))

example (st : Strategy) : Here (cfg st) C33.tint 5 2 ∧ Mid (cfg st) (at1 st) ∧ Full (cfg st) (at1 st) ∧ (at1 st).Tracks 2 ∧
    C33.orig (beginStep (cfg st) 1 (at1 st)) = some [0] ∧
    C33.orig ((do let r ← (euler 1 [0] 2).exec (minorCb (cfg st)); pure r.1) ((b1 st).record (.trial 1 2))) = some [1] ∧
    returns (resetWith (cfg st) [1] (((b2 st).withSv [1]).record (.accept 1 2))) = true ∧
    returns (processModel (cfg st) 2 false true (b3 st)) = true ∧
    C33.orig (beginStep (cfg st) 2 (b4 st)) = some [0] ∧ C33.orig (beginStep (cfg st) 1 ((b2 st).withSv [1])) = some [0] := by
  refine ⟨here st, reach_mid _ (.call _ (.call _ (.new _ _ (fun _ => rfl) rfl))), ?_, ⟨?_, ?_⟩, ?_, ?_, ?_, ?_, ?_, ?_⟩
  · have h0 : Full (cfg st) (at0 st) := full_init (here st).proper (t := 0) (m := C33.start)
      (eq_of_returns (r := simInit (cfg st) 0 C33.start) (by cases st <;> decide +kernel))
    exact full_run (n := 5) (t := 1) (minH := 1/10) (maxH := 2) (m := at0 st) (by cases st <;> decide +kernel) h0
      (eq_of_returns (r := run (cfg st) 5 1 (1/10) 2 (at0 st)) (by cases st <;> decide +kernel))
  all_goals cases st <;> decide +kernel

end C37

/-- With `x' = 1`, `x(0) = 5` and a trigger that is set at `t = 1` only, the state is reset at 1, as it should be, and is 1 at 2, when the trigger
is no longer set; but it is reset again at 2: at 3 it is 1 instead of 2.  The first evaluation of the step from 1 to 2 sees the trigger
again. -/
theorem C37_refuted (st : Strategy) :
    (returns (Call.exec (C37.cfg st) (.init 0) C33.start) = true ∧ returns (Call.exec (C37.cfg st) (.run 5 1 (1/10) 2) (C37.at0 st)) = true ∧
      returns (Call.exec (C37.cfg st) (.run 5 2 (1/10) 2) (C37.at1 st)) = true ∧ returns (Call.exec (C37.cfg st) (.run 5 3 (1/10) 2) (C37.at2 st)) = true) ∧
    ((C37.at1 st).value 2 = some (.scalar 6) ∧ (C37.at1 st).value 5 = some (.bool true)) ∧
    ((C37.at2 st).value 2 = some (.scalar 1) ∧ (C37.at2 st).value 5 = some (.bool false)) ∧
    (C37.at3 st).value 2 = some (.scalar 1) := by
  refine ⟨⟨?_, ?_, ?_, ?_⟩, ⟨?_, ?_⟩, ⟨?_, ?_⟩, ?_⟩ <;> cases st <;> decide +kernel

end Pooya
