import Verif.Proof.Quiet
import Verif.Props.C36

/-! C33: rejected trial steps. -/

namespace Pooya

set_option linter.unusedSectionVars false

variable {K : Type} [Arith K]

/-- A trial step (which may be rejected or accepted) leaves the members of every block alone that changes them only in `post_step`.  If all
state variables belong to `Integrator` blocks, a rejected trial step is followed by one that starts from the same state.
Full statement: for all blocks; it is false for `TriggeredIntegrator`, see `C33_refuted`. -/
theorem C33_trial_partial (cfg : Config K) (h : Owned cfg) (hdim : ∀ st, cfg.stepper = some st → Stepper.Dim st) {m0 m m1 m2 : Machine K}
    (hm : Once cfg m0) (hi : m0.s.initialized = true) {t minH maxH t1 t2 : K} {f : Bool} (hloop : LoopAt cfg t minH maxH m0 t1 t2 f m)
    {st : Stepper K} (hst : cfg.stepper = some st) {orig : List K}
    {r : List K × K} (h1 : beginStep cfg t1 m = .ok orig m1)
    (h2 : (st t1 orig t2).exec (minorCb cfg) (m1.record (.trial t1 t2)) = .ok r m2) :
    (∀ l ∈ cfg.model.leaves, l.Quiet (m.w.mem l.id) → m2.w.mem l.id = m.w.mem l.id) ∧
      ((∀ l ∈ cfg.model.leaves, ∀ out, l.state = some out → ∃ x, l.kind = .integrator x out) →
        ∀ orig' m3, beginStep cfg t1 (m2.withSv r.1) = .ok orig' m3 → orig' = orig) := by
  have hr := ((once_ready hdim hm hi).loop hdim hloop).1
  have ht : Trial cfg t1 t2 m r m2 := ⟨orig, m1, st, h1, hst, h2⟩
  have hmem : ∀ l ∈ cfg.model.leaves, l.Quiet (m.w.mem l.id) → m2.w.mem l.id = m.w.mem l.id := fun l hl hq =>
    (trial_still h.proper hl hr.mid hq ht).2
  refine ⟨hmem, fun hint orig' m3 h3 => ?_⟩
  obtain ⟨r2, e2, l2⟩ := hr.trial hdim ht
  have en : m2.s.nState = m.s.nState := by rw [e2]
  have p1 := begin_packed h hr h1
  have p2 := begin_packed h (r2.withSv (by rw [en]; exact l2)) h3
  have es : (m2.withSv r.1).s.scalarStates = m.s.scalarStates ∧ (m2.withSv r.1).s.arrayStates = m.s.arrayStates := by
    constructor
    · show m2.s.scalarStates = _; rw [e2]
    · show m2.s.arrayStates = _; rw [e2]
  rw [es.1, es.2] at p2
  refine packed_unique p2 p1 (fun s hs => ?_)
  obtain ⟨k1, k2⟩ := state_sig hr.layout h.hash hs
  obtain ⟨l, hl, hls⟩ := h.integrated s k1 k2
  unfold Config.startVal
  rw [h.find hl hls]
  obtain ⟨x, hk⟩ := hint l hl s hls
  show some (l.start (m2.w.mem l.id)) = some (l.start (m.w.mem l.id))
  rw [hmem l hl (by unfold Leaf.Quiet; rw [hk]; trivial)]

namespace C33

/-- `x' = 1` before `t = 3/2` and 1000 afterwards. -/
def slope : Leaf ℚ := { id := 1, links := [(3, Demo.ot)], kind := .source (fun t => .ok (.scalar (if t ≤ 3/2 then 1 else 1000))) 3 }

/-- The trigger is set at `t = 2` only. -/
def trig : Leaf ℚ := { id := 2, links := [(5, Demo.ot)], kind := .source (fun t => .ok (.bool (decide (t = 2)))) 5 }

def tint : Leaf ℚ := { id := 4, links := [(3, Demo.inp), (5, Demo.rq), (2, Demo.st)], kind := .trigInt 3 5 2 }

def cfg (st : Strategy) : Config ℚ := { Demo.cfg st with
  model := .sub 100 [] [.leaf slope, .leaf trig, .leaf tint]
  stepper := some rkf45 }

def start : Machine ℚ :=
  { w := { Demo.world with sig := fun s => if s = 5 then { ty := .bool } else { ty := .scalar } }, s := { tPrev := 0 } }

def ready (st : Strategy) : Machine ℚ := stateOf (Call.exec (cfg st) (.init 0) start)

/-- The first trial step from 0 to 2. -/
def begun (st : Strategy) : Machine ℚ := stateOf (beginStep (cfg st) 0 (ready st))
def tried (st : Strategy) : Machine ℚ := stateOf ((rkf45 0 [5] 2).exec (minorCb (cfg st)) ((begun st).record (.trial 0 2)))

def orig (m : EStateM.Result Err (Machine ℚ) (List ℚ)) : Option (List ℚ) := match m with | .ok x _ => some x | .error _ _ => none
def newH (m : EStateM.Result Err (Machine ℚ) (List ℚ × ℚ)) : Option ℚ := match m with | .ok x _ => some x.2 | .error _ _ => none

/-- The hypotheses of `C33_trial_partial` on the diagram `x' = 2 u(t) + x`. -/
example (st : Strategy) : Owned (Demo.cfg st) ∧ Once (Demo.cfg st) (C36.ready st) ∧ (C36.ready st).s.initialized = true ∧
    LoopAt (Demo.cfg st) 1 (1/10) (1/2) (C36.ready st) 0 1 false (C36.ready st) ∧
    orig (beginStep (Demo.cfg st) 0 (C36.ready st)) = some [5] ∧ (∀ l ∈ (Demo.cfg st).model.leaves, l.Quiet ((C36.ready st).w.mem l.id)) := by
  have hlv : (Demo.cfg st).model.leaves = [Demo.add, Demo.gain, Demo.source, Demo.integ] := Demo.leaves_eq
  refine ⟨C36.owned st, .call _ (.new _ _ (fun _ => rfl) rfl) (fun _ _ => rfl), ?_, ?_, ?_, ?_⟩
  · cases st <;> decide +kernel
  · have e : (C36.ready st).s.tPrev = 0 := by cases st <;> decide +kernel
    have := LoopAt.start (cfg := Demo.cfg st) (t := 1) (minH := 1/10) (maxH := 1/2) (m0 := C36.ready st)
    rw [e] at this; exact this
  · cases st <;> decide +kernel
  · rw [hlv]
    intro l hl
    simp only [List.mem_cons, List.not_mem_nil, or_false] at hl
    rcases hl with rfl | rfl | rfl | rfl <;> exact trivial

end C33

/-- A rejected trial step of `Rkf45` from 0 to 2, which proposes the step size 1 instead, has triggered the integrator: the retry starts
from 0 instead of the initial value 5. -/
theorem C33_refuted (st : Strategy) :
    C33.orig (beginStep (C33.cfg st) 0 (C33.ready st)) = some [5] ∧
    C33.newH ((rkf45 0 [5] 2).exec (minorCb (C33.cfg st)) ((C33.begun st).record (.trial 0 2))) = some 1 ∧
    accepts (1/10) 0 2 false (1 : ℚ) = false ∧
    C33.orig (beginStep (C33.cfg st) 0 (C33.tried st)) = some [0] := by
  refine ⟨?_, ?_, ?_, ?_⟩
  · cases st <;> decide +kernel
  · cases st <;> decide +kernel
  · decide +kernel
  · cases st <;> decide +kernel

end Pooya
