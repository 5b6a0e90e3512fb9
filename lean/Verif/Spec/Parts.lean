import Verif.Spec.Reach

/-! The parts of a call of `run`: trial steps, accepted and rejected steps, the last evaluation. -/

namespace Pooya

variable {K : Type} [Arith K]

/-- Add an event to the record. -/
def Machine.record (m : Machine K) (e : Event K) : Machine K := { m with w := { m.w with log := e :: m.w.log } }

/-- Set `_state_variables`. -/
def Machine.withSv (m : Machine K) (x : List K) : Machine K := { m with s := { m.s with sv := some x } }

/-- Is the step accepted? -/
def accepts (minH t1 t2 : K) (f : Bool) (nh : K) : Bool := f || (t2 -. t1) <=. nh || (t2 -. t1) <=. minH

/-- The evaluation after an accepted step that does not end at `t`. -/
def MidEval (cfg : Config K) (t t2 : K) (x : List K) (m m' : Machine K) : Prop :=
  if (t2 <. t) = true then ∃ m1, resetWith cfg x m = .ok () m1 ∧ processModel cfg t2 false true m1 = .ok () m' else m' = m

/-- One trial step: its start and the calls of the right-hand side by the stepper. -/
structure Trial (cfg : Config K) (t1 t2 : K) (m : Machine K) (r : List K × K) (m2 : Machine K) : Prop where
  ex : ∃ (orig : List K) (m1 : Machine K) (st : Stepper K), beginStep cfg t1 m = .ok orig m1 ∧ cfg.stepper = some st ∧
    (st t1 orig t2).exec (minorCb cfg) (m1.record (.trial t1 t2)) = .ok r m2

/-- The `while` loop of `run`, when it ends. -/
inductive SubRun (cfg : Config K) (t minH maxH : K) : K → K → Bool → Machine K → Machine K → Prop
  | stop {t1 t2 : K} {f : Bool} {m : Machine K} : (t1 <. t) = false → SubRun cfg t minH maxH t1 t2 f m m
  | reject {t1 t2 : K} {f : Bool} {m m2 m' : Machine K} {r : List K × K} : (t1 <. t) = true → Trial cfg t1 t2 m r m2 →
      accepts minH t1 t2 f r.2 = false →
      SubRun cfg t minH maxH t1 (t1 +. fmax minH (fmin r.2 maxH)) (r.2 <=. minH) (m2.withSv r.1) m' → SubRun cfg t minH maxH t1 t2 f m m'
  | accept {t1 t2 : K} {f : Bool} {m m2 m3 m' : Machine K} {r : List K × K} : (t1 <. t) = true → Trial cfg t1 t2 m r m2 →
      accepts minH t1 t2 f r.2 = true → MidEval cfg t t2 r.1 ((m2.withSv r.1).record (.accept t1 t2)) m3 →
      SubRun cfg t minH maxH t2 (fmin (t2 +. fmax minH (fmin r.2 maxH)) t) false m3 m' → SubRun cfg t minH maxH t1 t2 f m m'

/-- The last lines of `run`. -/
structure Final (cfg : Config K) (t : K) (m m' : Machine K) : Prop where
  ex : ∃ (x : List K) (m1 m2 : Machine K), m.s.sv = some x ∧ resetWith cfg x m = .ok () m1 ∧
    processModel cfg t (decide (x.length = 0)) true m1 = .ok () m2 ∧ m' = { m2 with s := { m2.s with tPrev := t } }

/-- The part of `run` before the last lines, with state variables. -/
inductive Advance (cfg : Config K) (t minH maxH : K) : Machine K → Machine K → Prop
  | again {m m1 : Machine K} {x : List K} : (t <. m.s.tPrev) = false → (t ==. m.s.tPrev) = true →
      beginStep cfg t (m.record (.warnRepeated t)) = .ok x m1 → Advance cfg t minH maxH m (m1.withSv x)
  | steps {m m1 : Machine K} : (t <. m.s.tPrev) = false → (t ==. m.s.tPrev) = false →
      SubRun cfg t minH maxH m.s.tPrev t false m m1 → Advance cfg t minH maxH m m1

/-- The states at the head of the `while` loop of a call `run(t, minH, maxH)` that starts in `m0`, with the local variables `t1`, `t2` and
`force_accept`. -/
inductive LoopAt (cfg : Config K) (t minH maxH : K) (m0 : Machine K) : K → K → Bool → Machine K → Prop
  | start : LoopAt cfg t minH maxH m0 m0.s.tPrev t false m0
  | reject {t1 t2 : K} {f : Bool} {m m2 : Machine K} {r : List K × K} : LoopAt cfg t minH maxH m0 t1 t2 f m → (t1 <. t) = true →
      Trial cfg t1 t2 m r m2 → accepts minH t1 t2 f r.2 = false →
      LoopAt cfg t minH maxH m0 t1 (t1 +. fmax minH (fmin r.2 maxH)) (r.2 <=. minH) (m2.withSv r.1)
  | accept {t1 t2 : K} {f : Bool} {m m2 m3 : Machine K} {r : List K × K} : LoopAt cfg t minH maxH m0 t1 t2 f m → (t1 <. t) = true →
      Trial cfg t1 t2 m r m2 → accepts minH t1 t2 f r.2 = true → MidEval cfg t t2 r.1 ((m2.withSv r.1).record (.accept t1 t2)) m3 →
      LoopAt cfg t minH maxH m0 t2 (fmin (t2 +. fmax minH (fmin r.2 maxH)) t) false m3

end Pooya
