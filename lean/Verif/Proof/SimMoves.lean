import Verif.Proof.Moves

/-! Relations between the states before and after the calls of a simulator. -/

namespace Pooya

set_option linter.unusedSectionVars false

variable {K : Type} [Arith K]

/-- All elementary effects of `run` except recording the solver steps and the change of time move along `T`. -/
structure CoversC (cfg : Config K) (T : Machine K → Machine K → Prop) : Prop where
  preo : PreO T
  inputs : ∀ t, Moves T (inW (callInputs cfg t))
  pre : ∀ t, Moves T (inW (cfg.model.preStep cfg.dbg t))
  processModel : ∀ t pre post, Moves T (processModel cfg t pre post)
  reset : ∀ x, Moves T (resetWith cfg x)
  clear : Moves T (do let s ← getSim; inW (clearAll s.valueSigs))
  readS : ∀ ss, Moves T (inW (readScalars cfg.dbg ss))
  readA : ∀ ss, Moves T (inW (readArrays cfg.dbg ss))
  sv : ∀ x, Moves T (setSim (fun s : Sim K => { s with sv := some x }))

/-- All elementary effects of `run` except the last one, the change of time, move along `T`. -/
structure CoversA (cfg : Config K) (T : Machine K → Machine K → Prop) : Prop extends CoversC cfg T where
  trial : ∀ t1 t2, Moves T (inW (emit (.trial t1 t2)))
  accept : ∀ t1 t2, Moves T (inW (emit (.accept t1 t2)))
  warn : ∀ t, Moves T (inW (emit (.warnRepeated t)))

/-- All elementary effects of `run` move along `T`. -/
structure Covers (cfg : Config K) (T : Machine K → Machine K → Prop) : Prop extends CoversA cfg T where
  time : ∀ t, Moves T (setSim (fun s : Sim K => { s with tPrev := t }))

/-- `process_model` from its parts. -/
theorem moves_processModel {cfg : Config K} {T : Machine K → Machine K → Prop} [PreO T] {t : K}
    (inputs : Moves T (inW (callInputs cfg t))) (hpre : Moves T (inW (cfg.model.preStep cfg.dbg t)))
    (hpost : Moves T (inW (cfg.model.postStep cfg.dbg t))) (eval : Moves T (evalModel cfg t)) (pre post : Bool) :
    Moves T (processModel cfg t pre post) := by
  unfold processModel
  refine Moves.bind inputs (fun _ => ?_)
  dsimp only
  have h2 : Moves T (do
      evalModel cfg t
      if post then inW (cfg.model.postStep cfg.dbg t) else Pure.pure ()) := by
    refine Moves.bind eval (fun _ => ?_)
    split
    · exact hpost
    · exact Moves.pure _
  split
  · exact Moves.bind hpre (fun _ => h2)
  · exact h2

namespace CoversC
variable {cfg : Config K} {T : Machine K → Machine K → Prop}

theorem getStates (h : CoversC cfg T) : Moves T (Pooya.getStates cfg) := by
  have := h.preo
  unfold Pooya.getStates
  refine Moves.bind Moves.getSim (fun s => Moves.bind (h.readS _) (fun a => Moves.bind (h.readA _) (fun b => ?_)))
  split
  · exact Moves.pure _
  · exact Moves.throw _

theorem getDerivs (h : CoversC cfg T) : Moves T (Pooya.getDerivs cfg) := by
  have := h.preo
  unfold Pooya.getDerivs
  refine Moves.bind Moves.getSim (fun s => ?_)
  split
  · refine Moves.bind (h.readS _) (fun a => Moves.bind (h.readA _) (fun b => ?_))
    split
    · exact Moves.pure _
    · exact Moves.throw _
  · exact Moves.throw _

theorem minorCb (h : CoversC cfg T) (t : K) (x : List K) : Moves T (Pooya.minorCb cfg t x) := by
  have := h.preo
  exact Moves.bind (h.reset x) (fun _ => Moves.bind (h.processModel t false false) (fun _ => h.getDerivs))

theorem beginStep (h : CoversC cfg T) (t : K) : Moves T (Pooya.beginStep cfg t) := by
  have := h.preo
  have e : Pooya.beginStep cfg t = (do
      (do let s ← getSim; inW (clearAll s.valueSigs))
      inW (callInputs cfg t)
      inW (cfg.model.preStep cfg.dbg t)
      Pooya.getStates cfg) := by
    unfold Pooya.beginStep; simp only [bind_assoc]
  rw [e]
  exact Moves.bind h.clear (fun _ => Moves.bind (h.inputs t) (fun _ => Moves.bind (h.pre t) (fun _ => h.getStates)))

end CoversC

namespace CoversA
variable {cfg : Config K} {T : Machine K → Machine K → Prop}

theorem subLoop (h : CoversA cfg T) (t minH maxH : K) (n : Nat) (t1 t2 : K) (force : Bool) :
    Moves T (Pooya.subLoop cfg t minH maxH n t1 t2 force) := by
  have := h.preo
  induction n generalizing t1 t2 force with
  | zero => exact Moves.throw _
  | succ n ih =>
    unfold Pooya.subLoop
    split
    · exact Moves.pure _
    · refine Moves.bind (h.beginStep t1) (fun orig => Moves.bind (h.trial t1 t2) (fun _ => ?_))
      split
      · exact Moves.throw _
      · rename_i st _
        refine Moves.bind (Moves.exec (fun t v => h.minorCb t v) _) (fun r => Moves.bind (h.sv _) (fun _ => ?_))
        dsimp only
        split
        · refine Moves.bind (h.accept t1 t2) (fun _ => ?_)
          split
          · exact Moves.bind (h.reset _) (fun _ => Moves.bind (h.processModel t2 false true) (fun _ => ih _ _ _))
          · exact ih _ _ _
        · exact ih _ _ _

theorem advance (h : CoversA cfg T) (fuel : Nat) (t minH maxH : K) : Moves T (Pooya.advance cfg fuel t minH maxH) := by
  have := h.preo
  unfold Pooya.advance
  refine Moves.bind Moves.getSim (fun s => ?_)
  split
  · exact Moves.throw _
  · split
    · exact Moves.bind (h.warn t) (fun _ => Moves.bind (h.beginStep t) (fun x => h.sv x))
    · exact Moves.bind (Moves.debugVerify _ _ _) (fun _ => Moves.bind (Moves.debugVerify _ _ _)
        (fun _ => Moves.bind (Moves.debugVerify _ _ _) (fun _ => h.subLoop _ _ _ _ _ _ _)))

end CoversA

namespace Covers
variable {cfg : Config K} {T : Machine K → Machine K → Prop}

theorem finish (h : Covers cfg T) (t : K) : Moves T (Pooya.finish cfg t) := by
  have := h.preo
  unfold Pooya.finish
  refine Moves.bind Moves.getSim (fun s => ?_)
  split
  · exact Moves.throw _
  · exact Moves.bind (h.reset _) (fun _ => Moves.bind (h.processModel t _ true) (fun _ => h.time t))

/-- `run` of an initialised simulator. -/
theorem run (h : Covers cfg T) (fuel : Nat) (t minH maxH : K) (m : Machine K) (hi : m.s.initialized = true) :
    T m (stateOf (Pooya.run cfg fuel t minH maxH m)) := by
  have := h.preo
  have e : Pooya.run cfg fuel t minH maxH m =
      (if 0 < m.s.svSize then (do Pooya.advance cfg fuel t minH maxH; Pooya.finish cfg t) m
       else Pooya.finish cfg t m) := by
    unfold Pooya.run
    simp only [bind_apply, getSim, hi, Bool.not_true, Bool.false_eq_true, if_false]
    split
    · rw [bind_apply]
    · rfl
  rw [e]
  split
  · exact Moves.bind (h.advance fuel t minH maxH) (fun _ => h.finish t) m
  · exact h.finish t m

end Covers

/-- The ordering pass moves like the activation functions, if the remembered order does not matter. -/
theorem moves_levels {T : Machine K → Machine K → Prop} [PreO T] {cfg : Config K} {t : K}
    (h : Moves T (inW (fastOrder cfg.dbg t cfg.model.leaves (cfg.model.leaves.length + 1)))) (hf : ∀ m f, T m { m with s := { m.s with fast := f } }) :
    Moves T (levels cfg t) := by
  intro m
  have := h m
  unfold levels
  unfold inW at this
  cases hx : fastOrder cfg.dbg t cfg.model.leaves (cfg.model.leaves.length + 1) m.w with
  | ok r w => rw [hx] at this; exact this
  | error e w =>
    rw [hx] at this
    exact PreO.trans (T := T) this (hf _ _)

end Pooya
