import Verif.Proof.Hoare
import Verif.Spec.RungeKutta

/-! The time and the sizes of state vectors during calls of a simulator. -/

namespace Pooya

set_option linter.unusedSectionVars false

/-! ## Invariants with a condition on the state vectors -/

/-- A pure fact in the precondition. -/
theorem Tri.pull {σ α : Type} {P : σ → Prop} {p : Prop} {x : EStateM Err σ α} {Q : α → σ → Prop} {E : Err → σ → Prop}
    (h : p → Tri P x Q E) : Tri (fun s => P s ∧ p) x Q E := fun s hs => h hs.2 s hs.1

theorem Tri.execV {σ K : Type} {E : Err → σ → Prop} {I : σ → Prop} {f : K → List K → EStateM Err σ (List K)} {n : Nat}
    (hf : ∀ t v, v.length = n → Tri I (f t v) (fun r s => I s ∧ r.length = n) E) (p : StepProg K) (hp : p.Dim n) :
    Tri I (p.exec f) (fun r s => I s ∧ r.1.length = n) E := by
  induction p with
  | ret v h => exact Tri.pure (fun _ h => ⟨h, hp⟩)
  | call t v k ih =>
    exact Tri.bind (hf t v hp.1) (fun r s hs => ih r (hp.2 r hs.2) s hs.1)

variable {K : Type} [Arith K]

/-- Only `_state_variables` and the remembered order of the simulator change. -/
def SameSim (m m' : Machine K) : Prop := m'.s = { m.s with sv := m'.s.sv, po := m'.s.po }

instance : PreO (SameSim (K := K)) where
  refl _ := rfl
  trans h h' := by unfold SameSim at *; rw [h', h]

/-- Nothing is said about the diagram. -/
def AnyW (_ _ : World K) : Prop := True

instance : PreO (AnyW (K := K)) := ⟨fun _ => trivial, fun _ _ => trivial⟩

theorem anyW_act (dbg : Bool) (t : K) (l : Leaf K) : Moves AnyW (l.act dbg t) := fun _ => trivial

theorem onEval_eval (cfg : Config K) (t : K) : Moves (onEval AnyW) (evalModel cfg t) := fun m =>
  moves_eval_any cfg t (fun l => anyW_act _ _ l) (fun _ _ _ _ => trivial) m

theorem coversA_sameSim (cfg : Config K) : CoversA cfg (SameSim (K := K)) :=
  coversA_mk (T := AnyW) (fun _ m' h => by unfold SameSim; rw [h.2]) (fun _ _ => trivial)
    (fun _ _ _ => trivial) (fun _ _ => trivial) (fun _ _ _ _ => trivial) (fun _ _ _ _ => trivial)
    (fun t m => by unfold SameSim; rw [(onEval_eval cfg t m).2]) (fun _ _ => rfl)

theorem inW_sim {α : Type} (x : M K α) (m : Machine K) : (stateOf (inW x m)).s = m.s := by
  unfold inW
  cases x m.w <;> rfl

theorem processModel_sim (cfg : Config K) (t : K) (pre post : Bool) (m : Machine K) :
    (stateOf (processModel cfg t pre post m)).s = { m.s with po := (stateOf (processModel cfg t pre post m)).s.po } := by
  have h : ∀ {α : Type} (x : M K α), Moves (onEval AnyW) (inW x) := fun x m => ⟨trivial, by rw [inW_sim]⟩
  exact (moves_processModel (h _) (h _) (h _) (onEval_eval cfg t) pre post m).2

theorem resetWith_sim (cfg : Config K) (x : List K) (m : Machine K) : (stateOf (resetWith cfg x m)).s = m.s := by
  have h : ∀ {α : Type} (x : M K α), Moves (fun m m' : Machine K => m'.s = m.s) (inW x) := fun x m => inW_sim x m
  have : PreO (fun m m' : Machine K => m'.s = m.s) := ⟨fun _ => rfl, fun h h' => h'.trans h⟩
  exact Moves.bind Moves.getSim (fun _ => Moves.bind (h _) (fun _ => Moves.bind (h _) (fun _ => h _))) m

/-- The state vector has the size given by the diagram. -/
def SizedN (n : Nat) (m : Machine K) : Prop := m.s.svSize = n ∧ m.s.nState = n

theorem SizedN.sim {n : Nat} {m m' : Machine K} (h : SizedN n m) (hs : m'.s = { m.s with po := m'.s.po }) : SizedN n m' := by
  unfold SizedN Sim.svSize at *
  rw [hs]; exact h

theorem tri_sim {α : Type} {n : Nat} {x : MM K α} (h : ∀ m, (stateOf (x m)).s = { m.s with po := (stateOf (x m)).s.po }) :
    Tri (SizedN n) x (fun _ => SizedN n) (fun _ => SizedN n) := by
  intro m hm
  have := hm.sim (h m)
  cases hx : x m with
  | ok a m' => rw [hx] at this; exact this
  | error e m' => rw [hx] at this; exact this

theorem tri_sized_inW {α : Type} {n : Nat} (x : M K α) : Tri (SizedN n) (inW x) (fun _ => SizedN n) (fun _ => SizedN n) :=
  tri_sim (fun m => by rw [inW_sim])

theorem tri_get {n : Nat} : Tri (SizedN (K := K) n) getSim (fun s m => SizedN n m ∧ s.svSize = n ∧ s.nState = n) (fun _ => SizedN n) :=
  fun _ h => ⟨h, h⟩

theorem sized_getStates (cfg : Config K) {n : Nat} :
    Tri (SizedN n) (getStates cfg) (fun x m => SizedN n m ∧ x.length = n) (fun _ => SizedN n) := by
  unfold getStates
  refine Tri.bind tri_get (fun s => ?_)
  refine Tri.bind (R := fun _ m => SizedN n m ∧ s.svSize = n) (fun m h => ?_) (fun a => ?_)
  · have := tri_sized_inW (n := n) (readScalars cfg.dbg s.scalarStates) m h.1
    cases hx : inW (readScalars cfg.dbg s.scalarStates) m with
    | ok a m' => rw [hx] at this; exact ⟨this, h.2.1⟩
    | error e m' => rw [hx] at this; exact this
  · refine Tri.bind (R := fun _ m => SizedN n m ∧ s.svSize = n) (fun m h => ?_) (fun b => ?_)
    · have := tri_sized_inW (n := n) (readArrays cfg.dbg s.arrayStates) m h.1
      cases hx : inW (readArrays cfg.dbg s.arrayStates) m with
      | ok a m' => rw [hx] at this; exact ⟨this, h.2⟩
      | error e m' => rw [hx] at this; exact this
    · split
      · rename_i hl
        exact Tri.pure (fun m h => ⟨h.1, hl.trans h.2⟩)
      · exact Tri.throw (fun m h => h.1)

theorem sized_getDerivs (cfg : Config K) {n : Nat} :
    Tri (SizedN n) (getDerivs cfg) (fun x m => SizedN n m ∧ x.length = n) (fun _ => SizedN n) := by
  unfold getDerivs
  refine Tri.bind tri_get (fun s => ?_)
  split
  · rename_i ds da _ _
    refine Tri.bind (R := fun _ m => SizedN n m ∧ s.nState = n) (fun m h => ?_) (fun a => ?_)
    · have := tri_sized_inW (n := n) (readScalars cfg.dbg ds) m h.1
      cases hx : inW (readScalars cfg.dbg ds) m with
      | ok a m' => rw [hx] at this; exact ⟨this, h.2.2⟩
      | error e m' => rw [hx] at this; exact this
    · refine Tri.bind (R := fun _ m => SizedN n m ∧ s.nState = n) (fun m h => ?_) (fun b => ?_)
      · have := tri_sized_inW (n := n) (readArrays cfg.dbg da) m h.1
        cases hx : inW (readArrays cfg.dbg da) m with
        | ok a m' => rw [hx] at this; exact ⟨this, h.2⟩
        | error e m' => rw [hx] at this; exact this
      · split
        · rename_i hl
          exact Tri.pure (fun m h => ⟨h.1, hl.trans h.2⟩)
        · exact Tri.throw (fun m h => h.1)
  · exact Tri.throw (fun m h => h.1)

theorem sized_begin (cfg : Config K) (t : K) {n : Nat} :
    Tri (SizedN n) (beginStep cfg t) (fun x m => SizedN n m ∧ x.length = n) (fun _ => SizedN n) := by
  unfold beginStep
  refine Tri.bind (R := fun _ => SizedN n) (fun _ h => h) (fun s => ?_)
  exact Tri.bind (tri_sized_inW _) (fun _ => Tri.bind (tri_sized_inW _) (fun _ => Tri.bind (tri_sized_inW _)
    (fun _ => sized_getStates cfg)))

theorem sized_reset (cfg : Config K) (x : List K) {n : Nat} :
    Tri (SizedN n) (resetWith cfg x) (fun _ => SizedN n) (fun _ => SizedN n) :=
  tri_sim (fun m => by rw [resetWith_sim])

theorem sized_process (cfg : Config K) (t : K) (p q : Bool) {n : Nat} :
    Tri (SizedN n) (processModel cfg t p q) (fun _ => SizedN n) (fun _ => SizedN n) :=
  tri_sim (processModel_sim cfg t p q)

theorem sized_minor (cfg : Config K) (t : K) (x : List K) {n : Nat} :
    Tri (SizedN n) (minorCb cfg t x) (fun r m => SizedN n m ∧ r.length = n) (fun _ => SizedN n) :=
  Tri.bind (sized_reset cfg x) (fun _ => Tri.bind (sized_process cfg t false false) (fun _ => sized_getDerivs cfg))

theorem sized_sv {n : Nat} (x : List K) (hx : x.length = n) :
    Tri (SizedN n) (setSim (fun s : Sim K => { s with sv := some x })) (fun _ => SizedN n) (fun _ => SizedN n) :=
  fun _ h => ⟨hx, h.2⟩

variable {cfg : Config K} {n : Nat}

theorem sized_subLoop (hd : ∀ st, cfg.stepper = some st → Stepper.Dim st) (t minH maxH : K) (k : Nat) (t1 t2 : K) (force : Bool) :
    Tri (SizedN n) (subLoop cfg t minH maxH k t1 t2 force) (fun _ => SizedN n) (fun _ => SizedN n) := by
  induction k generalizing t1 t2 force with
  | zero => exact Tri.throw (fun m hm => hm)
  | succ k ih =>
    unfold subLoop
    split
    · exact Tri.pure (fun _ h => h)
    · refine Tri.bind (sized_begin cfg t1) (fun orig => Tri.pull (fun h2 => ?_))
      · refine Tri.bind (tri_sized_inW _) (fun _ => ?_)
        split
        · exact Tri.throw (fun m hm => hm)
        · rename_i st hst
          have hdim : (st t1 orig t2).Dim n := by rw [← h2]; exact hd st hst t1 t2 orig
          refine Tri.bind (Tri.execV (fun t v _ => sized_minor cfg t v) _ hdim) (fun r => Tri.pull (fun hr => ?_))
          refine Tri.bind (sized_sv r.1 hr) (fun _ => ?_)
          dsimp only
          split
          · refine Tri.bind (tri_sized_inW _) (fun _ => ?_)
            split
            · exact Tri.bind (sized_reset cfg _) (fun _ => Tri.bind (sized_process cfg _ _ _) (fun _ => ih _ _ _))
            · exact ih _ _ _
          · exact ih _ _ _

theorem sized_advance (hd : ∀ st, cfg.stepper = some st → Stepper.Dim st) (fuel : Nat) (t minH maxH : K) :
    Tri (SizedN n) (advance cfg fuel t minH maxH) (fun _ => SizedN n) (fun _ => SizedN n) := by
  unfold advance
  refine Tri.bind (R := fun _ => SizedN n) (fun _ h => h) (fun s => ?_)
  split
  · exact Tri.throw (fun m hm => hm)
  · split
    · refine Tri.bind (tri_sized_inW _) (fun _ => Tri.bind (sized_begin cfg t) (fun x m hm => ?_))
      exact sized_sv x hm.2 m hm.1
    · have hv : ∀ d c, Tri (SizedN n) (debugVerify d c .debugVerify : MM K Unit) (fun _ => SizedN n) (fun _ => SizedN n) := fun d c =>
        Tri.verify (fun _ h _ => h) (fun m hm => hm)
      exact Tri.bind (hv _ _) (fun _ => Tri.bind (hv _ _) (fun _ => Tri.bind (hv _ _) (fun _ => sized_subLoop hd _ _ _ _ _ _ _)))

theorem sized_finish (cfg : Config K) (t : K) : Tri (SizedN n) (finish cfg t) (fun _ => SizedN n) (fun _ => SizedN n) := by
  unfold finish
  refine Tri.bind (R := fun _ => SizedN n) (fun _ h => h) (fun s => ?_)
  split
  · exact Tri.throw (fun m hm => hm)
  · exact Tri.bind (sized_reset cfg _) (fun _ => Tri.bind (sized_process cfg _ _ _) (fun _ _ h => h))

theorem run_eq (cfg : Config K) (fuel : Nat) (t minH maxH : K) (m : Machine K) (hi : m.s.initialized = true) :
    run cfg fuel t minH maxH m =
      (if 0 < m.s.svSize then (do advance cfg fuel t minH maxH; finish cfg t) m else finish cfg t m) := by
  unfold run
  simp only [bind_apply, getSim, hi, Bool.not_true, Bool.false_eq_true, if_false]
  split
  · rw [bind_apply]
  · rfl

theorem sized_run (hd : ∀ st, cfg.stepper = some st → Stepper.Dim st) (fuel : Nat) (t minH maxH : K) (m : Machine K)
    (hi : m.s.initialized = true) (hm : SizedN n m) : SizedN n (stateOf (run cfg fuel t minH maxH m)) := by
  rw [run_eq cfg fuel t minH maxH m hi]
  have : Tri (SizedN n) (if 0 < m.s.svSize then (do advance cfg fuel t minH maxH; finish cfg t) else finish cfg t)
      (fun _ => SizedN n) (fun _ => SizedN n) := by
    split
    · exact Tri.bind (sized_advance hd _ _ _ _) (fun _ => sized_finish cfg t)
    · exact sized_finish cfg t
  have := this m hm
  by_cases h0 : 0 < m.s.svSize
  · simp only [h0, if_true] at this ⊢
    cases hx : (do advance cfg fuel t minH maxH; finish cfg t : MM K Unit) m with
    | ok a m' => rw [hx] at this; exact this
    | error e m' => rw [hx] at this; exact this
  · simp only [h0, if_false] at this ⊢
    cases hx : finish cfg t m with
    | ok a m' => rw [hx] at this; exact this
    | error e m' => rw [hx] at this; exact this

/-! ## Time -/

/-- A run that returns ends at the requested time; a run that throws does not change the time. -/
theorem run_time (cfg : Config K) (fuel : Nat) (t minH maxH : K) (m : Machine K) (hi : m.s.initialized = true) :
    (∀ m', run cfg fuel t minH maxH m = .ok () m' → m'.s.tPrev = t) ∧
    (∀ e m', run cfg fuel t minH maxH m = .error e m' → m'.s.tPrev = m.s.tPrev) := by
  have hc := coversA_sameSim cfg
  have hk : ∀ {α : Type} {x : MM K α}, Moves SameSim x → Tri (fun m' => m'.s.tPrev = m.s.tPrev) x
      (fun _ m' => m'.s.tPrev = m.s.tPrev) (fun _ m' => m'.s.tPrev = m.s.tPrev) := by
    intro α x h m1 h1
    have := h m1
    cases hx : x m1 with
    | ok a m2 => rw [hx] at this; exact (congrArg Sim.tPrev this).trans h1
    | error e m2 => rw [hx] at this; exact (congrArg Sim.tPrev this).trans h1
  have hf : Tri (fun m' => m'.s.tPrev = m.s.tPrev) (finish cfg t) (fun _ m' => m'.s.tPrev = t) (fun _ m' => m'.s.tPrev = m.s.tPrev) := by
    unfold finish
    refine Tri.bind (hk Moves.getSim) (fun s => ?_)
    split
    · exact Tri.throw (fun m hm => hm)
    · exact Tri.bind (hk (hc.reset _)) (fun _ => Tri.bind (hk (hc.processModel _ _ _)) (fun _ _ _ => rfl))
  rw [run_eq cfg fuel t minH maxH m hi]
  have : Tri (fun m' => m'.s.tPrev = m.s.tPrev) (if 0 < m.s.svSize then (do advance cfg fuel t minH maxH; finish cfg t) else finish cfg t)
      (fun _ m' => m'.s.tPrev = t) (fun _ m' => m'.s.tPrev = m.s.tPrev) := by
    split
    · exact Tri.bind (hk (hc.advance fuel t minH maxH)) (fun _ => hf)
    · exact hf
  have := this m rfl
  refine ⟨fun m' h => ?_, fun e m' h => ?_⟩
  all_goals
    by_cases h0 : 0 < m.s.svSize
    · simp only [h0, if_true] at this h
      rw [h] at this; exact this
    · simp only [h0, if_false] at this h
      rw [h] at this; exact this

/-- `init` sets the time, whether it returns or throws. -/
theorem simInit_time (cfg : Config K) (t0 : K) (m : Machine K) : (stateOf (simInit cfg t0 m)).s.tPrev = t0 := by
  obtain ⟨lg, _, he⟩ := baseInit_eq cfg t0 m
  have hc := coversA_sameSim cfg
  let T : Machine K → Machine K → Prop := fun m m' => m'.s.tPrev = m.s.tPrev
  have : PreO T := ⟨fun _ => rfl, fun h h' => h'.trans h⟩
  have hT : ∀ m m' : Machine K, SameSim m m' → T m m' := fun m m' h => by
    have := congrArg Sim.tPrev h; exact this
  have hp := (hc.processModel t0 true true).mono hT
  have hw : ∀ {α : Type} (x : M K α), Moves T (inW x) := fun x m => by
    show (stateOf (inW x m)).s.tPrev = _
    rw [inW_sim]
  have hs : ∀ f : Sim K → Sim K, (∀ s, (f s).tPrev = s.tPrev) → Moves T (setSim f) := fun f hf m => hf m.s
  unfold simInit
  rw [bind_of_ok he]
  generalize hm : ({ w := _, s := _ } : Machine K) = m1
  have ht : m1.s.tPrev = t0 := by rw [← hm]
  suffices h : Moves T (match cfg.strategy with
    | .plain => processModel cfg t0 true true
    | .reuse => do
      let s ← getSim
      if 0 < s.svSize then
        debugVerify cfg.dbg s.po.isNone .debugVerify
        setSim (fun s => { s with po := some cfg.model.all })
      else pure ()
      processModel cfg t0 true true
    | .fast => do
      let s ← getSim
      debugVerify cfg.dbg s.fast.isEmpty .debugVerify
      inW (callInputs cfg t0)
      inW (cfg.model.preStep cfg.dbg t0)
      let r ← levels cfg t0
      setSim (fun s => { s with fast := s.fast ++ r.1 })
      if r.2 ≠ cfg.model.leaves.length then throwE (.exc .notFast) else pure ()
      inW (clearAll s.valueSigs)
      processModel cfg t0 true true) by
    exact (h m1).trans ht
  split
  · exact hp
  · refine Moves.bind Moves.getSim (fun s => ?_)
    split
    · exact Moves.bind (Moves.debugVerify _ _ _) (fun _ => Moves.bind (hs _ (fun _ => rfl)) (fun _ => hp))
    · exact hp
  · have h2 : ∀ s : Sim K, Moves T (do inW (clearAll s.valueSigs); processModel cfg t0 true true : MM K Unit) := fun s =>
      Moves.bind (hw _) (fun _ => hp)
    refine Moves.bind Moves.getSim (fun s => Moves.bind (Moves.debugVerify _ _ _) (fun _ => Moves.bind (hw _) (fun _ =>
      Moves.bind (hw _) (fun _ => Moves.bind (moves_levels (hw _) (fun _ _ => rfl)) (fun r => Moves.bind (hs _ (fun _ => rfl)) (fun _ => ?_))))))
    split
    · exact Moves.bind (Moves.throw _) (fun _ => h2 _)
    · exact h2 _

end Pooya
