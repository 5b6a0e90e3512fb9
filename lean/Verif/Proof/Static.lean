import Verif.Proof.Order

/-! Effects of evaluations on the diagram, and the members of a simulator that only `init` changes. -/

namespace Pooya

set_option linter.unusedSectionVars false

variable {K : Type}

section
variable {T : World K → World K → Prop} [PreO T]

theorem moves_setDone (b : BlkId) (d : Bool) (h : ∀ w : World K, T w { w with done := upd w.done b d }) :
    Moves T (setDone b d : M K Unit) := fun w => h w

theorem moves_getDone (b : BlkId) : Moves T (getDone b : M K Bool) := fun w => PreO.refl w

theorem moves_mark (b : Block K) (hd : ∀ (b : BlkId) d (w : World K), T w { w with done := upd w.done b d }) : Moves T b.mark := by
  refine Block.rec (motive_1 := fun b => Moves T b.mark) (motive_2 := fun bs => Moves T (markL bs)) ?_ ?_ ?_ ?_ b
  · intro l; simp only [Block.mark]; exact moves_setDone _ _ (hd _ _)
  · intro i ls kids ih; simp only [Block.mark]; exact Moves.bind (moves_setDone _ _ (hd _ _)) (fun _ => ih)
  · simp only [markL]; exact Moves.pure _
  · intro b bs h1 h2; simp only [markL]; exact Moves.bind h1 (fun _ => h2)

variable [Arith K] {dbg : Bool} {t : K}

theorem moves_leafProcess (l : Leaf K) (ha : Moves T (l.act dbg t))
    (hd : ∀ (b : BlkId) d (w : World K), T w { w with done := upd w.done b d }) : Moves T (l.process dbg t) := by
  unfold Leaf.process
  refine Moves.bind (moves_getDone _) (fun d => Moves.bind Moves.get (fun w => ?_))
  split
  · exact Moves.pure _
  · exact Moves.bind ha (fun _ => Moves.bind (moves_setDone _ _ (hd _ _)) (fun _ => Moves.pure _))

theorem moves_process (b : Block K) (ha : ∀ l ∈ b.leaves, Moves T (l.act dbg t))
    (hd : ∀ (b : BlkId) d (w : World K), T w { w with done := upd w.done b d }) : Moves T (b.process dbg t) := by
  revert ha
  refine Block.rec (motive_1 := fun b => (∀ l ∈ b.leaves, Moves T (l.act dbg t)) → Moves T (b.process dbg t))
    (motive_2 := fun bs => (∀ l ∈ leavesL bs, Moves T (l.act dbg t)) → ∀ i, Moves T (processL dbg t i bs)) ?_ ?_ ?_ ?_ b
  · intro l ha; simp only [Block.process]; exact moves_leafProcess l (ha l (by simp [Block.leaves])) hd
  · intro i ls kids ih ha
    simp only [Block.process]
    refine Moves.bind (moves_getDone _) (fun d => ?_)
    split
    · exact Moves.pure _
    · exact Moves.bind (moves_setDone _ _ (hd _ _)) (fun _ => ih (fun l hl => ha l (by simpa [Block.leaves] using hl)) i)
  · intro _ i; simp only [processL]; exact Moves.pure _
  · intro b bs h1 h2 ha i
    simp only [processL]
    refine Moves.bind (h1 (fun l hl => ha l (by simp [leavesL, hl]))) (fun n => Moves.bind (moves_getDone _) (fun d => ?_))
    have h3 : Moves T (do let m ← processL dbg t i bs; Pure.pure (n + m)) :=
      Moves.bind (h2 (fun l hl => ha l (by simp [leavesL, hl])) i) (fun m => Moves.pure _)
    split
    · exact Moves.bind (moves_setDone _ _ (hd _ _)) (fun _ => h3)
    · exact h3

theorem moves_plainLoop (b : Block K) (ha : ∀ l ∈ b.leaves, Moves T (l.act dbg t))
    (hd : ∀ (b : BlkId) d (w : World K), T w { w with done := upd w.done b d }) (n : Nat) : Moves T (plainLoop dbg t b n) := by
  induction n with
  | zero => exact Moves.throw _
  | succ n ih =>
    unfold plainLoop
    refine Moves.bind (moves_process b ha hd) (fun k => ?_)
    split
    · exact Moves.pure _
    · exact ih

theorem moves_reuseSweep (po : List (Block K)) (ha : ∀ l ∈ leavesOf po, Moves T (l.act dbg t))
    (hd : ∀ (b : BlkId) d (w : World K), T w { w with done := upd w.done b d }) : Moves T (reuseSweep dbg t po) := by
  induction po with
  | nil => exact Moves.pure _
  | cons b po ih =>
    have ih := ih (fun l hl => ha l (by rw [mem_leavesOf] at hl ⊢; exact List.mem_cons_of_mem _ hl))
    unfold reuseSweep
    refine Moves.bind (moves_getDone _) (fun d => ?_)
    split
    · exact ih
    · refine Moves.bind ?_ (fun _ => Moves.bind (moves_getDone _) (fun d' => Moves.bind ih (fun r => Moves.pure _)))
      cases b with
      | leaf l => exact moves_leafProcess l (ha l (by simp [mem_leavesOf])) hd
      | sub i ls kids => exact Moves.bind (moves_setDone _ _ (hd _ _)) (fun _ => Moves.pure _)

theorem moves_reuseLoop (po : List (Block K)) (ha : ∀ l ∈ leavesOf po, Moves T (l.act dbg t))
    (hd : ∀ (b : BlkId) d (w : World K), T w { w with done := upd w.done b d }) (n : Nat) : Moves T (reuseLoop dbg t po n) := by
  induction n with
  | zero => exact Moves.throw _
  | succ n ih =>
    unfold reuseLoop
    refine Moves.bind (moves_reuseSweep po ha hd) (fun new => ?_)
    split
    · exact Moves.pure _
    · exact Moves.bind ih (fun _ => Moves.pure _)

theorem moves_reuseEval (po : List (Block K)) (ha : ∀ l ∈ leavesOf po, Moves T (l.act dbg t))
    (hd : ∀ (b : BlkId) d (w : World K), T w { w with done := upd w.done b d }) : Moves T (reuseEval dbg t po) := by
  unfold reuseEval
  exact Moves.bind (moves_reuseLoop po ha hd _) (fun new => Moves.bind Moves.get (fun w =>
    Moves.bind (Moves.debugVerify _ _ _) (fun _ => Moves.pure _)))

theorem moves_fastLevel (k : Nat) (ls : List (Leaf K)) (ha : ∀ l ∈ ls, Moves T (l.act dbg t))
    (hd : ∀ (b : BlkId) d (w : World K), T w { w with done := upd w.done b d }) : Moves T (fastLevel dbg t k ls) := by
  induction ls generalizing k with
  | nil => unfold fastLevel; exact Moves.pure _
  | cons l ls ih =>
    have ih := fun k => ih k (fun l hl => ha l (by simp [hl]))
    unfold fastLevel
    split
    · exact Moves.pure _
    · refine Moves.bind (moves_getDone _) (fun d => Moves.bind Moves.get (fun w => ?_))
      split
      · exact ih k
      · refine Moves.bind (moves_leafProcess l (ha l (by simp)) hd) (fun _ => Moves.bind (moves_getDone _) (fun d' => ?_))
        split
        · exact Moves.bind (ih _) (fun _ => Moves.pure _)
        · exact Moves.pure _

theorem moves_fastOrder (po : List (Leaf K)) (ha : ∀ l ∈ po, Moves T (l.act dbg t))
    (hd : ∀ (b : BlkId) d (w : World K), T w { w with done := upd w.done b d }) (n : Nat) : Moves T (fastOrder dbg t po n) := by
  induction n with
  | zero => exact Moves.throw _
  | succ n ih =>
    unfold fastOrder
    refine Moves.bind Moves.get (fun w => ?_)
    dsimp only
    split
    · exact Moves.pure _
    · refine Moves.bind (moves_fastLevel _ po ha hd) (fun lv => ?_)
      split
      · exact Moves.pure _
      · exact Moves.bind ih (fun _ => Moves.pure _)

end

variable [Arith K]

/-- The diagram moves along `T`; of the simulator only the remembered order may change. -/
def onEval (T : World K → World K → Prop) (m m' : Machine K) : Prop :=
  T m.w m'.w ∧ m'.s = { m.s with po := m'.s.po }

instance (T : World K → World K → Prop) [PreO T] : PreO (onEval T) where
  refl _ := ⟨PreO.refl _, rfl⟩
  trans h h' := ⟨PreO.trans h.1 h'.1, by rw [h'.2, h.2]⟩

theorem onEval_of_onW {T : World K → World K → Prop} {m m' : Machine K} (h : onW T m m') : onEval T m m' :=
  ⟨h.1, by rw [h.2]⟩

theorem moves_eval_aux {T : World K → World K → Prop} [PreO T] (cfg : Config K) {m : Machine K} (t : K)
    (P : Leaf K → Prop) (ha : ∀ l, P l → Moves T (l.act cfg.dbg t)) (h1 : ∀ l ∈ cfg.model.leaves, P l)
    (h2 : ∀ po, m.s.po = some po → ∀ l ∈ leavesOf po, P l) (h3 : ∀ l ∈ m.s.fast.flatten, P l)
    (hd : cfg.strategy ≠ .fast → ∀ (b : BlkId) d (w : World K), T w { w with done := upd w.done b d }) :
    onEval T m (stateOf (evalModel cfg t m)) := by
  unfold evalModel
  cases hs : cfg.strategy with
  | plain =>
    have hd := hd (by rw [hs]; simp)
    exact onEval_of_onW (Moves.bind (Moves.inW (moves_mark _ hd)) (fun _ => Moves.inW (moves_plainLoop _ (fun l hl => ha l (h1 l hl)) hd _)) m)
  | reuse =>
    have hd := hd (by rw [hs]; simp)
    have g1 := Moves.inW (moves_mark (T := T) cfg.model hd) m
    simp only
    rw [bind_apply]
    cases hx : inW cfg.model.mark m with
    | error e m1 => rw [hx] at g1; exact onEval_of_onW g1
    | ok a m1 =>
      rw [hx] at g1
      simp only [bind_apply, getSim]
      have e1 : m1.s = m.s := g1.2
      cases hpo : m1.s.po with
      | none => exact onEval_of_onW g1
      | some po =>
        rw [e1] at hpo
        have g2 := Moves.inW (moves_reuseEval (dbg := cfg.dbg) (t := t) po (T := T) (fun l hl => ha l (h2 po hpo l hl)) hd) m1
        simp only [bind_apply]
        cases hy : inW (reuseEval cfg.dbg t po) m1 with
        | error e m2 =>
          rw [hy] at g2
          exact onEval_of_onW (PreO.trans g1 g2)
        | ok po' m2 =>
          rw [hy] at g2
          have g3 := PreO.trans (T := onW T) g1 g2
          refine ⟨g3.1, ?_⟩
          have : m2.s = m.s := g3.2
          simp only [setSim, stateOf, this]
  | fast =>
    simp only [bind_apply, getSim]
    exact onEval_of_onW (Moves.inW (moves_actAll _ _ _ (fun l hl => ha l (h3 l hl))) m)

/-- One evaluation, from a state whose remembered orders contain only blocks of the model. -/
theorem moves_eval {T : World K → World K → Prop} [PreO T] (cfg : Config K) {m : Machine K} (hi : OrderInv cfg m) (t : K)
    (ha : ∀ l ∈ cfg.model.leaves, Moves T (l.act cfg.dbg t))
    (hd : cfg.strategy ≠ .fast → ∀ (b : BlkId) d (w : World K), T w { w with done := upd w.done b d }) :
    onEval T m (stateOf (evalModel cfg t m)) :=
  moves_eval_aux cfg t (· ∈ cfg.model.leaves) ha (fun _ h => h)
    (fun po hpo l hl => by rw [leaf_mem_all]; exact hi.poSub po hpo _ (mem_leavesOf.1 hl)) hi.fastSub hd

/-- One evaluation, from any state, for a relation that all activation functions respect. -/
theorem moves_eval_any {T : World K → World K → Prop} [PreO T] (cfg : Config K) (t : K)
    (ha : ∀ l : Leaf K, Moves T (l.act cfg.dbg t))
    (hd : cfg.strategy ≠ .fast → ∀ (b : BlkId) d (w : World K), T w { w with done := upd w.done b d }) :
    Moves (onEval T) (evalModel cfg t) := fun m =>
  moves_eval_aux cfg t (fun _ => True) (fun l _ => ha l) (fun _ _ => trivial) (fun _ _ _ _ => trivial)
    (fun _ _ => trivial) hd

/-! ## What only `init` changes -/

/-- The members of a simulator that only `init` changes, and the types of the signals. -/
structure Fixed (m m' : Machine K) : Prop where
  initialized : m'.s.initialized = m.s.initialized
  valueSigs : m'.s.valueSigs = m.s.valueSigs
  scalarStates : m'.s.scalarStates = m.s.scalarStates
  arrayStates : m'.s.arrayStates = m.s.arrayStates
  nState : m'.s.nState = m.s.nState
  ty : SameTy m.w m'.w

instance : PreO (Fixed (K := K)) where
  refl m := ⟨rfl, rfl, rfl, rfl, rfl, PreO.refl m.w⟩
  trans h h' := ⟨h'.1.trans h.1, h'.2.trans h.2, h'.3.trans h.3, h'.4.trans h.4, h'.5.trans h.5, PreO.trans h.6 h'.6⟩

theorem fixed_inW {α : Type} {x : M K α} (h : Moves SameTy x) : Moves Fixed (inW x) := by
  intro m
  have := Moves.inW h m
  exact ⟨by rw [this.2], by rw [this.2], by rw [this.2], by rw [this.2], by rw [this.2], this.1⟩

theorem sameTy_within {O : SigId → Prop} {b : BlkId} {w w' : World K} {ev : Event K}
    (h : Within O b { w with log := ev :: w.log } w') : SameTy w w' := fun s => h.ty s

theorem sameTy_upd (w : World K) (s : SigId) (a : Bool) (v : Option (Val K)) :
    SameTy w { w with sig := upd w.sig s { w.sig s with assigned := a, value := v } } := by
  intro x
  by_cases h : x = s
  · subst h; simp [upd]
  · simp [upd, h]

/-- `CoversC` from the elementary effects on the diagram. -/
theorem coversC_mk {cfg : Config K} {T : World K → World K → Prop} [PreO T] {S : Machine K → Machine K → Prop} [PreO S]
    (hS : ∀ m m', onEval T m m' → S m m')
    (input : ∀ t (w : World K), T w { w with log := .input t :: w.log })
    (set : ∀ s (v : Val K) (w : World K), T w { w with sig := upd w.sig s { w.sig s with assigned := true, value := some v } })
    (clear : ∀ s (w : World K), T w { w with sig := upd w.sig s { w.sig s with assigned := false } })
    (pre : ∀ l ∈ cfg.model.leaves, ∀ t, Moves T (l.pre cfg.dbg t))
    (post : ∀ l ∈ cfg.model.leaves, ∀ t, Moves T (l.post cfg.dbg t))
    (eval : ∀ t, Moves S (evalModel cfg t))
    (sv : ∀ x, Moves S (setSim (fun s : Sim K => { s with sv := some x }))) : CoversC cfg S := by
  have hw : ∀ {α : Type} {x : M K α}, Moves T x → Moves S (inW x) := fun h m =>
    hS _ _ (onEval_of_onW (Moves.inW h m))
  have hin : ∀ t, Moves T (callInputs cfg t : M K Unit) := fun t =>
    moves_callInputs cfg t (input t) (fun s _ v w => set s v w)
  have hpre : ∀ t, Moves T (cfg.model.preStep cfg.dbg t) := fun t =>
    moves_preStep _ _ _ (fun l hl => pre l hl t)
  have hcl : ∀ ss, Moves T (clearAll ss) := fun ss => moves_clearAll ss (fun s _ w => clear s w)
  exact {
    preo := inferInstance
    inputs := fun t => hw (hin t)
    pre := fun t => hw (hpre t)
    processModel := fun t p q => moves_processModel (hw (hin t)) (hw (hpre t))
      (hw (moves_postStep _ _ _ (fun l hl => post l hl t))) (eval t) p q
    reset := fun x => Moves.bind Moves.getSim (fun s => Moves.bind (hw (hcl _)) (fun _ =>
      Moves.bind (hw (moves_writeScalars _ _ _ (fun s _ v w => set s v w))) (fun d =>
        hw (moves_writeArrays _ _ _ (fun s _ v w => set s v w)))))
    clear := Moves.bind Moves.getSim (fun _ => hw (hcl _))
    readS := fun ss => hw (moves_readScalars _ ss)
    readA := fun ss => hw (moves_readArrays _ ss)
    sv := sv }

/-- `CoversA` from the elementary effects on the diagram. -/
theorem coversA_mk {cfg : Config K} {T : World K → World K → Prop} [PreO T] {S : Machine K → Machine K → Prop} [PreO S]
    (hS : ∀ m m', onEval T m m' → S m m')
    (log : ∀ (e : Event K) (w : World K), T w { w with log := e :: w.log })
    (set : ∀ s (v : Val K) (w : World K), T w { w with sig := upd w.sig s { w.sig s with assigned := true, value := some v } })
    (clear : ∀ s (w : World K), T w { w with sig := upd w.sig s { w.sig s with assigned := false } })
    (pre : ∀ l ∈ cfg.model.leaves, ∀ t, Moves T (l.pre cfg.dbg t))
    (post : ∀ l ∈ cfg.model.leaves, ∀ t, Moves T (l.post cfg.dbg t))
    (eval : ∀ t, Moves S (evalModel cfg t))
    (sv : ∀ x, Moves S (setSim (fun s : Sim K => { s with sv := some x }))) : CoversA cfg S := by
  have hw : ∀ {α : Type} {x : M K α}, Moves T x → Moves S (inW x) := fun h m =>
    hS _ _ (onEval_of_onW (Moves.inW h m))
  exact { coversC_mk hS (fun t => log _) set clear pre post eval sv with
    trial := fun _ _ => hw (moves_emit _ (log _))
    accept := fun _ _ => hw (moves_emit _ (log _))
    warn := fun _ => hw (moves_emit _ (log _)) }

/-- `Covers` from the elementary effects on the diagram. -/
theorem covers_mk {cfg : Config K} {T : World K → World K → Prop} [PreO T] {S : Machine K → Machine K → Prop} [PreO S]
    (hS : ∀ m m', onEval T m m' → S m m')
    (log : ∀ (e : Event K) (w : World K), T w { w with log := e :: w.log })
    (set : ∀ s (v : Val K) (w : World K), T w { w with sig := upd w.sig s { w.sig s with assigned := true, value := some v } })
    (clear : ∀ s (w : World K), T w { w with sig := upd w.sig s { w.sig s with assigned := false } })
    (pre : ∀ l ∈ cfg.model.leaves, ∀ t, Moves T (l.pre cfg.dbg t))
    (post : ∀ l ∈ cfg.model.leaves, ∀ t, Moves T (l.post cfg.dbg t))
    (eval : ∀ t, Moves S (evalModel cfg t))
    (sv : ∀ x, Moves S (setSim (fun s : Sim K => { s with sv := some x })))
    (time : ∀ t, Moves S (setSim (fun s : Sim K => { s with tPrev := t }))) : Covers cfg S :=
  { coversA_mk hS log set clear pre post eval sv with time := time }

theorem fixed_of_onEval {m m' : Machine K} (h : onEval SameTy m m') : Fixed m m' :=
  ⟨by rw [h.2], by rw [h.2], by rw [h.2], by rw [h.2], by rw [h.2], h.1⟩

theorem covers_fixed (cfg : Config K) : Covers cfg (Fixed (K := K)) :=
  covers_mk (T := SameTy) (fun _ _ => fixed_of_onEval) (fun _ w => PreO.refl (T := SameTy) w)
    (fun _ _ _ => sameTy_upd _ _ _ _) (fun _ _ => sameTy_upd _ _ _ _)
    (fun l _ t => moves_pre _ t l (fun _ _ h => sameTy_within h))
    (fun l _ t => moves_post _ t l (fun _ _ h => sameTy_within h))
    (fun t m => fixed_of_onEval (moves_eval_any cfg t (fun l => moves_act _ t l (fun _ _ h => sameTy_within h))
      (fun _ _ _ w => PreO.refl (T := SameTy) w) m))
    (fun _ m => ⟨rfl, rfl, rfl, rfl, rfl, PreO.refl (T := SameTy) m.w⟩)
    (fun _ m => ⟨rfl, rfl, rfl, rfl, rfl, PreO.refl (T := SameTy) m.w⟩)

theorem clearAll_sig (ss : List SigId) (w : World K) :
    stateOf (clearAll ss w) = { w with sig := fun s => if s ∈ ss then { w.sig s with assigned := false } else w.sig s } := by
  induction ss generalizing w with
  | nil => simp [clearAll, stateOf]
  | cons x ss ih =>
    simp only [clearAll, bind_apply, clearv]
    rw [ih]
    congr 1
    funext s
    by_cases h : s = x
    · subst h; by_cases h2 : s ∈ ss <;> simp [upd, h2]
    · by_cases h2 : s ∈ ss <;> simp [upd, h, h2]

theorem clearAll_ok (ss : List SigId) (w : World K) :
    clearAll ss w = .ok () { w with sig := fun s => if s ∈ ss then { w.sig s with assigned := false } else w.sig s } := by
  rw [← clearAll_sig]
  induction ss generalizing w with
  | nil => rfl
  | cons x ss ih => simp only [clearAll, bind_apply, clearv]; exact ih _

/-- What `SimulatorBase::init` does: it never throws. -/
theorem baseInit_eq (cfg : Config K) (t0 : K) (m : Machine K) :
    ∃ lg, (lg = m.w.log ∨ lg = .warnStepper :: m.w.log) ∧ baseInit cfg t0 m = .ok ()
      { w := { m.w with
          log := lg
          sig := fun s => if s ∈ m.s.valueSigs ++ cfg.hash (linkedSigs cfg.model) then
            { m.w.sig s with assigned := false } else m.w.sig s }
        s := { m.s with
          valueSigs := m.s.valueSigs ++ cfg.hash (linkedSigs cfg.model)
          scalarStates := m.s.scalarStates ++ cfg.hash (scalarStatesOf cfg m.w)
          arrayStates := m.s.arrayStates ++ cfg.hash (arrayStatesOf cfg m.w)
          nState := stateSize cfg m.w
          sv := if stateSize cfg m.w = m.s.svSize then m.s.sv else if stateSize cfg m.w = 0 then some [] else none
          tPrev := t0
          initialized := true } } := by
  unfold baseInit
  by_cases h : (decide (stateSize cfg m.w = 0) && cfg.stepper.isSome) = true
  · refine ⟨_, Or.inr rfl, ?_⟩
    simp only [bind_apply, get_apply, setSim, h, if_true, inW, emit, getSim]
    rw [clearAll_ok]
  · refine ⟨_, Or.inl rfl, ?_⟩
    simp only [bind_apply, get_apply, setSim, h, inW, getSim, Bool.false_eq_true, if_false, pure_apply]
    rw [clearAll_ok]

/-- After `SimulatorBase::init` only the orders change during the rest of `init`. -/
theorem simInit_fixed (cfg : Config K) (t0 : K) (m : Machine K) :
    ∃ m1, baseInit cfg t0 m = .ok () m1 ∧ Fixed m1 (stateOf (simInit cfg t0 m)) := by
  obtain ⟨lg, _, he⟩ := baseInit_eq cfg t0 m
  refine ⟨_, he, ?_⟩
  have hc := covers_fixed cfg
  have hp := hc.processModel t0 true true
  unfold simInit
  rw [bind_of_ok he]
  generalize hm : ({ w := _, s := _ } : Machine K) = m1
  have : Moves Fixed (match cfg.strategy with
    | .plain => processModel cfg t0 true true
    | .reuse => do
      let s ← getSim
      if 0 < s.svSize then
        debugVerify cfg.dbg s.po.isNone .debugVerify
        setSim (fun s => { s with po := some cfg.model.all })
      else pure ()
      processModel cfg t0 true true
    | .fast => do
      let s ← getSim
      debugVerify cfg.dbg s.fast.isEmpty .debugVerify
      inW (callInputs cfg t0)
      inW (cfg.model.preStep cfg.dbg t0)
      let r ← levels cfg t0
      setSim (fun s => { s with fast := s.fast ++ r.1 })
      if r.2 ≠ cfg.model.leaves.length then throwE (.exc .notFast) else pure ()
      inW (clearAll s.valueSigs)
      processModel cfg t0 true true) := by
    have hsim : ∀ f : Sim K → Sim K, (∀ s, (f s).initialized = s.initialized ∧ (f s).valueSigs = s.valueSigs ∧
        (f s).scalarStates = s.scalarStates ∧ (f s).arrayStates = s.arrayStates ∧ (f s).nState = s.nState) →
        Moves Fixed (setSim f) := fun f hf m =>
      ⟨(hf m.s).1, (hf m.s).2.1, (hf m.s).2.2.1, (hf m.s).2.2.2.1, (hf m.s).2.2.2.2, PreO.refl (T := SameTy) m.w⟩
    split
    · exact hp
    · refine Moves.bind Moves.getSim (fun s => ?_)
      split
      · exact Moves.bind (Moves.debugVerify _ _ _) (fun _ => Moves.bind (hsim _ (fun _ => ⟨rfl, rfl, rfl, rfl, rfl⟩)) (fun _ => hp))
      · exact hp
    · have h2 : ∀ s : Sim K, Moves Fixed (do inW (clearAll s.valueSigs); processModel cfg t0 true true : MM K Unit) := fun s =>
        Moves.bind (fixed_inW (moves_clearAll _ (fun _ _ _ => sameTy_upd _ _ _ _))) (fun _ => hp)
      refine Moves.bind Moves.getSim (fun s => Moves.bind (Moves.debugVerify _ _ _) (fun _ => Moves.bind (hc.inputs t0) (fun _ =>
        Moves.bind (hc.pre t0) (fun _ => Moves.bind (moves_levels (fixed_inW (moves_fastOrder _ (fun l _ => moves_act _ t0 l (fun _ _ h => sameTy_within h))
          (fun _ _ w => PreO.refl (T := SameTy) w) _)) (fun m _ => ⟨rfl, rfl, rfl, rfl, rfl, PreO.refl (T := SameTy) m.w⟩)) (fun r => Moves.bind (hsim _ (fun _ => ⟨rfl, rfl, rfl, rfl, rfl⟩)) (fun _ => ?_))))))
      split
      · exact Moves.bind (Moves.throw _) (fun _ => h2 _)
      · exact h2 _
  exact this m1

theorem run_init (cfg : Config K) (fuel : Nat) (t minH maxH : K) (m : Machine K) (h : m.s.initialized = false) :
    run cfg fuel t minH maxH m = simInit cfg t m := by
  unfold run
  simp [bind_apply, getSim, h]

/-- Every linked signal is on the list of signals to clear, once the simulator is initialised. -/
theorem reach_linked (cfg : Config K) (hh : ∀ l s, s ∈ l → s ∈ cfg.hash l) {m : Machine K} (h : Reach cfg m)
    (hi : m.s.initialized = true) : ∀ s ∈ linkedSigs cfg.model, s ∈ m.s.valueSigs := by
  have hinit : ∀ t (m : Machine K), ∀ s ∈ linkedSigs cfg.model, s ∈ (stateOf (simInit cfg t m)).s.valueSigs := by
    intro t m s hs
    obtain ⟨m1, h1, h2⟩ := simInit_fixed cfg t m
    obtain ⟨lg, _, he⟩ := baseInit_eq cfg t m
    rw [h1] at he
    simp only [EStateM.Result.ok.injEq, true_and] at he
    rw [h2.valueSigs, he]
    exact List.mem_append_right _ (hh _ s hs)
  induction h with
  | new w t _ _ => cases hi
  | @call m c h ih =>
    cases c with
    | init t => exact hinit t m
    | run f t a b =>
      by_cases hm : m.s.initialized = true
      · have h3 := (covers_fixed cfg).run f t a b m hm
        intro s hs
        show s ∈ (stateOf (Pooya.run cfg f t a b m)).s.valueSigs
        rw [h3.valueSigs]; exact ih hm s hs
      · show ∀ s ∈ _, s ∈ (stateOf (Pooya.run cfg f t a b m)).s.valueSigs
        rw [run_init cfg f t a b m (by simpa using hm)]
        exact hinit t m
  | user sig h ih => exact ih hi

end Pooya
