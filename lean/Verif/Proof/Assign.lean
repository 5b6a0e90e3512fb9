import Verif.Proof.Sched

/-! Which blocks always assign their outputs, and which exceptions an activation function can throw. -/

namespace Pooya

set_option linter.unusedSectionVars false

variable {K : Type} [Arith K]

/-! ## Outputs are assigned -/

/-- If `x` returns, `o` is assigned. -/
def Sets {α : Type} (o : SigId) (x : M K α) : Prop := ∀ w a w', x w = .ok a w' → (w'.sig o).assigned = true

theorem Sets.bind {α β : Type} {o : SigId} {x : M K α} {f : α → M K β} (h : ∀ a, Sets o (f a)) : Sets o (x >>= f) := by
  intro w a w' e
  rw [bind_ok] at e
  obtain ⟨b, w1, _, e2⟩ := e
  exact h b w1 a w' e2

theorem Sets.throw {α : Type} {o : SigId} (e : Err) : Sets o (throwE e : M K α) := by
  intro w a w' h; simp at h

theorem Sets.setv {o : SigId} (dbg : Bool) (v : Val K) : Sets o (setv dbg o v) := by
  intro w a w' h
  simp only [Pooya.setv] at h
  split at h
  · cases h
  · split at h
    · cases h
    · split at h
      · cases h
      · cases h; simp [upd]

theorem sets_delayAct {dbg : Bool} (b : BlkId) (t : K) (d i o : SigId) : Sets o (delayAct dbg b t d i o) := by
  unfold delayAct
  refine Sets.bind (fun m => ?_)
  split
  · exact Sets.bind (fun _ => Sets.setv _ _)
  · refine Sets.bind (fun q => ?_)
    dsimp only
    split
    · exact Sets.bind (fun _ => Sets.setv _ _)
    · split
      · split
        · exact Sets.setv _ _
        · exact Sets.throw _
      · split
        · exact Sets.throw _
        · exact Sets.bind (fun _ => Sets.bind (fun _ => Sets.bind (fun _ => Sets.bind (fun _ => Sets.bind (fun _ =>
            Sets.setv _ _)))))

theorem sets_derivAct {dbg : Bool} (b : BlkId) (t : K) (x o : SigId) : Sets o (derivAct dbg b t x o) := by
  unfold derivAct
  refine Sets.bind (fun m => ?_)
  split
  · exact Sets.bind (fun _ => Sets.bind (fun _ => Sets.bind (fun _ => Sets.setv _ _)))
  · split
    · exact Sets.throw _
    · split
      · exact Sets.setv _ _
      · refine Sets.bind (fun v => ?_)
        split
        · exact Sets.throw _
        · exact Sets.bind (fun _ => Sets.setv _ _)

/-- All library blocks except `Sources` and `Function` always assign their outputs. -/
theorem assigns_library (l : Leaf K) (h : ¬ l.kind matches .sources _ _ | .func _ _ _ | .custom _) : l.Assigns := by
  intro dbg t w w' e s hs
  have key : Sets s (l.act dbg t) := by
    unfold Leaf.act
    refine Sets.bind (fun _ => ?_)
    unfold Leaf.actBody
    unfold Leaf.outs at hs
    cases hk : l.kind <;> simp only [hk, Kind.outs, List.mem_singleton, List.not_mem_nil] at hs h ⊢ <;>
      first
      | (subst hs; exact Sets.setv _ _)
      | (subst hs; exact Sets.bind (fun _ => Sets.setv _ _))
      | (subst hs; exact Sets.bind (fun _ => Sets.bind (fun _ => Sets.setv _ _)))
      | (subst hs; exact Sets.bind (fun _ => Sets.bind (fun _ => Sets.bind (fun _ => Sets.setv _ _))))
      | (subst hs; exact sets_delayAct _ _ _ _ _)
      | (subst hs; exact sets_derivAct _ _ _ _)
      | (simp at h)
  exact key w () w' e

/-! ## No re-assignment -/

/-- `x` does not raise the re-assignment exception if the signals in `O` are not assigned, and
keeps them so. -/
def Pure0 {α : Type} (x : M K α) : Prop :=
  ∀ w, (∀ s, ((stateOf' (x w)).sig s).assigned = (w.sig s).assigned) ∧ ∀ e w', x w = .error e w' → e ≠ .exc .reassigned
where stateOf' {σ α : Type} : EStateM.Result Err σ α → σ
  | .ok _ s => s
  | .error _ s => s

/-- If `o` is not assigned, `x` does not raise the re-assignment exception. -/
def NoRe {α : Type} (o : SigId) (x : M K α) : Prop :=
  ∀ w, (w.sig o).assigned = false → ∀ e w', x w = .error e w' → e ≠ .exc .reassigned

theorem Pure0.bindNoRe {α β : Type} {o : SigId} {x : M K α} {f : α → M K β} (hx : Pure0 x) (hf : ∀ a, NoRe o (f a)) :
    NoRe o (x >>= f) := by
  intro w hw e w' h
  rw [bind_error] at h
  rcases h with h | ⟨a, w1, h1, h2⟩
  · exact (hx w).2 e w' h
  · have := (hx w).1 o
    rw [h1] at this
    exact hf a w1 (this.trans hw) e w' h2

theorem Pure0.bind {α β : Type} {x : M K α} {f : α → M K β} (hx : Pure0 x) (hf : ∀ a, Pure0 (f a)) : Pure0 (x >>= f) := by
  intro w
  constructor
  · intro s
    have h1 := (hx w).1 s
    rw [bind_apply]
    cases hxw : x w with
    | ok a w1 => rw [hxw] at h1; exact ((hf a w1).1 s).trans h1
    | error e w1 => rw [hxw] at h1; exact h1
  · intro e w' h
    rw [bind_error] at h
    rcases h with h | ⟨a, w1, h1, h2⟩
    · exact (hx w).2 e w' h
    · exact (hf a w1).2 e w' h2

theorem Pure0.pure {α : Type} (a : α) : Pure0 (Pure.pure a : M K α) :=
  fun w => ⟨fun _ => rfl, fun e w' h => by cases h⟩

theorem Pure0.throw {α : Type} {e : Err} (h : e ≠ .exc .reassigned) : Pure0 (throwE e : M K α) :=
  fun w => ⟨fun _ => rfl, fun e' w' h' => by cases h'; exact h⟩

theorem Pure0.lift {α : Type} {x : Except Err α} (h : x ≠ .error (.exc .reassigned)) : Pure0 (liftE x : M K α) := by
  cases x with
  | ok a => exact Pure0.pure a
  | error e => exact Pure0.throw (fun e' => h (by rw [e']))

theorem Pure0.throwOpt {o : Option Err} (h : o ≠ some (.exc .reassigned)) : Pure0 (Pooya.throwOpt o : M K Unit) := by
  cases o with
  | none => exact Pure0.pure _
  | some e => exact Pure0.throw (fun e' => h (by rw [e']))

theorem Pure0.getv (dbg : Bool) (s : SigId) : Pure0 (Pooya.getv dbg s : M K (Val K)) := by
  intro w
  simp only [Pooya.getv]
  split
  · exact ⟨fun _ => rfl, fun e w' h => by cases h; simp⟩
  · split
    · exact ⟨fun _ => rfl, fun e w' h => by cases h; simp⟩
    · exact ⟨fun _ => rfl, fun e w' h => by cases h⟩

theorem Pure0.getScalar (dbg : Bool) (s : SigId) : Pure0 (Pooya.getScalar dbg s : M K K) := by
  unfold Pooya.getScalar
  refine Pure0.bind (Pure0.getv _ _) (fun v => ?_)
  split
  · exact Pure0.pure _
  · exact Pure0.throw (by simp)

theorem Pure0.getBool (dbg : Bool) (s : SigId) : Pure0 (Pooya.getBool dbg s : M K Bool) := by
  unfold Pooya.getBool
  refine Pure0.bind (Pure0.getv _ _) (fun v => ?_)
  split
  · exact Pure0.pure _
  · exact Pure0.throw (by simp)

theorem Pure0.getAll (dbg : Bool) (ss : List SigId) : Pure0 (Pooya.getAll dbg ss : M K _) := by
  induction ss with
  | nil => exact Pure0.pure _
  | cons s ss ih => exact Pure0.bind (Pure0.getv _ _) (fun _ => Pure0.bind ih (fun _ => Pure0.pure _))

theorem Pure0.getMem (b : BlkId) : Pure0 (Pooya.getMem b : M K _) := fun w => ⟨fun _ => rfl, fun e w' h => by cases h⟩
theorem Pure0.setMem (b : BlkId) (m : Mem K) : Pure0 (Pooya.setMem b m) := fun w => ⟨fun _ => rfl, fun e w' h => by cases h⟩
theorem Pure0.emit (e : Event K) : Pure0 (Pooya.emit e) := fun w => ⟨fun _ => rfl, fun e w' h => by cases h⟩

theorem Pure0.vecAt {α : Type} (l : List α) (i : Nat) : Pure0 (Pooya.vecAt l i : M K α) := by
  unfold Pooya.vecAt
  split
  · exact Pure0.pure _
  · exact Pure0.throw (by simp)

theorem lift2_ne (f : K → K → K) (a b : Val K) : Val.lift2 f a b ≠ .error (.exc .reassigned) := by
  unfold Val.lift2; split
  · simp
  · split <;> simp
  · simp

theorem gain_ne (a b : Val K) : Val.gain a b ≠ .error (.exc .reassigned) := by
  unfold Val.gain; split
  · simp
  · split <;> simp
  · simp
  · simp

theorem Pure0.foldIns (dbg : Bool) (f : K → K → K) (acc : Val K) (ss : List SigId) :
    Pure0 (Pooya.foldIns dbg (Val.lift2 f) acc ss : M K _) := by
  induction ss generalizing acc with
  | nil => exact Pure0.pure _
  | cons s ss ih => exact Pure0.bind (Pure0.getv _ _) (fun v => Pure0.bind (Pure0.lift (lift2_ne _ _ _)) (fun a => ih a))

theorem Pure0.noRe {α : Type} {o : SigId} {x : M K α} (h : Pure0 x) : NoRe o x := fun w _ e w' h' => (h w).2 e w' h'

theorem NoRe.setv {o : SigId} (dbg : Bool) (v : Val K) : NoRe o (setv dbg o v) := by
  intro w hw e w' h
  simp only [Pooya.setv, hw, Bool.and_false, Bool.false_eq_true, if_false] at h
  split at h
  · cases h; simp
  · split at h
    · cases h; simp
    · cases h

theorem noRe_delayAct {dbg : Bool} (b : BlkId) (t : K) (d i o : SigId) : NoRe o (delayAct dbg b t d i o) := by
  unfold delayAct
  refine (Pure0.getMem b).bindNoRe (fun m => ?_)
  split
  · exact (Pure0.getv _ _).bindNoRe (fun _ => NoRe.setv _ _)
  · refine (Pure0.getScalar _ _).bindNoRe (fun q => ?_)
    dsimp only
    split
    · exact (Pure0.getv _ _).bindNoRe (fun _ => NoRe.setv _ _)
    · split
      · split
        · exact NoRe.setv _ _
        · exact (Pure0.throw (by simp)).noRe
      · split
        · exact (Pure0.throw (by simp)).noRe
        · exact (Pure0.vecAt _ _).bindNoRe (fun _ => (Pure0.vecAt _ _).bindNoRe (fun _ => (Pure0.vecAt _ _).bindNoRe (fun _ =>
            (Pure0.vecAt _ _).bindNoRe (fun _ => (Pure0.lift (lift2_ne _ _ _)).bindNoRe (fun _ => NoRe.setv _ _)))))

theorem noRe_derivAct {dbg : Bool} (b : BlkId) (t : K) (x o : SigId) : NoRe o (derivAct dbg b t x o) := by
  unfold derivAct
  refine (Pure0.getMem b).bindNoRe (fun m => ?_)
  split
  · exact (Pure0.setMem _ _).bindNoRe (fun _ => (Pure0.getv _ _).bindNoRe (fun _ => (Pure0.setMem _ _).bindNoRe (fun _ => NoRe.setv _ _)))
  · split
    · exact (Pure0.throw (by simp)).noRe
    · split
      · exact NoRe.setv _ _
      · refine (Pure0.getv _ _).bindNoRe (fun v => ?_)
        split
        · exact (Pure0.throw (by simp)).noRe
        · exact (Pure0.lift (lift2_ne _ _ _)).bindNoRe (fun _ => NoRe.setv _ _)

/-- `setAll` on different, unassigned signals, followed by an exception of the user. -/
theorem setAll_noRe {dbg : Bool} {ss : List SigId} (hn : ss.Nodup) (vs : List (Option (Val K))) {y : M K Unit}
    (hy : Pure0 y) (w : World K) (hw : ∀ s ∈ ss, (w.sig s).assigned = false) (e : Err) (w' : World K)
    (h : (do setAll dbg ss vs; y) w = .error e w') : e ≠ .exc .reassigned := by
  induction ss generalizing vs w with
  | nil =>
    have : setAll dbg [] vs = (pure () : M K Unit) := by cases vs <;> rfl
    rw [this] at h
    exact (hy w).2 e w' h
  | cons s ss ih =>
    cases vs with
    | nil => exact (hy w).2 e w' h
    | cons v vs =>
      cases v with
      | none => exact ih (List.nodup_cons.1 hn).2 vs w (fun x hx => hw x (by simp [hx])) h
      | some v =>
        have e1 : (do setAll dbg (s :: ss) (some v :: vs); y) = (do setv dbg s v; (do setAll dbg ss vs; y) : M K Unit) := by
          simp only [setAll, bind_assoc]
        rw [e1, bind_error] at h
        rcases h with h | ⟨_, w1, h1, h2⟩
        · exact NoRe.setv dbg v w (hw s (by simp)) e w' h
        · refine ih (List.nodup_cons.1 hn).2 vs w1 (fun x hx => ?_) h2
          have hne : x ≠ s := fun e => (List.nodup_cons.1 hn).1 (e ▸ hx)
          simp only [setv] at h1
          split at h1
          · cases h1
          · split at h1
            · cases h1
            · split at h1
              · cases h1
              · cases h1
                simp only [upd, if_neg hne]
                exact hw x (by simp [hx])

/-- The activation function of a block whose outputs are different and not assigned does not raise the
re-assignment exception. -/
theorem act_noRe (dbg : Bool) (l : Leaf K) (t : K) (hh : l.Honest) (hn : l.outs.Nodup) (w : World K)
    (hw : ∀ s ∈ l.outs, (w.sig s).assigned = false) (e : Err) (w' : World K) (h : l.act dbg t w = .error e w') :
    e ≠ .exc .reassigned := by
  unfold Leaf.act at h
  rw [bind_error] at h
  rcases h with h | ⟨_, w1, h1, h⟩
  · cases h
  cases h1
  replace hw : ∀ s ∈ l.outs, (({ w with log := .act l.id t :: w.log } : World K).sig s).assigned = false := hw
  revert h
  generalize ({ w with log := .act l.id t :: w.log } : World K) = w at hw
  intro h
  unfold Leaf.actBody at h
  unfold Leaf.Honest at hh
  unfold Leaf.outs at hw hn
  have k : ∀ o (x : M K Unit), o ∈ l.kind.outs → NoRe o x → x w = .error e w' → e ≠ .exc .reassigned :=
    fun o x ho hx hxe => hx w (hw o ho) e w' hxe
  have k0 : ∀ (x : M K Unit), Pure0 x → x w = .error e w' → e ≠ .exc .reassigned := fun x hx hxe => (hx w).2 e w' hxe
  cases hk : l.kind <;> simp only [hk] at h hh hw hn k
  case const v o => exact k o _ (by simp [Kind.outs]) (NoRe.setv _ _) h
  case source f o => exact k o _ (by simp [Kind.outs]) ((Pure0.lift (hh t)).bindNoRe (fun _ => NoRe.setv _ _)) h
  case sources f os => exact setAll_noRe hn _ (Pure0.throwOpt (hh t)) w hw e w' h
  case gain c x o => exact k o _ (by simp [Kind.outs]) ((Pure0.getv _ _).bindNoRe (fun _ => (Pure0.lift (gain_ne _ _)).bindNoRe (fun _ => NoRe.setv _ _))) h
  case add i is o => exact k o _ (by simp [Kind.outs]) ((Pure0.foldIns _ _ _ _).bindNoRe (fun _ => NoRe.setv _ _)) h
  case multiply i is o => exact k o _ (by simp [Kind.outs]) ((Pure0.foldIns _ _ _ _).bindNoRe (fun _ => NoRe.setv _ _)) h
  case subtract a b o => exact k o _ (by simp [Kind.outs]) ((Pure0.getv _ _).bindNoRe (fun _ => (Pure0.getv _ _).bindNoRe (fun _ => (Pure0.lift (lift2_ne _ _ _)).bindNoRe (fun _ => NoRe.setv _ _)))) h
  case divide a b o => exact k o _ (by simp [Kind.outs]) ((Pure0.getv _ _).bindNoRe (fun _ => (Pure0.getv _ _).bindNoRe (fun _ => (Pure0.lift (lift2_ne _ _ _)).bindNoRe (fun _ => NoRe.setv _ _)))) h
  case pipe x o => exact k o _ (by simp [Kind.outs]) ((Pure0.getv _ _).bindNoRe (fun _ => NoRe.setv _ _)) h
  case memory x o => exact k o _ (by simp [Kind.outs]) ((Pure0.getMem _).bindNoRe (fun _ => NoRe.setv _ _)) h
  case delay a x d i o => exact k o _ (by simp [Kind.outs]) (noRe_delayAct _ _ _ _ _) h
  case derivative x o => exact k o _ (by simp [Kind.outs]) (noRe_derivAct _ _ _ _) h
  case integrator x o => exact k0 _ (Pure0.pure _) h
  case trigInt x tr o =>
    refine k0 _ (Pure0.bind (Pure0.getMem _) (fun m => ?_)) h
    split
    · exact Pure0.pure _
    · exact Pure0.bind (Pure0.getBool _ _) (fun _ => Pure0.setMem _ _)
  case siso f x o => exact k o _ (by simp [Kind.outs]) ((Pure0.getv _ _).bindNoRe (fun _ => (Pure0.lift (hh _ _)).bindNoRe (fun _ => NoRe.setv _ _))) h
  case so f rs o => exact k o _ (by simp [Kind.outs]) ((Pure0.getAll _ _).bindNoRe (fun _ => (Pure0.lift (hh _ _)).bindNoRe (fun _ => NoRe.setv _ _))) h
  case func f rs os =>
    rw [bind_error] at h
    rcases h with h | ⟨vs, w1, h1, h2⟩
    · exact (Pure0.getAll _ _ w).2 e w' h
    · refine setAll_noRe hn _ (Pure0.throwOpt (hh t vs)) w1 (fun s hs => ?_) e w' h2
      have := (Pure0.getAll dbg rs w).1 s
      rw [h1] at this
      exact this.trans (hw s hs)
  case builder => exact k0 _ (Pure0.pure _) h
  case custom c =>
    rw [bind_error] at h
    rcases h with h | ⟨m, w1, h1, h⟩
    · cases h
    cases h1
    rw [bind_error] at h
    rcases h with h | ⟨vs, w1, h1, h⟩
    · exact (Pure0.getAll _ _ w).2 e w' h
    have a1 := (Pure0.getAll dbg c.reads w).1
    rw [h1] at a1
    rw [bind_error] at h
    rcases h with h | ⟨r, w2, h2, h⟩
    · exact (Pure0.lift (hh _ _ _) w1).2 e w' h
    obtain ⟨_, rfl⟩ := (liftE_eq_ok _ _ _ _).1 h2
    rw [bind_error] at h
    rcases h with h | ⟨_, w3, h3, h⟩
    · cases h
    cases h3
    have e1 : setAll dbg c.outs r.2 = (do setAll dbg c.outs r.2; pure () : M K Unit) := by simp
    rw [e1] at h
    refine setAll_noRe hn _ (Pure0.pure ()) _ (fun s hs => ?_) e w' h
    exact (a1 s).trans (hw s hs)

end Pooya
