import Verif.Proof.Clear
import Verif.Spec.Drivers

/-! Pre- and postconditions of effects, and of whole calls of a simulator. -/

namespace Pooya

set_option linter.unusedSectionVars false

/-- From a state in `P`, `x` returns with `Q` or fails with `E`. -/
def Tri {σ α : Type} (P : σ → Prop) (x : EStateM Err σ α) (Q : α → σ → Prop) (E : Err → σ → Prop) : Prop :=
  ∀ s, P s → match x s with
    | .ok a s' => Q a s'
    | .error e s' => E e s'

namespace Tri
variable {σ α β : Type} {P P' : σ → Prop} {E : Err → σ → Prop}

theorem pure {a : α} {Q : α → σ → Prop} (h : ∀ s, P s → Q a s) : Tri P (Pure.pure a : EStateM Err σ α) Q E := h

theorem throw {e : Err} {Q : α → σ → Prop} (h : ∀ s, P s → E e s) : Tri P (throwE e : EStateM Err σ α) Q E := h

theorem bind {x : EStateM Err σ α} {f : α → EStateM Err σ β} {R : α → σ → Prop} {Q : β → σ → Prop} (hx : Tri P x R E)
    (hf : ∀ a, Tri (R a) (f a) Q E) : Tri P (x >>= f) Q E := by
  intro s hs
  have h := hx s hs
  rw [bind_apply]
  cases hxs : x s with
  | ok a s1 => rw [hxs] at h; exact hf a s1 h
  | error e s1 => rw [hxs] at h; exact h

theorem weaken {x : EStateM Err σ α} {Q Q' : α → σ → Prop} {E' : Err → σ → Prop} (h : Tri P x Q E) (hP : ∀ s, P' s → P s)
    (hQ : ∀ a s, Q a s → Q' a s) (hE : ∀ e s, E e s → E' e s) : Tri P' x Q' E' := by
  intro s hs
  have := h s (hP s hs)
  cases hx : x s with
  | ok a s' => rw [hx] at this; exact hQ a s' this
  | error e s' => rw [hx] at this; exact hE e s' this

theorem verify {d c : Bool} {e : Exc} {Q : Unit → σ → Prop} (hQ : ∀ s, P s → (d = true → c = true) → Q () s)
    (hE : ∀ s, P s → E (.exc e) s) : Tri P (debugVerify d c e : EStateM Err σ Unit) Q E := by
  intro s hs
  by_cases h : (d && !c) = true
  · simp only [debugVerify, h, if_true]; exact hE s hs
  · have : debugVerify d c e s = .ok () s := by simp [debugVerify]; intro h1; simp [h1] at h; exact h
    rw [this]
    exact hQ s hs (by intro h1; simp [h1] at h; exact h)

/-- Split a conjunction in the postcondition. -/
theorem andMoves {x : EStateM Err σ α} {Q : α → σ → Prop} {J : σ → Prop} (h : Tri P x Q E) (hm : Moves (fun a b => J a → J b) x)
    (hJ : ∀ s, P s → J s) : Tri P x (fun a s => Q a s ∧ J s) (fun e s => E e s ∧ J s) := by
  intro s hs
  have h1 := h s hs
  have h2 := hm s (hJ s hs)
  cases hx : x s with
  | ok a s' => rw [hx] at h1 h2; exact ⟨h1, h2⟩
  | error e s' => rw [hx] at h1 h2; exact ⟨h1, h2⟩

theorem exec {K : Type} {I : σ → Prop} {f : K → List K → EStateM Err σ (List K)} (hf : ∀ t v, Tri I (f t v) (fun _ => I) E)
    (p : StepProg K) : Tri I (p.exec f) (fun _ => I) E := by
  induction p with
  | ret v h => exact pure (fun _ h => h)
  | call t v k ih => exact bind (hf t v) (fun r => ih r)

end Tri

variable {K : Type} [Arith K]

theorem Tri.inW {α : Type} {P : World K → Prop} {x : M K α} {Q : α → World K → Prop} {E : Err → World K → Prop}
    (h : Tri P x Q E) (S : Sim K → Prop) :
    Tri (fun m => P m.w ∧ S m.s) (Pooya.inW x) (fun a m => Q a m.w ∧ S m.s) (fun e m => E e m.w ∧ S m.s) := by
  rintro m ⟨hP, hS⟩
  have := h m.w hP
  simp only [Pooya.inW]
  cases hx : x m.w with
  | ok a w => rw [hx] at this; exact ⟨this, hS⟩
  | error e w => rw [hx] at this; exact ⟨this, hS⟩

theorem Tri.getSim {P : Machine K → Prop} {E : Err → Machine K → Prop} :
    Tri P (Pooya.getSim : MM K (Sim K)) (fun s m => P m ∧ s = m.s) E := fun _ h => ⟨h, rfl⟩

/-- What has to be shown for the parts of a call of `run`: `I` holds between the parts. -/
structure Phases (cfg : Config K) (I : Machine K → Prop) (E : Err → Machine K → Prop) : Prop where
  start : ∀ t, Tri I (beginStep cfg t) (fun _ => I) E
  minor : ∀ t x, Tri I (minorCb cfg t x) (fun _ => I) E
  mid : ∀ x t, Tri I (do resetWith cfg x; processModel cfg t false true) (fun _ => I) E
  final : ∀ x t, Tri I (do resetWith cfg x; processModel cfg t (decide (x.length = 0)) true) (fun _ => I) E
  log : ∀ e m, I m → I { m with w := { m.w with log := e :: m.w.log } }
  sv : ∀ x m, I m → I { m with s := { m.s with sv := some x } }
  time : ∀ t m, I m → I { m with s := { m.s with tPrev := t } }
  errs : ∀ e m, I m → e ∈ [.exc .backInTime, .exc .debugVerify, .ub .nullDeref, .ub .uninitRead, .fuel] → E e m

namespace Phases
variable {cfg : Config K} {I : Machine K → Prop} {E : Err → Machine K → Prop}

theorem emit (h : Phases cfg I E) (e : Event K) : Tri I (Pooya.inW (Pooya.emit e)) (fun _ => I) E := fun m hm => h.log e m hm

theorem subLoop (h : Phases cfg I E) (t minH maxH : K) (n : Nat) (t1 t2 : K) (force : Bool) :
    Tri I (Pooya.subLoop cfg t minH maxH n t1 t2 force) (fun _ => I) E := by
  induction n generalizing t1 t2 force with
  | zero => exact Tri.throw (fun m hm => h.errs _ m hm (by simp))
  | succ n ih =>
    unfold Pooya.subLoop
    split
    · exact Tri.pure (fun _ h => h)
    · refine Tri.bind (h.start t1) (fun orig => Tri.bind (h.emit _) (fun _ => ?_))
      split
      · exact Tri.throw (fun m hm => h.errs _ m hm (by simp))
      · rename_i st _
        refine Tri.bind (Tri.exec (h.minor) _) (fun r => Tri.bind (R := fun _ => I) (fun m hm => h.sv r.1 m hm) (fun _ => ?_))
        dsimp only
        split
        · refine Tri.bind (h.emit _) (fun _ => ?_)
          split
          · have := Tri.bind (h.mid r.1 t2) (fun _ => ih t2 (fmin (t2 +. fmax minH (fmin r.2 maxH)) t) false)
            simpa only [bind_assoc] using this
          · exact ih _ _ _
        · exact ih _ _ _

theorem advance (h : Phases cfg I E) (fuel : Nat) (t minH maxH : K) : Tri I (Pooya.advance cfg fuel t minH maxH) (fun _ => I) E := by
  unfold Pooya.advance
  refine Tri.bind (R := fun _ => I) (fun _ h => h) (fun s => ?_)
  split
  · exact Tri.throw (fun m hm => h.errs _ m hm (by simp))
  · split
    · exact Tri.bind (h.emit _) (fun _ => Tri.bind (h.start t) (fun x => fun m hm => h.sv x m hm))
    · have hv : ∀ d c, Tri I (debugVerify d c .debugVerify : MM K Unit) (fun _ => I) E := fun d c =>
        Tri.verify (fun _ h _ => h) (fun m hm => h.errs _ m hm (by simp))
      exact Tri.bind (hv _ _) (fun _ => Tri.bind (hv _ _) (fun _ => Tri.bind (hv _ _) (fun _ => h.subLoop _ _ _ _ _ _ _)))

theorem finish (h : Phases cfg I E) (t : K) : Tri I (Pooya.finish cfg t) (fun _ => I) E := by
  unfold Pooya.finish
  refine Tri.bind (R := fun _ => I) (fun _ h => h) (fun s => ?_)
  split
  · exact Tri.throw (fun m hm => h.errs _ m hm (by simp))
  · rename_i x _
    have := Tri.bind (h.final x t) (fun _ => (show Tri I (setSim (fun s : Sim K => { s with tPrev := t })) (fun _ => I) E from
      fun m hm => h.time t m hm))
    simpa only [bind_assoc] using this

/-- `run` of an initialised simulator. -/
theorem run (h : Phases cfg I E) (fuel : Nat) (t minH maxH : K) :
    Tri (fun m => I m ∧ m.s.initialized = true) (Pooya.run cfg fuel t minH maxH) (fun _ => I) E := by
  rintro m ⟨hm, hi⟩
  have e : Pooya.run cfg fuel t minH maxH m =
      (if 0 < m.s.svSize then (do Pooya.advance cfg fuel t minH maxH; Pooya.finish cfg t) m
       else Pooya.finish cfg t m) := by
    unfold Pooya.run
    simp only [bind_apply, Pooya.getSim, hi, Bool.not_true, Bool.false_eq_true, if_false]
    split
    · rw [bind_apply]
    · rfl
  rw [e]
  by_cases h0 : 0 < m.s.svSize
  · simp only [h0, if_true]; exact Tri.bind (h.advance fuel t minH maxH) (fun _ => h.finish t) m hm
  · simp only [h0, if_false]; exact h.finish t m hm

end Phases

/-! ## What a simulator that is initialised once remembers -/

/-- The members set by `init`, in terms of the diagram. -/
structure Layout (cfg : Config K) (m : Machine K) : Prop where
  valueSigs : m.s.valueSigs = cfg.hash (linkedSigs cfg.model)
  scalarStates : m.s.scalarStates = cfg.hash (scalarStatesOf cfg m.w)
  arrayStates : m.s.arrayStates = cfg.hash (arrayStatesOf cfg m.w)
  nState : m.s.nState = stateSize cfg m.w

theorem scalarStatesOf_ty {cfg : Config K} {w w' : World K} (h : SameTy w w') : scalarStatesOf cfg w' = scalarStatesOf cfg w := by
  unfold scalarStatesOf
  simp only [h _]

theorem arrayStatesOf_ty {cfg : Config K} {w w' : World K} (h : SameTy w w') : arrayStatesOf cfg w' = arrayStatesOf cfg w := by
  unfold arrayStatesOf
  simp only [h _]

theorem stateSize_ty {cfg : Config K} {w w' : World K} (h : SameTy w w') : stateSize cfg w' = stateSize cfg w := by
  unfold stateSize
  simp only [scalarStatesOf_ty h, arrayStatesOf_ty h, h _]

theorem Layout.fixed {cfg : Config K} {m m' : Machine K} (h : Layout cfg m) (hf : Fixed m m') : Layout cfg m' :=
  ⟨by rw [hf.valueSigs, h.valueSigs], by rw [hf.scalarStates, h.scalarStates, scalarStatesOf_ty hf.ty],
   by rw [hf.arrayStates, h.arrayStates, arrayStatesOf_ty hf.ty], by rw [hf.nState, h.nState, stateSize_ty hf.ty]⟩

/-- Nothing is remembered before `init`. -/
structure Blank (m : Machine K) : Prop where
  valueSigs : m.s.valueSigs = []
  scalarStates : m.s.scalarStates = []
  arrayStates : m.s.arrayStates = []
  nState : m.s.nState = 0
  sv : m.s.sv = some []
  po : m.s.po = none
  fast : m.s.fast = []

theorem layout_init {cfg : Config K} {m : Machine K} (hb : Blank m) (t : K) :
    ∃ m1, baseInit cfg t m = .ok () m1 ∧ Layout cfg m1 ∧ m1.s.initialized = true := by
  obtain ⟨lg, _, e⟩ := baseInit_eq cfg t m
  have hty : SameTy m.w ({ m.w with
          log := lg
          sig := fun s => if s ∈ m.s.valueSigs ++ cfg.hash (linkedSigs cfg.model) then
            { m.w.sig s with assigned := false } else m.w.sig s } : World K) := by
    intro s
    dsimp only
    split <;> rfl
  refine ⟨_, e, ⟨?_, ?_, ?_, ?_⟩, rfl⟩
  · simp [hb.valueSigs]
  · simp only [hb.scalarStates, List.nil_append]; rw [scalarStatesOf_ty hty]
  · simp only [hb.arrayStates, List.nil_append]; rw [arrayStatesOf_ty hty]
  · simp only; rw [stateSize_ty hty]

theorem once_layout {cfg : Config K} {m : Machine K} (h : Once cfg m) :
    (m.s.initialized = false → Blank m) ∧ (m.s.initialized = true → Layout cfg m) := by
  induction h with
  | new w t _ _ => exact ⟨fun _ => ⟨rfl, rfl, rfl, rfl, rfl, rfl, rfl⟩, fun h => by cases h⟩
  | @call m c _ hc ih =>
    have hinit : ∀ t, m.s.initialized = false → ((stateOf (simInit cfg t m)).s.initialized = false → Blank (stateOf (simInit cfg t m))) ∧
        ((stateOf (simInit cfg t m)).s.initialized = true → Layout cfg (stateOf (simInit cfg t m))) := by
      intro t hi
      obtain ⟨m1, h1, h2, h3⟩ := layout_init (cfg := cfg) (ih.1 hi) t
      obtain ⟨m2, h4, h5⟩ := simInit_fixed cfg t m
      rw [h1] at h4
      cases h4
      refine ⟨fun e => ?_, fun _ => h2.fixed h5⟩
      rw [h5.initialized, h3] at e; cases e
    cases c with
    | init t => exact hinit t (hc t rfl)
    | run f t a b =>
      show ((stateOf (run cfg f t a b m)).s.initialized = false → _) ∧ _
      cases hi : m.s.initialized with
      | false =>
        have : Call.exec cfg (.run f t a b) m = simInit cfg t m := run_init cfg f t a b m hi
        rw [this]
        rw [run_init cfg f t a b m hi]
        exact hinit t hi
      | true =>
        have hf := (covers_fixed cfg).run f t a b m hi
        refine ⟨fun e => ?_, fun _ => (ih.2 hi).fixed hf⟩
        rw [hf.initialized, hi] at e; cases e
  | @user m sig _ hty ih =>
    refine ⟨fun h => ?_, fun h => ?_⟩
    · have := ih.1 h
      exact ⟨this.1, this.2, this.3, this.4, this.5, this.6, this.7⟩
    · exact (ih.2 h).fixed ⟨rfl, rfl, rfl, rfl, rfl, hty⟩

end Pooya
