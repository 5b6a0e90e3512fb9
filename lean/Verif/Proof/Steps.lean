import Verif.Spec.Steps
import Verif.Proof.Stepper
import Mathlib.Tactic.Linarith
import Mathlib.Tactic.Ring
import Verif.Proof.Sized

/-! The `while` loop of `run` seen through the event log. -/

namespace Pooya

set_option linter.unusedSectionVars false

variable {K : Type} [Arith K]

/-- The steps of the loop from `t1` with first trial to `t2`, for any answers of the stepper allowed by `A`; the last argument says
whether the loop came to its end. -/
inductive LoopTrace (A : K → K → K → Prop) (t minH maxH : K) : K → K → Bool → List (StepEv K) → Bool → Prop
  | stop {t1 t2 : K} {f : Bool} : (t1 <. t) = false → LoopTrace A t minH maxH t1 t2 f [] true
  | cut {t1 t2 : K} {f : Bool} : LoopTrace A t minH maxH t1 t2 f [] false
  | cutTrial {t1 t2 : K} {f : Bool} : (t1 <. t) = true → LoopTrace A t minH maxH t1 t2 f [.trial t1 t2] false
  | cutAccept {t1 t2 : K} {f : Bool} {nh : K} : (t1 <. t) = true → A t1 t2 nh →
      (f || (t2 -. t1) <=. nh || (t2 -. t1) <=. minH) = true → LoopTrace A t minH maxH t1 t2 f [.trial t1 t2, .accept t1 t2] false
  | accept {t1 t2 : K} {f : Bool} {nh : K} {es : List (StepEv K)} {c : Bool} : (t1 <. t) = true → A t1 t2 nh →
      (f || (t2 -. t1) <=. nh || (t2 -. t1) <=. minH) = true →
      LoopTrace A t minH maxH t2 (fmin (t2 +. fmax minH (fmin nh maxH)) t) false es c →
      LoopTrace A t minH maxH t1 t2 f (.trial t1 t2 :: .accept t1 t2 :: es) c
  | reject {t1 t2 : K} {f : Bool} {nh : K} {es : List (StepEv K)} {c : Bool} : (t1 <. t) = true → A t1 t2 nh →
      (f || (t2 -. t1) <=. nh || (t2 -. t1) <=. minH) = false →
      LoopTrace A t minH maxH t1 (t1 +. fmax minH (fmin nh maxH)) (nh <=. minH) es c →
      LoopTrace A t minH maxH t1 t2 f (.trial t1 t2 :: es) c

/-- Events that are no solver steps. -/
def NoStep (e : Event K) : Prop := e.step? = none

theorem covers_noStep (cfg : Config K) : CoversC cfg (fun m m' => Logs NoStep m.w m'.w) := by
  have hpre : PreO (fun m m' : Machine K => Logs NoStep m.w m'.w) := ⟨fun m => PreO.refl (T := Logs NoStep) m.w, fun h h' => PreO.trans (T := Logs NoStep) h h'⟩
  have hrfl : ∀ w w' : World K, w'.log = w.log → Logs NoStep w w' := fun w w' h => ⟨[], by simp [h], by simp⟩
  have hone : ∀ (e : Event K) (w w' : World K), e.step? = none → w'.log = e :: w.log → Logs NoStep w w' :=
    fun e w w' he h => ⟨[e], by simp [h], by simpa [NoStep] using he⟩
  refine coversC_mk (T := Logs NoStep) (fun m m' h => h.1) (fun t w => hone _ _ _ rfl rfl) (fun s v w => hrfl _ _ rfl) (fun s w => hrfl _ _ rfl)
    (fun l _ t => moves_pre _ _ _ (fun w w' h => hone _ _ _ rfl h.log)) (fun l _ t => moves_post _ _ _ (fun w w' h => hone _ _ _ rfl h.log))
    (fun t m => (moves_eval_any (T := Logs NoStep) cfg t (fun l => moves_act _ _ _ (fun w w' h => hone _ _ _ rfl h.log))
      (fun _ b d w => hrfl _ _ rfl) m).1) (fun x m => hrfl _ _ rfl)

/-- The solver steps recorded since the log was `L` are `es`. -/
def After (L : List (Event K)) (es : List (StepEv K)) (m : Machine K) : Prop := ∃ new, m.w.log = new ++ L ∧ stepsIn new = es

theorem After.refl (m : Machine K) : After m.w.log [] m := ⟨[], rfl, rfl⟩

theorem stepsIn_append (a b : List (Event K)) : stepsIn (a ++ b) = stepsIn b ++ stepsIn a := by
  simp [stepsIn, List.filterMap_append]

theorem stepsIn_none {a : List (Event K)} (h : ∀ e ∈ a, NoStep e) : stepsIn a = [] := by
  unfold stepsIn
  rw [List.filterMap_eq_nil_iff.2 h]; rfl

theorem After.quiet {L : List (Event K)} {es : List (StepEv K)} {m m' : Machine K} (h : After L es m) (hq : Logs NoStep m.w m'.w) :
    After L es m' := by
  obtain ⟨new, h1, h2⟩ := h
  obtain ⟨n2, h3, h4⟩ := hq
  exact ⟨n2 ++ new, by rw [h3, h1, List.append_assoc], by rw [stepsIn_append, h2, stepsIn_none h4, List.append_nil]⟩

theorem After.step {L : List (Event K)} {es : List (StepEv K)} {m : Machine K} (h : After L es m) {e : Event K} {x : StepEv K} (he : e.step? = some x) :
    After L (es ++ [x]) { m with w := { m.w with log := e :: m.w.log } } := by
  obtain ⟨new, h1, h2⟩ := h
  exact ⟨e :: new, by rw [h1]; rfl, by rw [← List.singleton_append, stepsIn_append, h2]; simp [stepsIn, he]⟩

theorem Moves.after {α : Type} {x : MM K α} (hx : Moves (fun m m' => Logs NoStep m.w m'.w) x) (L : List (Event K)) (es : List (StepEv K)) :
    Tri (After L es) x (fun _ => After L es) (fun _ => After L es) := by
  intro m hm
  have := hm.quiet (hx m)
  cases h : x m with
  | ok a m' => rw [h] at this; exact this
  | error e m' => rw [h] at this; exact this

/-- All values of `new_h` a step can return. -/
def StepProg.Answers (P : K → Prop) : StepProg K → Prop
  | .ret _ h => P h
  | .call _ _ k => ∀ r, (k r).Answers P

theorem Tri.answers {σ : Type} {P : K → Prop} {I : σ → Prop} {E : Err → σ → Prop} {f : K → List K → EStateM Err σ (List K)}
    (hf : ∀ t v, Tri I (f t v) (fun _ => I) E) (p : StepProg K) (hp : p.Answers P) : Tri I (p.exec f) (fun r s => I s ∧ P r.2) E := by
  induction p with
  | ret v h => exact Tri.pure (fun _ h => ⟨h, hp⟩)
  | call t v k ih => exact Tri.bind (hf t v) (fun r => ih r (hp r))

/-- What the stepper may answer. -/
def Answering (cfg : Config K) (A : K → K → K → Prop) : Prop :=
  ∀ st, cfg.stepper = some st → ∀ t1 x t2, (st t1 x t2).Answers (A t1 t2)

theorem loop_trace {cfg : Config K} {A : K → K → K → Prop} (hA : Answering cfg A) (t minH maxH : K) (n : Nat) (t1 t2 : K) (f : Bool)
    (L : List (Event K)) (es : List (StepEv K)) :
    Tri (After L es) (subLoop cfg t minH maxH n t1 t2 f)
      (fun _ m => ∃ es', LoopTrace A t minH maxH t1 t2 f es' true ∧ After L (es ++ es') m)
      (fun _ m => ∃ es', LoopTrace A t minH maxH t1 t2 f es' false ∧ After L (es ++ es') m) := by
  have hc := covers_noStep cfg
  have := hc.preo
  induction n generalizing t1 t2 f es with
  | zero => exact Tri.throw (fun m hm => ⟨[], .cut, by simpa using hm⟩)
  | succ n ih =>
    unfold subLoop
    by_cases hlt : (t1 <. t) = true
    · rw [if_neg (by simp [hlt])]
      have e0 : ∀ e (m : Machine K), After L es m → (fun (_ : Err) m => ∃ es', LoopTrace A t minH maxH t1 t2 f es' false ∧ After L (es ++ es') m) e m :=
        fun _ m h => ⟨[], .cut, by simpa using h⟩
      have e1 : ∀ e (m : Machine K), After L (es ++ [StepEv.trial t1 t2]) m →
          (fun (_ : Err) m => ∃ es', LoopTrace A t minH maxH t1 t2 f es' false ∧ After L (es ++ es') m) e m :=
        fun _ m h => ⟨_, .cutTrial hlt, h⟩
      refine Tri.bind (((hc.beginStep t1).after L es).weaken (fun _ h => h) (fun _ _ h => h) e0) (fun orig => ?_)
      refine Tri.bind (R := fun _ => After L (es ++ [StepEv.trial t1 t2])) (fun m hm => hm.step rfl) (fun _ => ?_)
      cases hst : cfg.stepper with
      | none => exact Tri.throw (fun m hm => e1 .fuel m hm)
      | some st =>
        dsimp only
        refine Tri.bind ((Tri.answers (fun s v => (hc.minorCb s v).after L _) _ (hA st hst t1 orig t2)).weaken (fun _ h => h) (fun _ _ h => h) e1) (fun r => ?_)
        intro m hm
        obtain ⟨hm, hr⟩ := hm
        revert m
        refine Tri.bind (R := fun _ => After L (es ++ [StepEv.trial t1 t2])) ((hc.sv r.1).after L _ |>.weaken (fun _ h => h) (fun _ _ h => h) e1) (fun _ => ?_)
        cases hacc : (f || (t2 -. t1) <=. r.2 || (t2 -. t1) <=. minH) with
        | true =>
          rw [if_pos rfl]
          have e2 : ∀ e (m : Machine K), After L (es ++ [StepEv.trial t1 t2] ++ [StepEv.accept t1 t2]) m →
              (fun (_ : Err) m => ∃ es', LoopTrace A t minH maxH t1 t2 f es' false ∧ After L (es ++ es') m) e m :=
            fun _ m h => ⟨_, .cutAccept hlt hr hacc, by simpa using h⟩
          refine Tri.bind (R := fun _ => After L (es ++ [StepEv.trial t1 t2] ++ [StepEv.accept t1 t2])) (fun m hm => hm.step (e := .accept t1 t2) rfl) (fun _ => ?_)
          have hk : Tri (After L (es ++ [StepEv.trial t1 t2] ++ [StepEv.accept t1 t2]))
              (subLoop cfg t minH maxH n t2 (fmin (t2 +. fmax minH (fmin r.2 maxH)) t) false)
              (fun _ m => ∃ es', LoopTrace A t minH maxH t1 t2 f es' true ∧ After L (es ++ es') m)
              (fun _ m => ∃ es', LoopTrace A t minH maxH t1 t2 f es' false ∧ After L (es ++ es') m) :=
            (ih t2 _ false _).weaken (fun _ h => h)
              (fun _ m ⟨es', h1, h2⟩ => ⟨_, .accept hlt hr hacc h1, by simpa using h2⟩)
              (fun _ m ⟨es', h1, h2⟩ => ⟨_, .accept hlt hr hacc h1, by simpa using h2⟩)
          split
          · refine Tri.bind ((hc.reset r.1).after L _ |>.weaken (fun _ h => h) (fun _ _ h => h) e2) (fun _ => ?_)
            exact Tri.bind ((hc.processModel t2 false true).after L _ |>.weaken (fun _ h => h) (fun _ _ h => h) e2) (fun _ => hk)
          · exact hk
        | false =>
          rw [if_neg (by simp)]
          exact (ih t1 _ _ _).weaken (fun _ h => h)
            (fun _ m ⟨es', h1, h2⟩ => ⟨_, .reject hlt hr hacc h1, by simpa using h2⟩)
            (fun _ m ⟨es', h1, h2⟩ => ⟨_, .reject hlt hr hacc h1, by simpa using h2⟩)
    · rw [if_pos (by simpa using hlt)]
      exact Tri.pure (fun m hm => ⟨[], .stop (by simpa using hlt), by simpa using hm⟩)

/-- The solver steps of a run with state variables, that goes forward in time. -/
theorem run_trace {cfg : Config K} {A : K → K → K → Prop} (hA : Answering cfg A) (fuel : Nat) (t minH maxH : K) (m : Machine K)
    (hi : m.s.initialized = true) (h0 : 0 < m.s.svSize) (h1 : (t <. m.s.tPrev) = false) (h2 : (t ==. m.s.tPrev) = false) :
    (∀ m', run cfg fuel t minH maxH m = .ok () m' →
      ∃ es, LoopTrace A t minH maxH m.s.tPrev t false es true ∧ After m.w.log es m') ∧
    (∀ e m', run cfg fuel t minH maxH m = .error e m' →
      ∃ es c, LoopTrace A t minH maxH m.s.tPrev t false es c ∧ After m.w.log es m') := by
  have hc := covers_noStep cfg
  have := hc.preo
  rw [run_eq cfg fuel t minH maxH m hi, if_pos h0]
  have hf : ∀ es, Tri (After m.w.log es) (finish cfg t) (fun _ => After m.w.log es) (fun _ => After m.w.log es) := by
    intro es
    unfold finish
    refine Tri.bind (Moves.getSim.after m.w.log es) (fun s => ?_)
    split
    · exact Tri.throw (fun _ h => h)
    · refine Tri.bind ((hc.reset _).after _ _) (fun _ => ?_)
      refine Tri.bind ((hc.processModel _ _ _).after _ _) (fun _ => ?_)
      exact fun m hm => hm
  have hadv : Tri (fun m' => m' = m) (advance cfg fuel t minH maxH)
      (fun _ m' => ∃ es, LoopTrace A t minH maxH m.s.tPrev t false es true ∧ After m.w.log es m')
      (fun _ m' => ∃ es c, LoopTrace A t minH maxH m.s.tPrev t false es c ∧ After m.w.log es m') := by
    rintro m' rfl
    have hl : Tri (fun m1 => m1 = m') (do
        debugVerify cfg.dbg cfg.stepper.isSome .debugVerify
        debugVerify cfg.dbg (Arith.lit 0 <. minH) .debugVerify
        debugVerify cfg.dbg (minH <. maxH) .debugVerify
        subLoop cfg t minH maxH fuel m'.s.tPrev t false : MM K Unit)
        (fun _ m1 => ∃ es, LoopTrace A t minH maxH m'.s.tPrev t false es true ∧ After m'.w.log es m1)
        (fun _ m1 => ∃ es c, LoopTrace A t minH maxH m'.s.tPrev t false es c ∧ After m'.w.log es m1) := by
      have hv : ∀ b e, Tri (fun m1 => m1 = m') (debugVerify cfg.dbg b e : MM K Unit) (fun _ m1 => m1 = m')
          (fun _ m1 => ∃ es c, LoopTrace A t minH maxH m'.s.tPrev t false es c ∧ After m'.w.log es m1) := by
        intro b e
        unfold debugVerify
        split
        · exact Tri.throw (fun m1 h => ⟨[], false, .cut, by rw [h]; exact After.refl _⟩)
        · exact Tri.pure (fun m1 h => h)
      refine Tri.bind (hv _ _) (fun _ => Tri.bind (hv _ _) (fun _ => Tri.bind (hv _ _) (fun _ => ?_)))
      refine (loop_trace hA t minH maxH fuel m'.s.tPrev t false m'.w.log []).weaken (fun m1 h => by rw [h]; exact After.refl _) ?_ ?_
      · rintro _ m1 ⟨es, h1, h2⟩; exact ⟨es, h1, by simpa using h2⟩
      · rintro _ m1 ⟨es, h1, h2⟩; exact ⟨es, false, h1, by simpa using h2⟩
    have hl := hl m' rfl
    have he : advance cfg fuel t minH maxH m' = (do
        debugVerify cfg.dbg cfg.stepper.isSome .debugVerify
        debugVerify cfg.dbg (Arith.lit 0 <. minH) .debugVerify
        debugVerify cfg.dbg (minH <. maxH) .debugVerify
        subLoop cfg t minH maxH fuel m'.s.tPrev t false : MM K Unit) m' := by
      unfold advance
      rw [bind_apply]
      simp only [getSim, h1, h2, Bool.false_eq_true, if_false]
    rw [he]
    exact hl
  have hall := Tri.bind hadv (fun _ => (?_ : Tri _ (finish cfg t)
      (fun _ m' => ∃ es, LoopTrace A t minH maxH m.s.tPrev t false es true ∧ After m.w.log es m')
      (fun _ m' => ∃ es c, LoopTrace A t minH maxH m.s.tPrev t false es c ∧ After m.w.log es m'))) m rfl
  · constructor
    · intro m' hm; rw [hm] at hall; exact hall
    · intro e m' hm; rw [hm] at hall; exact hall
  · rintro m1 ⟨es, h1, h2⟩
    have := hf es m1 h2
    cases h : finish cfg t m1 with
    | ok a m2 => rw [h] at this; exact ⟨es, h1, this⟩
    | error e m2 => rw [h] at this; exact ⟨es, true, h1, this⟩

/-! ## Termination -/

/-- Every course of the loop takes at most `n` trials. -/
inductive Ends (A : K → K → K → Prop) (t minH maxH : K) : Nat → K → K → Bool → Prop
  | stop {n : Nat} {t1 t2 : K} {f : Bool} : (t1 <. t) = false → Ends A t minH maxH n t1 t2 f
  | step {n : Nat} {t1 t2 : K} {f : Bool} :
      (∀ nh, A t1 t2 nh → (f || (t2 -. t1) <=. nh || (t2 -. t1) <=. minH) = true →
        Ends A t minH maxH n t2 (fmin (t2 +. fmax minH (fmin nh maxH)) t) false) →
      (∀ nh, A t1 t2 nh → (f || (t2 -. t1) <=. nh || (t2 -. t1) <=. minH) = false →
        Ends A t minH maxH n t1 (t1 +. fmax minH (fmin nh maxH)) (nh <=. minH)) → Ends A t minH maxH (n + 1) t1 t2 f

theorem Ends.mono {A : K → K → K → Prop} {t minH maxH t1 t2 : K} {f : Bool} {n n' : Nat} (h : Ends A t minH maxH n t1 t2 f) (hn : n ≤ n') :
    Ends A t minH maxH n' t1 t2 f := by
  induction h generalizing n' with
  | stop h => exact .stop h
  | step _ _ ih1 ih2 =>
    obtain ⟨n', rfl⟩ : ∃ k, n' = k + 1 := ⟨n' - 1, by omega⟩
    exact .step (fun nh h1 h2 => ih1 nh h1 h2 (by omega)) (fun nh h1 h2 => ih2 nh h1 h2 (by omega))

theorem LoopTrace.trials_le {A : K → K → K → Prop} {t minH maxH t1 t2 : K} {f c : Bool} {es : List (StepEv K)} {n : Nat}
    (h : LoopTrace A t minH maxH t1 t2 f es c) (he : Ends A t minH maxH n t1 t2 f) : (es.filterMap StepEv.trial?).length ≤ n := by
  induction h generalizing n with
  | stop => simp
  | cut => simp
  | cutTrial hlt =>
    cases he with
    | stop h => rw [hlt] at h; cases h
    | step => simp [StepEv.trial?]
  | cutAccept hlt =>
    cases he with
    | stop h => rw [hlt] at h; cases h
    | step => simp [StepEv.trial?, List.filterMap_cons]
  | accept hlt hA hacc _ ih =>
    cases he with
    | stop h => rw [hlt] at h; cases h
    | step h1 h2 => simpa [StepEv.trial?, List.filterMap_cons] using ih (h1 _ hA hacc)
  | reject hlt hA hacc _ ih =>
    cases he with
    | stop h => rw [hlt] at h; cases h
    | step h1 h2 => simpa [StepEv.trial?] using ih (h2 _ hA hacc)

theorem bind_congr_ok {σ α β : Type} {x : EStateM Err σ α} {f g : α → EStateM Err σ β} {s : σ}
    (h : ∀ a s', x s = .ok a s' → f a s' = g a s') : (x >>= f) s = (x >>= g) s := by
  simp only [bind_apply]
  cases hx : x s with
  | ok a s' => exact h a s' hx
  | error e s' => rfl

/-- The bound on the number of trials does not matter once it is large enough. -/
theorem subLoop_fuel {cfg : Config K} {A : K → K → K → Prop} (hA : Answering cfg A) {t minH maxH : K} {n : Nat} {t1 t2 : K} {f : Bool}
    (he : Ends A t minH maxH n t1 t2 f) : ∀ a b, n < a → n < b → ∀ m, subLoop cfg t minH maxH a t1 t2 f m = subLoop cfg t minH maxH b t1 t2 f m := by
  induction he with
  | @stop n t1 t2 f h =>
    intro a b ha hb m
    obtain ⟨a, rfl⟩ : ∃ a', a = a' + 1 := ⟨a - 1, by omega⟩
    obtain ⟨b, rfl⟩ : ∃ b', b = b' + 1 := ⟨b - 1, by omega⟩
    unfold subLoop
    simp [h]
  | @step n t1 t2 f _ _ ih1 ih2 =>
    intro a b ha hb m
    obtain ⟨a, rfl⟩ : ∃ a', a = a' + 1 := ⟨a - 1, by omega⟩
    obtain ⟨b, rfl⟩ : ∃ b', b = b' + 1 := ⟨b - 1, by omega⟩
    unfold subLoop
    split
    · rfl
    · refine bind_congr_ok (fun orig m1 _ => bind_congr_ok (fun _ m2 _ => ?_))
      cases hst : cfg.stepper with
      | none => rfl
      | some st =>
        refine bind_congr_ok (fun r m3 hr => ?_)
        have hr2 : A t1 t2 r.2 := by
          have := Tri.answers (P := A t1 t2) (I := fun _ => True) (E := fun _ _ => True) (f := minorCb cfg) (fun s v m _ => by split <;> trivial)
            _ (hA st hst t1 orig t2) m2 trivial
          rw [hr] at this
          exact this.2
        refine bind_congr_ok (fun _ m4 _ => ?_)
        cases hacc : (f || (t2 -. t1) <=. r.2 || (t2 -. t1) <=. minH) with
        | true =>
          simp only [if_true]
          refine bind_congr_ok (fun _ m5 _ => ?_)
          split
          · exact bind_congr_ok (fun _ m6 _ => bind_congr_ok (fun _ m7 _ => ih1 _ hr2 hacc a b (by omega) (by omega) m7))
          · exact ih1 _ hr2 hacc a b (by omega) (by omega) m5
        | false =>
          simp only [Bool.false_eq_true, if_false]
          exact ih2 _ hr2 hacc a b (by omega) (by omega) m4

theorem run_fuel {cfg : Config K} {A : K → K → K → Prop} (hA : Answering cfg A) {t minH maxH : K} {n : Nat} {m : Machine K}
    (hi : m.s.initialized = true) (he : Ends A t minH maxH n m.s.tPrev t false) (a b : Nat) (ha : n < a) (hb : n < b) :
    run cfg a t minH maxH m = run cfg b t minH maxH m := by
  rw [run_eq _ _ _ _ _ _ hi, run_eq _ _ _ _ _ _ hi]
  split
  · have : advance cfg a t minH maxH m = advance cfg b t minH maxH m := by
      unfold advance
      simp only [bind_apply, getSim]
      split
      · rfl
      · split
        · rfl
        · refine bind_congr_ok (fun _ m1 _ => bind_congr_ok (fun _ m2 _ => bind_congr_ok (fun _ m3 _ => ?_)))
          exact subLoop_fuel hA he a b ha hb m3
    simp only [bind_apply, this]
  · rfl

section
variable {F : Type} [Field F] [LinearOrder F] [IsStrictOrderedRing F]
attribute [local instance] Arith.exact

/-- In exact arithmetic: what is known of the steps of the loop, for any stepper. -/
theorem LoopTrace.bounds {A : F → F → F → Prop} {t minH maxH t1 t2 : F} {f c : Bool} {es : List (StepEv F)}
    (h : LoopTrace A t minH maxH t1 t2 f es c) (h0 : 0 < minH) (h2 : t1 < t → t1 < t2 ∧ t2 ≤ t) :
    (∀ a b, .trial a b ∈ es → t1 ≤ a ∧ a < b ∧ b ≤ t) ∧ (∀ a b, .accept a b ∈ es → .trial a b ∈ es) ∧
    ∃ u, Tiles t1 u (es.filterMap StepEv.accept?) ∧ (c = true → t1 ≤ t → u = t) := by
  induction h with
  | stop h => exact ⟨by simp, by simp, _, .done, fun _ h3 => le_antisymm h3 (by simpa using h)⟩
  | cut => exact ⟨by simp, by simp, _, .done, fun h => by cases h⟩
  | cutTrial hlt =>
    have := h2 (by simpa using hlt)
    exact ⟨by simp [this], by simp, _, .done, fun h => by cases h⟩
  | cutAccept hlt =>
    have := h2 (by simpa using hlt)
    exact ⟨by simp [this], by simp, _, .step this.1 .done, fun h => by cases h⟩
  | @accept t1 t2 f nh es c hlt hA hacc _ ih =>
    have hb := h2 (by simpa using hlt)
    obtain ⟨i1, i2, u, i3, i4⟩ := ih (by
      intro h
      rw [fmin_eq, fmax_eq, fmin_eq, exact_add]
      have : minH ≤ max minH (min nh maxH) := le_max_left _ _
      exact ⟨lt_min (by linarith) h, min_le_right _ _⟩)
    refine ⟨?_, ?_, u, .step hb.1 i3, fun hc _ => i4 hc hb.2⟩
    · intro a b hab
      simp only [List.mem_cons, StepEv.trial.injEq, reduceCtorEq, false_or] at hab
      rcases hab with ⟨rfl, rfl⟩ | hab
      · exact ⟨le_refl _, hb⟩
      · have := i1 a b hab
        exact ⟨le_trans hb.1.le this.1, this.2⟩
    · intro a b hab
      simp only [List.mem_cons, StepEv.accept.injEq, reduceCtorEq, false_or] at hab
      rcases hab with ⟨rfl, rfl⟩ | hab
      · exact List.mem_cons_self
      · simp [i2 a b hab]
  | @reject t1 t2 f nh es c hlt hA hacc _ ih =>
    have hb := h2 (by simpa using hlt)
    simp only [exact_sub, exact_le, Bool.or_eq_false_iff, decide_eq_false_iff_not, not_le] at hacc
    have hn : max minH (min nh maxH) < t2 - t1 := max_lt hacc.2 (lt_of_le_of_lt (min_le_left _ _) hacc.1.2)
    obtain ⟨i1, i2, u, i3, i4⟩ := ih (by
      intro h
      rw [fmax_eq, fmin_eq, exact_add]
      have : minH ≤ max minH (min nh maxH) := le_max_left _ _
      constructor <;> linarith [hb.2])
    refine ⟨?_, ?_, u, i3, i4⟩
    · intro a b hab
      simp only [List.mem_cons, StepEv.trial.injEq] at hab
      rcases hab with ⟨rfl, rfl⟩ | hab
      · exact ⟨le_refl _, hb⟩
      · exact i1 a b hab
    · intro a b hab
      simp only [List.mem_cons, reduceCtorEq, false_or] at hab
      simp [i2 a b hab]

/-- In exact arithmetic: lengths of the steps. -/
theorem LoopTrace.lengths {A : F → F → F → Prop} {t minH maxH t1 t2 : F} {f c : Bool} {es : List (StepEv F)}
    (h : LoopTrace A t minH maxH t1 t2 f es c) :
    ((minH ≤ t2 - t1 ∨ t2 = t) → ∀ a b, .trial a b ∈ es → minH ≤ b - a ∨ b = t) ∧
    (∀ a b, .trial a b ∈ es → b - a ≤ max minH maxH ∨ (a = t1 ∧ b = t2)) := by
  have hl : ∀ nh : F, minH ≤ max minH (min nh maxH) := fun nh => le_max_left _ _
  have hu : ∀ nh : F, max minH (min nh maxH) ≤ max minH maxH := fun nh => max_le_max (le_refl _) (min_le_right _ _)
  induction h with
  | stop h => simp
  | cut => simp
  | cutTrial hlt => exact ⟨by simp, by simp⟩
  | cutAccept hlt => exact ⟨by simp, by simp⟩
  | @accept t1 t2 f nh es c hlt hA hacc _ ih =>
    obtain ⟨i1, i2⟩ := ih
    rw [fmin_eq, fmax_eq, fmin_eq, exact_add] at i1 i2
    constructor
    · intro h2 a b hab
      simp only [List.mem_cons, StepEv.trial.injEq, reduceCtorEq, false_or] at hab
      rcases hab with ⟨rfl, rfl⟩ | hab
      · exact h2
      · refine i1 ?_ a b hab
        rcases le_total (t2 + max minH (min nh maxH)) t with h | h
        · left; rw [min_eq_left h]; linarith [hl nh]
        · right; exact min_eq_right h
    · intro a b hab
      simp only [List.mem_cons, StepEv.trial.injEq, reduceCtorEq, false_or] at hab
      rcases hab with ⟨rfl, rfl⟩ | hab
      · exact .inr ⟨rfl, rfl⟩
      · rcases i2 a b hab with h | ⟨rfl, rfl⟩
        · exact .inl h
        · left; linarith [hu nh, min_le_left (a + max minH (min nh maxH)) t]
  | @reject t1 t2 f nh es c hlt hA hacc _ ih =>
    obtain ⟨i1, i2⟩ := ih
    rw [fmax_eq, fmin_eq, exact_add] at i1 i2
    constructor
    · intro h2 a b hab
      simp only [List.mem_cons, StepEv.trial.injEq] at hab
      rcases hab with ⟨rfl, rfl⟩ | hab
      · exact h2
      · exact i1 (.inl (by linarith [hl nh])) a b hab
    · intro a b hab
      simp only [List.mem_cons, StepEv.trial.injEq] at hab
      rcases hab with ⟨rfl, rfl⟩ | hab
      · exact .inr ⟨rfl, rfl⟩
      · rcases i2 a b hab with h | ⟨rfl, rfl⟩
        · exact .inl h
        · left; linarith [hu nh]

/-- The step size is kept, halved or doubled. -/
def Halving (t1 t2 nh : F) : Prop := nh = (t2 - t1) / 2 ∨ nh = t2 - t1 ∨ nh = 2 * (t2 - t1)

theorem halving_ends {t minH maxH : F} {B : Nat} (h0 : 0 < minH) (a : Nat) :
    ∀ (t1 : F), t - t1 ≤ a * minH → t - t1 ≤ 2 ^ B * minH → ∀ (k : Nat) (t2 : F), t2 ≤ t → t1 < t2 → t2 - t1 ≤ 2 ^ k * minH →
      (minH ≤ t2 - t1 ∨ t2 = t) → Ends Halving t minH maxH ((a - 1) * (B + 1) + (k + 1)) t1 t2 false := by
  induction a with
  | zero =>
    intro t1 h _ k t2 h1 h2
    simp only [Nat.cast_zero, zero_mul] at h
    linarith
  | succ a iha =>
    intro t1 ha hB k
    have hacc : ∀ t2 nh : F, t2 ≤ t → t1 < t2 → (minH ≤ t2 - t1 ∨ t2 = t) →
        Ends Halving t minH maxH (a * (B + 1)) t2 (fmin (t2 +. fmax minH (fmin nh maxH)) t) false := by
      intro t2 nh h1 h2 h3
      by_cases ht : t2 < t
      · have h3 : minH ≤ t2 - t1 := h3.resolve_right (ne_of_lt ht)
        push_cast at ha
        have ha' : t - t2 ≤ a * minH := by linarith
        obtain ⟨a, rfl⟩ : ∃ a', a = a' + 1 := by
          rcases Nat.eq_zero_or_pos a with h | h
          · subst h; simp only [Nat.cast_zero, zero_mul] at ha'; linarith
          · exact ⟨a - 1, by omega⟩
        rw [fmin_eq, fmax_eq, fmin_eq, exact_add]
        have hm : minH ≤ max minH (min nh maxH) := le_max_left _ _
        refine (iha t2 ha' (by linarith) B _ (min_le_right _ _) (lt_min (by linarith) ht) ?_ ?_).mono ?_
        · have := min_le_right (t2 + max minH (min nh maxH)) t
          linarith
        · rcases le_total (t2 + max minH (min nh maxH)) t with h | h
          · left; rw [min_eq_left h]; linarith
          · right; exact min_eq_right h
        · rw [Nat.add_sub_cancel, Nat.succ_mul]
      · exact .stop (by simpa using not_lt.1 ht)
    have hforce : ∀ t2 : F, t2 ≤ t → t1 < t2 → (minH ≤ t2 - t1 ∨ t2 = t) → Ends Halving t minH maxH (a * (B + 1) + 1) t1 t2 true :=
      fun t2 h1 h2 h3 => .step (fun nh _ _ => hacc t2 nh h1 h2 h3) (fun nh _ h => by simp at h)
    rw [Nat.add_sub_cancel]
    induction k with
    | zero =>
      intro t2 h1 h2 h3 h4
      refine .step (fun nh _ _ => hacc t2 nh h1 h2 h4) (fun nh _ h => ?_)
      simp only [exact_sub, exact_le, Bool.or_eq_false_iff, decide_eq_false_iff_not, not_le] at h
      simp only [pow_zero, one_mul] at h3
      linarith [h.2]
    | succ k ihk =>
      intro t2 h1 h2 h3 h4
      refine .step (n := a * (B + 1) + (k + 1)) (fun nh _ _ => (hacc t2 nh h1 h2 h4).mono (by omega)) (fun nh hh h => ?_)
      simp only [exact_sub, exact_le, Bool.or_eq_false_iff, decide_eq_false_iff_not, not_le] at h
      have hnh : nh = (t2 - t1) / 2 := by
        rcases hh with h' | h' | h'
        · exact h'
        · linarith [h.1.2]
        · linarith [h.1.2]
      have hm : max minH (min nh maxH) < t2 - t1 := max_lt h.2 (lt_of_le_of_lt (min_le_left _ _) h.1.2)
      have hl : minH ≤ max minH (min nh maxH) := le_max_left _ _
      rw [fmax_eq, fmin_eq, exact_add, exact_le]
      by_cases hf : nh ≤ minH
      · rw [decide_eq_true hf]
        exact (hforce _ (by linarith) (by linarith) (.inl (by linarith))).mono (by omega)
      · rw [decide_eq_false hf]
        refine (ihk _ (by linarith) (by linarith) ?_ (.inl (by linarith)))
        have h5 : max minH (min nh maxH) ≤ nh := max_le (not_le.1 hf).le (min_le_left _ _)
        have h6 : (2 : F) ^ (k + 1) * minH = 2 * (2 ^ k * minH) := by ring
        linarith

theorem halving_provided : ∀ st ∈ ([euler, rk4, rkf45] : List (Stepper F)), ∀ t1 x t2, (st t1 x t2).Answers (Halving t1 t2) := by
  intro st hst t1 x t2
  simp only [List.mem_cons, List.not_mem_nil, or_false] at hst
  rcases hst with rfl | rfl | rfl
  · intro r; exact .inr (.inl rfl)
  · intro _ _ _ _; exact .inr (.inl rfl)
  · intro _ _ _ _ _ _
    show Halving t1 t2 (rkf45NewH (t2 -. t1) _)
    have key : ∀ (c d : Bool) (h : F), (if c = true then h /. Arith.lit 2 else if d = true then Arith.lit 2 *. h else h) = h / 2 ∨
        (if c = true then h /. Arith.lit 2 else if d = true then Arith.lit 2 *. h else h) = h ∨
        (if c = true then h /. Arith.lit 2 else if d = true then Arith.lit 2 *. h else h) = 2 * h := by
      intro c d h
      cases c <;> cases d <;> simp
    exact key _ _ _

end

end Pooya
