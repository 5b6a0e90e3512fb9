import Verif.Spec.Parts
import Verif.Proof.Sized

/-! The course of a call of `run` that returns. -/

namespace Pooya

set_option linter.unusedSectionVars false

variable {K : Type} [Arith K]

theorem ok_bind {σ α β : Type} {x : EStateM Err σ α} {f : α → EStateM Err σ β} {s s' : σ} {b : β} (h : (x >>= f) s = .ok b s') :
    ∃ a s1, x s = .ok a s1 ∧ f a s1 = .ok b s' := by
  rw [bind_apply] at h
  cases hx : x s with
  | ok a s1 => rw [hx] at h; exact ⟨a, s1, rfl, h⟩
  | error e s1 => rw [hx] at h; cases h

theorem verify_ok {σ : Type} {d c : Bool} {e : Exc} {s s' : σ} {u : Unit} (h : (debugVerify d c e : EStateM Err σ Unit) s = .ok u s') : s' = s := by
  unfold debugVerify at h
  split at h
  · cases h
  · cases h; rfl

theorem subLoop_ok {cfg : Config K} {t minH maxH : K} {n : Nat} {t1 t2 : K} {f : Bool} {m m' : Machine K}
    (h : subLoop cfg t minH maxH n t1 t2 f m = .ok () m') : SubRun cfg t minH maxH t1 t2 f m m' := by
  induction n generalizing t1 t2 f m with
  | zero => cases h
  | succ n ih =>
    unfold subLoop at h
    by_cases hlt : (t1 <. t) = true
    · rw [if_neg (by simp [hlt])] at h
      obtain ⟨orig, m1, h1, h⟩ := ok_bind h
      obtain ⟨_, m2, h2, h⟩ := ok_bind h
      have e2 : m2 = m1.record (.trial t1 t2) := by cases h2; rfl
      subst e2
      cases hst : cfg.stepper with
      | none => rw [hst] at h; cases h
      | some st =>
        rw [hst] at h
        obtain ⟨r, m3, h3, h⟩ := ok_bind h
        obtain ⟨_, m4, h4, h⟩ := ok_bind h
        have e4 : m4 = m3.withSv r.1 := by cases h4; rfl
        subst e4
        have ht : Trial cfg t1 t2 m r m3 := ⟨orig, m1, st, h1, hst, h3⟩
        cases hacc : accepts minH t1 t2 f r.2 with
        | true =>
          have hacc' : (f || (t2 -. t1) <=. r.2 || (t2 -. t1) <=. minH) = true := hacc
          dsimp only at h
          rw [if_pos hacc'] at h
          obtain ⟨_, m5, h5, h⟩ := ok_bind h
          have e5 : m5 = (m3.withSv r.1).record (.accept t1 t2) := by cases h5; rfl
          subst e5
          by_cases hm : (t2 <. t) = true
          · rw [if_pos hm] at h
            obtain ⟨_, m6, h6, h⟩ := ok_bind h
            obtain ⟨_, m7, h7, h⟩ := ok_bind h
            refine .accept hlt ht hacc ?_ (ih h)
            rw [MidEval, if_pos hm]
            exact ⟨m6, h6, h7⟩
          · rw [if_neg hm] at h
            refine .accept hlt ht hacc ?_ (ih h)
            rw [MidEval, if_neg hm]
        | false =>
          have hacc' : ¬ (f || (t2 -. t1) <=. r.2 || (t2 -. t1) <=. minH) = true := by
            show ¬ accepts minH t1 t2 f r.2 = true
            rw [hacc]; simp
          dsimp only at h
          rw [if_neg hacc'] at h
          exact .reject hlt ht hacc (ih h)
    · rw [if_pos (by simpa using hlt)] at h
      cases h
      exact .stop (by simpa using hlt)

theorem finish_ok {cfg : Config K} {t : K} {m m' : Machine K} (h : finish cfg t m = .ok () m') : Final cfg t m m' := by
  unfold finish at h
  rw [bind_apply] at h
  simp only [getSim] at h
  cases hsv : m.s.sv with
  | none => rw [hsv] at h; cases h
  | some x =>
    rw [hsv] at h
    obtain ⟨_, m1, h1, h⟩ := ok_bind h
    obtain ⟨_, m2, h2, h⟩ := ok_bind h
    cases h
    exact ⟨x, m1, m2, hsv, h1, h2, rfl⟩

theorem advance_ok {cfg : Config K} {n : Nat} {t minH maxH : K} {m m' : Machine K} (h : advance cfg n t minH maxH m = .ok () m') :
    Advance cfg t minH maxH m m' := by
  unfold advance at h
  rw [bind_apply] at h
  simp only [getSim] at h
  cases h1 : t <. m.s.tPrev with
  | true => rw [h1] at h; cases h
  | false =>
    rw [h1] at h
    simp only [Bool.false_eq_true, if_false] at h
    cases h2 : t ==. m.s.tPrev with
    | true =>
      rw [h2] at h
      simp only [if_true] at h
      obtain ⟨_, m1, h3, h5⟩ := ok_bind h
      obtain ⟨x, m2, h4, h6⟩ := ok_bind h5
      have e1 : m1 = m.record (.warnRepeated t) := by cases h3; rfl
      have e2 : m' = m2.withSv x := by cases h6; rfl
      subst e1 e2
      exact .again h1 h2 h4
    | false =>
      rw [h2] at h
      simp only [Bool.false_eq_true, if_false] at h
      obtain ⟨_, m1, h3, h6⟩ := ok_bind h
      obtain ⟨_, m2, h4, h7⟩ := ok_bind h6
      obtain ⟨_, m3, h5, h8⟩ := ok_bind h7
      have e : m3 = m := (verify_ok h5).trans ((verify_ok h4).trans (verify_ok h3))
      rw [e] at h8
      exact .steps h1 h2 (subLoop_ok h8)

theorem run_ok {cfg : Config K} {n : Nat} {t minH maxH : K} {m m' : Machine K} (hi : m.s.initialized = true)
    (h : run cfg n t minH maxH m = .ok () m') :
    (m.s.svSize = 0 ∧ Final cfg t m m') ∨ (0 < m.s.svSize ∧ ∃ m1, Advance cfg t minH maxH m m1 ∧ Final cfg t m1 m') := by
  rw [run_eq _ _ _ _ _ _ hi] at h
  by_cases h0 : 0 < m.s.svSize
  · rw [if_pos h0] at h
    obtain ⟨_, m1, h1, h⟩ := ok_bind h
    exact .inr ⟨h0, m1, advance_ok h1, finish_ok h⟩
  · rw [if_neg h0] at h
    exact .inl ⟨by omega, finish_ok h⟩

theorem inW_ok {α : Type} {x : M K α} {m m' : Machine K} {a : α} (h : inW x m = .ok a m') : ∃ w', x m.w = .ok a w' ∧ m' = { m with w := w' } := by
  unfold inW at h
  cases hx : x m.w with
  | ok b w' => rw [hx] at h; cases h; exact ⟨w', rfl, rfl⟩
  | error e w' => rw [hx] at h; cases h

/-- `process_model` in its parts. -/
theorem processModel_ok {cfg : Config K} {t : K} {pre post : Bool} {m m' : Machine K} (h : processModel cfg t pre post m = .ok () m') :
    ∃ (w1 w2 : World K) (m3 : Machine K), callInputs cfg t m.w = .ok () w1 ∧
      (if pre then cfg.model.preStep cfg.dbg t w1 = .ok () w2 else w2 = w1) ∧
      evalModel cfg t { m with w := w2 } = .ok () m3 ∧
      (if post then ∃ w4, cfg.model.postStep cfg.dbg t m3.w = .ok () w4 ∧ m' = { m3 with w := w4 } else m' = m3) := by
  unfold processModel at h
  obtain ⟨_, m1, h1, h2⟩ := ok_bind h
  obtain ⟨w1, g1, e1⟩ := inW_ok h1
  subst e1
  have hpost : ∀ {m3 : Machine K}, (if post = true then inW (cfg.model.postStep cfg.dbg t) else pure () : MM K Unit) m3 = .ok () m' →
      (if post then ∃ w4, cfg.model.postStep cfg.dbg t m3.w = .ok () w4 ∧ m' = { m3 with w := w4 } else m' = m3) := by
    intro m3 h
    cases post with
    | true => obtain ⟨w4, h4, h5⟩ := inW_ok h; exact ⟨w4, h4, h5⟩
    | false => cases h; rfl
  cases pre with
  | true =>
    obtain ⟨_, m2, h3, h4⟩ := ok_bind h2
    obtain ⟨w2, g3, e3⟩ := inW_ok h3
    subst e3
    obtain ⟨_, m3, h5, h6⟩ := ok_bind h4
    exact ⟨w1, w2, m3, g1, g3, h5, hpost h6⟩
  | false =>
    obtain ⟨_, m3, h5, h6⟩ := ok_bind h2
    exact ⟨w1, w1, m3, g1, rfl, h5, hpost h6⟩

/-- `reset_with_state_variables` in its parts. -/
theorem resetWith_ok {cfg : Config K} {x : List K} {m m' : Machine K} (h : resetWith cfg x m = .ok () m') :
    ∃ (w1 w2 w3 : World K) (d : List K), clearAll m.s.valueSigs m.w = .ok () w1 ∧ writeScalars cfg.dbg m.s.scalarStates x w1 = .ok d w2 ∧
      writeArrays cfg.dbg m.s.arrayStates d w2 = .ok () w3 ∧ m' = { m with w := w3 } := by
  unfold resetWith at h
  rw [bind_apply] at h
  simp only [getSim] at h
  obtain ⟨_, m1, h1, h2⟩ := ok_bind h
  obtain ⟨w1, g1, e1⟩ := inW_ok h1
  subst e1
  obtain ⟨d, m2, h3, h4⟩ := ok_bind h2
  obtain ⟨w2, g2, e2⟩ := inW_ok h3
  subst e2
  obtain ⟨w3, g3, e3⟩ := inW_ok h4
  exact ⟨w1, w2, w3, d, g1, g2, g3, e3⟩

/-- The start of a solver step in its parts. -/
theorem beginStep_ok {cfg : Config K} {t : K} {x : List K} {m m' : Machine K} (h : beginStep cfg t m = .ok x m') :
    ∃ (w1 w2 w3 : World K), clearAll m.s.valueSigs m.w = .ok () w1 ∧ callInputs cfg t w1 = .ok () w2 ∧
      cfg.model.preStep cfg.dbg t w2 = .ok () w3 ∧ getStates cfg { m with w := w3 } = .ok x m' := by
  unfold beginStep at h
  rw [bind_apply] at h
  simp only [getSim] at h
  obtain ⟨_, m1, h1, h2⟩ := ok_bind h
  obtain ⟨w1, g1, e1⟩ := inW_ok h1
  subst e1
  obtain ⟨_, m2, h3, h4⟩ := ok_bind h2
  obtain ⟨w2, g2, e2⟩ := inW_ok h3
  subst e2
  obtain ⟨_, m3, h5, h6⟩ := ok_bind h4
  obtain ⟨w3, g3, e3⟩ := inW_ok h5
  subst e3
  exact ⟨w1, w2, w3, g1, g2, g3, h6⟩

end Pooya
