import Verif.Proof.Static

/-! Calls of a simulator clear the signals before they use them. -/

namespace Pooya

set_option linter.unusedSectionVars false

variable {K : Type} [Arith K]

/-- A signal linked to some block of the model. -/
def Linked (cfg : Config K) (s : SigId) : Prop := ∃ b ∈ cfg.model.all, ∃ f, (s, f) ∈ b.links

/-! The first thing a call does with the signals is to clear them. -/

open Classical in
noncomputable def clrW (D : SigId → Prop) (w : World K) : World K :=
  { w with sig := fun s => if D s then { w.sig s with assigned := false } else w.sig s }

noncomputable def clr (D : SigId → Prop) (m : Machine K) : Machine K := { m with w := clrW D m.w }

theorem clearAll_clr {D : SigId → Prop} {ss : List SigId} (hD : ∀ s, D s → s ∈ ss) (w : World K) :
    clearAll ss (clrW D w) = clearAll ss w := by
  rw [clearAll_ok, clearAll_ok]
  congr 1
  simp only [clrW]
  congr 1
  funext s
  by_cases hs : D s
  · simp [hs, hD s hs]
  · simp [hs]

/-- `x` clears the signals in `D` before it looks at them, or fails without looking at them. -/
def Strict (D : SigId → Prop) {α : Type} (x : MM K α) : Prop := ∀ m : Machine K, (∀ s, D s → s ∈ m.s.valueSigs) →
  x m = x (clr D m) ∨ ∃ e m', x m = .error e m' ∧ x (clr D m) = .error e (clr D m')

/-- As `Strict`, or `x` returns without looking at them. -/
def Lazy (D : SigId → Prop) {α : Type} (x : MM K α) : Prop := ∀ m : Machine K, (∀ s, D s → s ∈ m.s.valueSigs) →
  x m = x (clr D m) ∨ (∃ e m', x m = .error e m' ∧ x (clr D m) = .error e (clr D m')) ∨
    ∃ a m', x m = .ok a m' ∧ x (clr D m) = .ok a (clr D m') ∧ m'.s.valueSigs = m.s.valueSigs

variable {D : SigId → Prop} {α β : Type}

theorem Strict.lazy {x : MM K α} (h : Strict D x) : Lazy D x := fun m hm => (h m hm).imp id Or.inl

theorem Strict.bind {x : MM K α} {f : α → MM K β} (hx : Strict D x) : Strict D (x >>= f) := by
  intro m hm
  rcases hx m hm with h | ⟨e, m', h1, h2⟩
  · left; rw [bind_apply, bind_apply, h]
  · right; exact ⟨e, m', bind_of_error h1, bind_of_error h2⟩

theorem Lazy.bind {x : MM K α} {f : α → MM K β} (hx : Lazy D x) (hf : ∀ a, Lazy D (f a)) : Lazy D (x >>= f) := by
  intro m hm
  rcases hx m hm with h | ⟨e, m', h1, h2⟩ | ⟨a, m', h1, h2, h3⟩
  · left; rw [bind_apply, bind_apply, h]
  · right; left; exact ⟨e, m', bind_of_error h1, bind_of_error h2⟩
  · rw [bind_of_ok h1, bind_of_ok h2]
    rcases hf a m' (by rw [h3]; exact hm) with h | h | ⟨b, m2, h4, h5, h6⟩
    · exact Or.inl h
    · exact Or.inr (Or.inl h)
    · exact Or.inr (Or.inr ⟨b, m2, h4, h5, h6.trans h3⟩)

theorem Lazy.bindStrict {x : MM K α} {f : α → MM K β} (hx : Lazy D x) (hf : ∀ a, Strict D (f a)) :
    Strict D (x >>= f) := by
  intro m hm
  rcases hx m hm with h | ⟨e, m', h1, h2⟩ | ⟨a, m', h1, h2, h3⟩
  · left; rw [bind_apply, bind_apply, h]
  · right; exact ⟨e, m', bind_of_error h1, bind_of_error h2⟩
  · rw [bind_of_ok h1, bind_of_ok h2]
    exact hf a m' (by rw [h3]; exact hm)

theorem strict_throw (e : Err) : Strict D (throwE e : MM K α) := fun m _ => Or.inr ⟨e, m, rfl, rfl⟩

theorem lazy_pure (a : α) : Lazy D (pure a : MM K α) := fun m _ => Or.inr (Or.inr ⟨a, m, rfl, rfl, rfl⟩)

theorem lazy_getSim : Lazy D (getSim : MM K (Sim K)) := fun m _ => Or.inr (Or.inr ⟨m.s, m, rfl, rfl, rfl⟩)

theorem lazy_verify (d c : Bool) (e : Exc) : Lazy D (debugVerify d c e : MM K Unit) := by
  intro m _
  simp only [debugVerify]
  split
  · exact Or.inr (Or.inl ⟨_, m, rfl, rfl⟩)
  · exact Or.inr (Or.inr ⟨_, m, rfl, rfl, rfl⟩)

theorem lazy_emit (e : Event K) : Lazy D (inW (emit e)) := fun m _ => Or.inr (Or.inr ⟨_, _, rfl, rfl, rfl⟩)

theorem strict_clear (f : Sim K → MM K α) :
    Strict D (do let s ← getSim; inW (clearAll s.valueSigs); f s) := by
  intro m hm
  left
  have h2 : inW (clearAll m.s.valueSigs) m = inW (clearAll m.s.valueSigs) (clr D m) := by
    unfold inW clr
    simp only [clearAll_clr hm]
  show (inW (clearAll m.s.valueSigs) >>= fun _ => f m.s) m = (inW (clearAll m.s.valueSigs) >>= fun _ => f m.s) (clr D m)
  rw [bind_apply, bind_apply, h2]

theorem strict_begin (cfg : Config K) (t : K) : Strict D (beginStep cfg t) :=
  strict_clear (fun _ => do inW (callInputs cfg t); inW (cfg.model.preStep cfg.dbg t); getStates cfg)

theorem strict_reset (cfg : Config K) (x : List K) : Strict D (resetWith cfg x) :=
  strict_clear (fun s => do let d ← inW (writeScalars cfg.dbg s.scalarStates x); inW (writeArrays cfg.dbg s.arrayStates d))

theorem lazy_subLoop (cfg : Config K) (t minH maxH : K) (n : Nat) (t1 t2 : K) (force : Bool) :
    Lazy D (subLoop cfg t minH maxH n t1 t2 force) := by
  cases n with
  | zero => exact (strict_throw _).lazy
  | succ n =>
    unfold subLoop
    split
    · exact lazy_pure _
    · exact (Strict.bind (strict_begin cfg t1)).lazy

theorem lazy_advance (cfg : Config K) (fuel : Nat) (t minH maxH : K) : Lazy D (advance cfg fuel t minH maxH) := by
  unfold advance
  refine lazy_getSim.bind (fun s => ?_)
  split
  · exact (strict_throw _).lazy
  · split
    · exact (lazy_emit _).bind (fun _ => (Strict.bind (strict_begin cfg t)).lazy)
    · exact (lazy_verify _ _ _).bind (fun _ => (lazy_verify _ _ _).bind (fun _ => (lazy_verify _ _ _).bind (fun _ =>
        lazy_subLoop _ _ _ _ _ _ _ _)))

theorem strict_finish (cfg : Config K) (t : K) : Strict D (finish cfg t) := by
  unfold finish
  refine lazy_getSim.bindStrict (fun s => ?_)
  split
  · exact strict_throw _
  · exact Strict.bind (strict_reset cfg _)

theorem strict_run (cfg : Config K) (fuel : Nat) (t minH maxH : K) (m : Machine K) (hi : m.s.initialized = true)
    (hm : ∀ s, D s → s ∈ m.s.valueSigs) :
    run cfg fuel t minH maxH m = run cfg fuel t minH maxH (clr D m) ∨
      ∃ e m', run cfg fuel t minH maxH m = .error e m' ∧ run cfg fuel t minH maxH (clr D m) = .error e (clr D m') := by
  have e : ∀ m : Machine K, m.s.initialized = true → Pooya.run cfg fuel t minH maxH m =
      (if 0 < m.s.svSize then (do Pooya.advance cfg fuel t minH maxH; Pooya.finish cfg t) m
       else Pooya.finish cfg t m) := by
    intro m hi
    unfold Pooya.run
    simp only [bind_apply, getSim, hi, Bool.not_true, Bool.false_eq_true, if_false]
    split
    · rw [bind_apply]
    · rfl
  rw [e m hi, e (clr D m) hi]
  show _ = (if 0 < m.s.svSize then _ else _) ∨ ∃ e m', _ ∧ (if 0 < m.s.svSize then _ else _) = _
  split
  · exact (lazy_advance cfg fuel t minH maxH).bindStrict (fun _ => strict_finish cfg t) m hm
  · exact strict_finish cfg t m hm

theorem simInit_clr (cfg : Config K) (t : K) (m : Machine K)
    (hm : ∀ s, D s → s ∈ m.s.valueSigs ++ cfg.hash (linkedSigs cfg.model)) :
    simInit cfg t m = simInit cfg t (clr D m) := by
  have h1 : baseInit cfg t m = baseInit cfg t (clr D m) := by
    have ht : ∀ s, ((clr D m).w.sig s).ty = (m.w.sig s).ty := by
      intro s; by_cases hs : D s <;> simp [clr, clrW, hs]
    have e1 : scalarStatesOf cfg (clr D m).w = scalarStatesOf cfg m.w := by simp only [scalarStatesOf, ht]
    have e2 : arrayStatesOf cfg (clr D m).w = arrayStatesOf cfg m.w := by simp only [arrayStatesOf, ht]
    have e3 : stateSize cfg (clr D m).w = stateSize cfg m.w := by simp only [stateSize, e1, e2, ht]
    have hsig : (fun s => if s ∈ m.s.valueSigs ++ cfg.hash (linkedSigs cfg.model) then
          { (clrW D m.w).sig s with assigned := false } else (clrW D m.w).sig s) =
        (fun s => if s ∈ m.s.valueSigs ++ cfg.hash (linkedSigs cfg.model) then
          { m.w.sig s with assigned := false } else m.w.sig s) := by
      funext s
      by_cases hs : D s
      · simp only [clrW, hs, hm s hs, if_true]
      · simp only [clrW, hs, if_false]
    unfold baseInit
    simp only [bind_apply, get_apply, setSim, e1, e2, e3]
    split
    · simp only [bind_apply, inW, emit, getSim, clr, clearAll_ok, hsig]; rfl
    · simp only [bind_apply, inW, getSim, clr, clearAll_ok, hsig]; rfl
  unfold simInit
  rw [bind_apply, bind_apply, h1]

theorem mem_linkedSigs (cfg : Config K) (s : SigId) (h : Linked cfg s) : s ∈ linkedSigs cfg.model := by
  obtain ⟨b, hb, f, hf⟩ := h
  have hdist : ∀ (ss acc : List SigId), s ∈ ss ∨ s ∈ acc → s ∈ distinct acc ss := by
    intro ss
    induction ss with
    | nil => intro acc h; simpa [distinct] using h
    | cons x ss ih =>
      intro acc h
      unfold distinct
      simp only [List.mem_cons] at h
      split
      · rename_i hx
        exact ih acc (by rcases h with (h | h) | h <;> [exact Or.inr (h ▸ hx); exact Or.inl h; exact Or.inr h])
      · exact ih _ (by rcases h with (h | h) | h <;> simp [h])
  exact hdist _ _ (Or.inl (List.mem_flatMap.2 ⟨b, hb, List.mem_map.2 ⟨_, hf, rfl⟩⟩))

/-- A call of `init` or `run` starts by clearing the linked signals, or it fails before looking at any. -/
theorem call_clr (cfg : Config K) (hh : ∀ l s, s ∈ l → s ∈ cfg.hash l) (c : Call K) (m : Machine K)
    (hv : m.s.initialized = true → ∀ s ∈ linkedSigs cfg.model, s ∈ m.s.valueSigs) :
    c.exec cfg m = c.exec cfg (clr (Linked cfg) m) ∨
      ∃ e m', c.exec cfg m = .error e m' ∧ c.exec cfg (clr (Linked cfg) m) = .error e (clr (Linked cfg) m') := by
  have hlink := mem_linkedSigs cfg
  have hinit : ∀ t, simInit cfg t m = simInit cfg t (clr (Linked cfg) m) := fun t =>
    simInit_clr cfg t m (fun s h => List.mem_append_right _ (hh _ s (hlink s h)))
  cases c with
  | init t => exact Or.inl (hinit t)
  | run f t a b =>
    by_cases hi : m.s.initialized = true
    · exact strict_run cfg f t a b m hi (fun s h => hv hi s (hlink s h))
    · left
      show run cfg f t a b m = run cfg f t a b (clr (Linked cfg) m)
      rw [run_init cfg f t a b m (by simpa using hi), run_init cfg f t a b (clr (Linked cfg) m) (by simpa [clr] using hi)]
      exact hinit t

end Pooya
