import Verif.Proof.Integ

/-! How state variables are carried from one step to the next. -/

namespace Pooya

set_option linter.unusedSectionVars false

variable {K : Type} [Arith K] {cfg : Config K}

/-- The state of an initialised simulator between the parts of a run. -/
structure Ready (cfg : Config K) (m : Machine K) : Prop where
  mid : Mid cfg m
  layout : Layout cfg m
  sized : SizedN m.s.nState m

theorem Ready.step {α : Type} {x : MM K α} {m m' : Machine K} {a : α} (h : Ready cfg m) (h1 : Moves (KeepMid cfg) x) (h2 : Moves Fixed x)
    (h3 : m'.s.svSize = m.s.svSize) (hx : x m = .ok a m') : Ready cfg m' := by
  have e1 := h1 m
  have e2 := h2 m
  rw [hx] at e1 e2
  have e2 : Fixed m m' := e2
  refine ⟨e1 h.mid, h.layout.fixed e2, ?_, rfl⟩
  rw [h3, e2.nState]
  exact h.sized.1

theorem tri_ok {σ α : Type} {P : σ → Prop} {x : EStateM Err σ α} {Q : α → σ → Prop} {E : Err → σ → Prop} (h : Tri P x Q E) {s s' : σ} {a : α}
    (hp : P s) (hx : x s = .ok a s') : Q a s' := by
  have := h s hp
  rw [hx] at this
  exact this

theorem Ready.reset {m m' : Machine K} {x : List K} (h : Ready cfg m) (hx : resetWith cfg x m = .ok () m') : Ready cfg m' ∧ m'.s = m.s := by
  have e := resetWith_sim cfg x m
  rw [hx] at e
  have e : m'.s = m.s := e
  exact ⟨h.step ((covers_mid cfg).reset x) ((covers_fixed cfg).reset x) (by rw [e]) hx, e⟩

theorem Ready.process {m m' : Machine K} {t : K} {p q : Bool} (h : Ready cfg m) (hx : processModel cfg t p q m = .ok () m') :
    Ready cfg m' ∧ m'.s = { m.s with po := m'.s.po } := by
  have e := processModel_sim cfg t p q m
  rw [hx] at e
  have e : m'.s = { m.s with po := m'.s.po } := e
  exact ⟨h.step ((covers_mid cfg).processModel t p q) ((covers_fixed cfg).processModel t p q) (by rw [e]; rfl) hx, e⟩

theorem Ready.begin {m m' : Machine K} {t : K} {x : List K} (h : Ready cfg m) (hx : beginStep cfg t m = .ok x m') :
    Ready cfg m' ∧ m'.s = m.s ∧ x.length = m.s.nState := by
  obtain ⟨w1, w2, w3, h1, h2, h3, h4⟩ := beginStep_ok hx
  obtain ⟨e, h5, h6⟩ := getStates_ok h4
  subst e
  have r1 : Ready cfg { m with w := w1 } := h.step (covers_mid cfg).clear (covers_fixed cfg).clear rfl (a := ()) (by
    rw [bind_apply]; simp only [getSim]; unfold inW; rw [h1])
  have r2 : Ready cfg { m with w := w2 } := r1.step ((covers_mid cfg).inputs t) ((covers_fixed cfg).inputs t) rfl (a := ()) (by
    unfold inW; dsimp only; rw [h2])
  have r3 : Ready cfg { m with w := w3 } := r2.step ((covers_mid cfg).pre t) ((covers_fixed cfg).pre t) rfl (a := ()) (by
    unfold inW; dsimp only; rw [h3])
  exact ⟨r3, rfl, h6.trans h.sized.1⟩

theorem getDerivs_state {m m' : Machine K} {d : List K} (h : getDerivs cfg m = .ok d m') : m' = m ∧ d.length = m.s.nState := by
  unfold getDerivs at h
  rw [bind_apply] at h
  simp only [getSim] at h
  cases h1 : derivsOf cfg m.s.scalarStates with
  | none => rw [h1] at h; cases h
  | some ds =>
    cases h2 : derivsOf cfg m.s.arrayStates with
    | none => rw [h1, h2] at h; cases h
    | some da =>
      rw [h1, h2] at h
      obtain ⟨a, m1, h3, h4⟩ := ok_bind h
      obtain ⟨w1, g1, e1⟩ := inW_ok h3
      subst e1
      obtain ⟨b, m2, h5, h6⟩ := ok_bind h4
      obtain ⟨w2, g2, e2⟩ := inW_ok h5
      subst e2
      have i1 := (readScalars_ok g1).1
      have j1 := (readArrays_ok g2).1
      have j1 : w2 = w1 := j1
      subst j1 i1
      by_cases hl : (a ++ b).length = m.s.nState
      · rw [if_pos hl] at h6; cases h6; exact ⟨rfl, hl⟩
      · rw [if_neg hl] at h6; cases h6

/-- A call of the right-hand side. -/
theorem minor_ok {m m' : Machine K} {t : K} {x d : List K} (h : minorCb cfg t x m = .ok d m') :
    ∃ m1, resetWith cfg x m = .ok () m1 ∧ processModel cfg t false false m1 = .ok () m' ∧ getDerivs cfg m' = .ok d m' := by
  unfold minorCb at h
  obtain ⟨_, m1, h1, h2⟩ := ok_bind h
  obtain ⟨_, m2, h3, h4⟩ := ok_bind h2
  obtain ⟨e, _⟩ := getDerivs_state h4
  subst e
  exact ⟨m1, h1, h3, h4⟩

theorem Ready.minor {m m' : Machine K} {t : K} {x d : List K} (h : Ready cfg m) (hx : minorCb cfg t x m = .ok d m') :
    Ready cfg m' ∧ m'.s = { m.s with po := m'.s.po } ∧ d.length = m.s.nState := by
  obtain ⟨m1, h1, h2, h3⟩ := minor_ok hx
  obtain ⟨r1, e1⟩ := h.reset h1
  obtain ⟨r2, e2⟩ := r1.process h2
  rw [e1] at e2
  refine ⟨r2, e2, ?_⟩
  rw [(getDerivs_state h3).2, e2]

theorem Ready.withSv {m : Machine K} {x : List K} (h : Ready cfg m) (hx : x.length = m.s.nState) : Ready cfg (m.withSv x) :=
  ⟨.other _ h.mid rfl rfl rfl, ⟨h.layout.valueSigs, h.layout.scalarStates, h.layout.arrayStates, h.layout.nState⟩, hx, rfl⟩

theorem Ready.record {m : Machine K} {e : Event K} (h : Ready cfg m) : Ready cfg (m.record e) :=
  ⟨.other _ h.mid rfl rfl rfl, ⟨h.layout.valueSigs, h.layout.scalarStates, h.layout.arrayStates, h.layout.nState⟩, h.sized⟩

/-- What the stepper's calls preserve. -/
theorem exec_keep {I : Machine K → Prop} {n : Nat} (hI : ∀ {m m' : Machine K} {t : K} {x d : List K}, I m → minorCb cfg t x m = .ok d m' → I m' ∧ d.length = n)
    {p : StepProg K} (hp : p.Dim n) {m m' : Machine K} {r : List K × K} (hm : I m) (h : p.exec (minorCb cfg) m = .ok r m') : I m' ∧ r.1.length = n := by
  induction p generalizing m with
  | ret v hh => cases h; exact ⟨hm, hp⟩
  | call t v k ih =>
    unfold StepProg.exec at h
    obtain ⟨d, m1, h1, h2⟩ := ok_bind h
    obtain ⟨i1, i2⟩ := hI hm h1
    exact ih d (hp.2 d i2) i1 h2

/-- A trial step keeps the simulator ready, and yields a vector of the right size. -/
theorem Ready.trial (hdim : ∀ st, cfg.stepper = some st → Stepper.Dim st) {m m2 : Machine K} {t1 t2 : K} {r : List K × K} (h : Ready cfg m)
    (ht : Trial cfg t1 t2 m r m2) : Ready cfg m2 ∧ m2.s = { m.s with po := m2.s.po } ∧ r.1.length = m.s.nState := by
  obtain ⟨orig, m1, st, h1, h2, h3⟩ := ht.ex
  obtain ⟨r1, e1, l1⟩ := h.begin h1
  have hd : (st t1 orig t2).Dim m.s.nState := by rw [← l1]; exact hdim st h2 t1 t2 orig
  have := exec_keep (cfg := cfg) (I := fun m' => Ready cfg m' ∧ m'.s = { m.s with po := m'.s.po }) (n := m.s.nState)
    (fun {m3 m4 t x d} hm h4 => by
      obtain ⟨r3, e3, l3⟩ := hm.1.minor h4
      have hs := hm.2
      refine ⟨⟨r3, ?_⟩, ?_⟩
      · rw [e3, hs]
      · rw [l3, hs]) hd (m := m1.record (.trial t1 t2)) ⟨r1.record, by show m1.s = { m.s with po := m1.s.po }; rw [e1]⟩ h3
  exact ⟨this.1.1, this.1.2, this.2⟩

theorem tri_stateOf {σ α : Type} {P Q : σ → Prop} {x : EStateM Err σ α} (h : Tri P x (fun _ => Q) (fun _ => Q)) {s : σ} (hp : P s) :
    Q (stateOf (x s)) := by
  have := h s hp
  cases hx : x s with
  | ok a s' => rw [hx] at this; exact this
  | error e s' => rw [hx] at this; exact this

theorem sized_simInit (t : K) (m : Machine K) : SizedN (stateSize cfg m.w) (stateOf (simInit cfg t m)) := by
  obtain ⟨lg, hlg, he⟩ := baseInit_eq cfg t m
  generalize hm1 : ({ w := _, s := _ } : Machine K) = m1 at he
  have h1 : SizedN (stateSize cfg m.w) m1 := by
    rw [← hm1]
    refine ⟨?_, rfl⟩
    show (match (if stateSize cfg m.w = m.s.svSize then m.s.sv else if stateSize cfg m.w = 0 then some [] else none) with
      | some v => v.length
      | none => stateSize cfg m.w) = _
    by_cases h1 : stateSize cfg m.w = m.s.svSize
    · rw [if_pos h1]
      cases hv : m.s.sv with
      | none => rfl
      | some v => show v.length = _; rw [h1]; simp [Sim.svSize, hv]
    · rw [if_neg h1]
      by_cases h2 : stateSize cfg m.w = 0
      · rw [if_pos h2, h2]; rfl
      · rw [if_neg h2]
  have hsim : ∀ {n : Nat} (f : Sim K → Sim K), (∀ s, (f s).sv = s.sv ∧ (f s).nState = s.nState) →
      Tri (SizedN (K := K) n) (setSim f) (fun _ => SizedN n) (fun _ => SizedN n) := fun {n} f hf m hm => by
    refine ⟨?_, (hf m.s).2.trans hm.2⟩
    show (f m.s).svSize = n
    unfold Sim.svSize
    rw [(hf m.s).1, (hf m.s).2]
    exact hm.1
  have hg : ∀ {n : Nat}, Tri (SizedN (K := K) n) getSim (fun _ => SizedN n) (fun _ => SizedN n) := fun {n} _ h => h
  have hv : ∀ {n : Nat} d c, Tri (SizedN n) (debugVerify d c .debugVerify : MM K Unit) (fun _ => SizedN n) (fun _ => SizedN n) := fun {n} d c =>
        Tri.verify (fun _ h _ => h) (fun m hm => hm)
  have hp : ∀ {n : Nat}, Tri (SizedN n) (processModel cfg t true true) (fun _ => SizedN n) (fun _ => SizedN n) := fun {n} => sized_process cfg t true true
  have hlv : ∀ {n : Nat}, Tri (SizedN n) (levels cfg t) (fun _ => SizedN n) (fun _ => SizedN n) := fun {n} m hm => by
    unfold levels
    cases fastOrder cfg.dbg t cfg.model.leaves (cfg.model.leaves.length + 1) m.w <;> exact hm
  have key : ∀ {n : Nat}, Tri (SizedN (K := K) n) (match cfg.strategy with
    | .plain => processModel cfg t true true
    | .reuse => do
      let s ← getSim
      if 0 < s.svSize then
        debugVerify cfg.dbg s.po.isNone .debugVerify
        setSim (fun s => { s with po := some cfg.model.all })
      else pure ()
      processModel cfg t true true
    | .fast => do
      let s ← getSim
      debugVerify cfg.dbg s.fast.isEmpty .debugVerify
      inW (callInputs cfg t)
      inW (cfg.model.preStep cfg.dbg t)
      let r ← levels cfg t
      setSim (fun s => { s with fast := s.fast ++ r.1 })
      if r.2 ≠ cfg.model.leaves.length then throwE (.exc .notFast) else pure ()
      inW (clearAll s.valueSigs)
      processModel cfg t true true) (fun _ => SizedN n) (fun _ => SizedN n) := by
    intro n
    split
    · exact hp
    · refine Tri.bind hg (fun s => ?_)
      split
      · exact Tri.bind (hv _ _) (fun _ => Tri.bind (hsim _ (fun _ => ⟨rfl, rfl⟩)) (fun _ => hp))
      · exact hp
    · refine Tri.bind hg (fun s => Tri.bind (hv _ _) (fun _ => Tri.bind (tri_sized_inW _) (fun _ => Tri.bind (tri_sized_inW _) (fun _ =>
        Tri.bind hlv (fun r => Tri.bind (hsim _ (fun _ => ⟨rfl, rfl⟩)) (fun _ => ?_))))))
      split
      · exact Tri.bind (R := fun _ => SizedN n) (Tri.throw (fun _ h => h)) (fun _ => Tri.bind (tri_sized_inW _) (fun _ => hp))
      · exact Tri.bind (tri_sized_inW _) (fun _ => hp)
  unfold simInit
  rw [bind_of_ok he]
  exact tri_stateOf key h1

/-- An initialised simulator between calls. -/
theorem once_ready (hdim : ∀ st, cfg.stepper = some st → Stepper.Dim st) {m : Machine K} (h : Once cfg m) (hi : m.s.initialized = true) :
    Ready cfg m := by
  have hl := once_layout h
  refine ⟨reach_mid cfg h.reach, hl.2 hi, ?_⟩
  have key : m.s.initialized = true → m.s.svSize = m.s.nState := by
    clear hl hi
    induction h with
    | new w t _ _ => intro h; cases h
    | @call m c hm hc ih =>
      intro _
      have hinit : ∀ t, (stateOf (simInit cfg t m)).s.svSize = (stateOf (simInit cfg t m)).s.nState := by
        intro t
        have := sized_simInit (cfg := cfg) t m
        rw [this.1, this.2]
      cases c with
      | init t => exact hinit t
      | run f t a b =>
        show (stateOf (run cfg f t a b m)).s.svSize = (stateOf (run cfg f t a b m)).s.nState
        cases hi : m.s.initialized with
        | false => rw [run_init cfg f t a b m hi]; exact hinit t
        | true =>
          have := sized_run hdim f t a b m hi ⟨ih hi, rfl⟩
          rw [this.1, this.2]
    | user sig _ _ ih => exact ih
  exact ⟨key hi, rfl⟩

/-! ### State signals -/

theorem of_linkedSigs {s : SigId} (h : s ∈ linkedSigs cfg.model) : cfg.Links s := by
  have hd : ∀ (ss acc : List SigId), s ∈ distinct acc ss → s ∈ acc ∨ s ∈ ss := by
    intro ss
    induction ss with
    | nil => intro acc h; exact .inl (by simpa [distinct] using h)
    | cons x ss ih =>
      intro acc h
      unfold distinct at h
      split at h
      · rcases ih acc h with h | h
        · exact .inl h
        · exact .inr (by simp [h])
      · rcases ih _ h with h | h
        · rcases List.mem_append.1 h with h | h
          · exact .inl h
          · exact .inr (by simp at h; simp [h])
        · exact .inr (by simp [h])
  rcases hd _ _ h with h | h
  · cases h
  · rw [List.mem_flatMap] at h
    obtain ⟨b, hb, h⟩ := h
    obtain ⟨⟨s', f⟩, h1, h2⟩ := List.mem_map.1 h
    cases h2
    exact ⟨b, hb, f, h1⟩

theorem state_sig {m : Machine K} (hl : Layout cfg m) (hash : ∀ l, (cfg.hash l).Perm l) {s : SigId}
    (hs : s ∈ m.s.scalarStates ++ m.s.arrayStates) : cfg.Links s ∧ (cfg.deriv s).isSome := by
  rcases List.mem_append.1 hs with hs | hs
  · rw [hl.scalarStates, (hash _).mem_iff] at hs
    simp only [scalarStatesOf, List.mem_filter, Bool.and_eq_true, decide_eq_true_eq] at hs
    exact ⟨of_linkedSigs hs.1, hs.2.2⟩
  · rw [hl.arrayStates, (hash _).mem_iff] at hs
    simp only [arrayStatesOf, List.mem_filter, Bool.and_eq_true] at hs
    exact ⟨of_linkedSigs hs.1, hs.2.2⟩

/-- The diagram: distinct objects, every signal with one driver, every state variable owned by an integrator. -/
structure Owned (cfg : Config K) : Prop where
  proper : cfg.model.Proper
  drivers : cfg.SingleDrivers
  integrated : cfg.Integrated
  hash : ∀ l, (cfg.hash l).Perm l

theorem Owned.find (h : Owned cfg) {l : Leaf K} (hl : l ∈ cfg.model.leaves) {s : SigId} (hs : l.state = some s) :
    cfg.model.leaves.find? (fun l => decide (l.state = some s)) = some l := by
  cases hf : cfg.model.leaves.find? (fun l => decide (l.state = some s)) with
  | none =>
    rw [List.find?_eq_none] at hf
    have := hf l hl
    simp [hs] at this
  | some l' =>
    have h1 := List.mem_of_find?_eq_some hf
    have h2 := List.find?_some hf
    simp only [decide_eq_true_eq] at h2
    rw [leaf_eq h.proper h1 hl (h.drivers.prePre l' h1 l hl s (state_preOuts h2) (state_preOuts hs))]

/-- The state at the beginning of a step. -/
theorem begin_packed (h : Owned cfg) {m m' : Machine K} {t : K} {x : List K} (hm : Ready cfg m) (hx : beginStep cfg t m = .ok x m') :
    Packed (cfg.startVal m.w) m.w.size m.s.scalarStates m.s.arrayStates x := by
  obtain ⟨w1, w2, w3, h1, h2, h3, h4⟩ := beginStep_ok hx
  obtain ⟨e, h5, h6⟩ := getStates_ok h4
  have hmem : w2.mem = m.w.mem := by rw [inputs_mem h2, clear_mem h1]
  have hfx := (covers_fixed cfg).beginStep t m
  rw [hx] at hfx
  have hfx : Fixed m m' := hfx
  rw [e] at hfx
  refine Packed.congr h5 (fun s hs => ?_) (fun s hs => ?_)
  · obtain ⟨k1, k2⟩ := state_sig hm.layout h.hash hs
    obtain ⟨l, hl, hls⟩ := h.integrated s k1 k2
    have := (preStep_integ h.proper hl hls (fun l' hl' ho => h.drivers.prePre l' hl' l hl s ho (state_preOuts hls)) h3).2.1
    unfold Config.startVal
    rw [h.find hl hls]
    show some (l.start (m.w.mem l.id)) = (w3.sig s).value
    rw [this, hmem]
  · show (m.w.sig s).ty.size = (w3.sig s).ty.size
    rw [hfx.ty s]

/-- The output of an integrator after an evaluation with `pre_step`. -/
theorem process_pre_value (hp : cfg.model.Proper) {l : Leaf K} (hl : l ∈ cfg.model.leaves) {o : SigId} (hs : l.state = some o)
    (hd : ∀ l' ∈ cfg.model.leaves, o ∈ l'.preOuts → l'.id = l.id) (ho : ∀ l' ∈ cfg.model.leaves, o ∉ l'.outs)
    {q : Bool} {m m' : Machine K} {t : K} (hm : Mid cfg m) (h : processModel cfg t true q m = .ok () m') :
    m'.value o = some (l.start (m.w.mem l.id)) := by
  obtain ⟨w1, w2, m3, h1, h2, h3, h4⟩ := processModel_ok h
  have hm1 : Mid cfg { m with w := w1 } := mid_of ((covers_mid cfg).inputs t) hm (by show inW _ m = _; unfold inW; rw [h1])
  rw [if_pos rfl] at h2
  have hm2 : Mid cfg { m with w := w2 } := mid_of ((covers_mid cfg).pre t) hm1 (by show inW _ _ = _; unfold inW; dsimp only; rw [h2])
  obtain ⟨_, k2, _⟩ := preStep_integ hp hl hs hd h2
  obtain ⟨ls, a1, _, a3, _⟩ := eval_acts hp hm2 h3
  have e3 : m3.w.sig o = w2.sig o := a1.sig (fun l hl => ho l (a3 l hl))
  have e4 : m'.w.sig o = m3.w.sig o := by
    cases q with
    | false => rw [if_neg (by simp)] at h4; rw [h4]
    | true =>
      rw [if_pos rfl] at h4
      obtain ⟨w4, h4, rfl⟩ := h4
      exact congrFun (postStep_sig h4) o
  show (m'.w.sig o).value = _
  rw [e4, e3, k2, inputs_mem h1]

/-- After an evaluation with `post_step` the integrators keep the values of their outputs. -/
theorem kept_process (h : Owned cfg) {m m' : Machine K} {t : K} {p : Bool} (hm : Ready cfg m) (hx : processModel cfg t p true m = .ok () m')
    {s : SigId} (hs : s ∈ m.s.scalarStates ++ m.s.arrayStates) : cfg.keptVal m'.w s = m'.w.val s := by
  obtain ⟨k1, k2⟩ := state_sig hm.layout h.hash hs
  obtain ⟨l, hl, hls⟩ := h.integrated s k1 k2
  obtain ⟨v, b, g1, g2, _⟩ := process_integ h.proper hl hls hm.mid hx
  rw [if_pos rfl] at g2
  unfold Config.keptVal
  rw [h.find hl hls]
  show some (m'.w.mem l.id).value = (m'.w.sig s).value
  rw [g1]; exact g2.symm

/-- Evaluating the diagram at a state keeps the state signals. -/
theorem eval_holds (h : Owned cfg) {m m1 m' : Machine K} {t : K} {q : Bool} {x : List K} (hm : Ready cfg m) (hx : x.length = m.s.nState)
    (h1 : resetWith cfg x m = .ok () m1) (h2 : processModel cfg t false q m1 = .ok () m') : m'.holds x := by
  obtain ⟨r1, e1⟩ := hm.reset h1
  obtain ⟨r2, e2⟩ := r1.process h2
  have hst := hm.layout.statesOk h.hash
  obtain ⟨g1, _, _, _, g5⟩ := resetWith_holds hst.nodup (by rw [hx, hst.slots]) h1
  have hfx := (covers_fixed cfg).processModel t false q m1
  rw [h2] at hfx
  have hfx : Fixed m1 m' := hfx
  have hs' : m'.s.scalarStates = m1.s.scalarStates ∧ m'.s.arrayStates = m1.s.arrayStates := ⟨hfx.scalarStates, hfx.arrayStates⟩
  unfold Machine.holds
  rw [hs'.1, hs'.2]
  refine Packed.congr g1 (fun s hs => ?_) (fun s _ => ?_)
  · obtain ⟨k1, k2⟩ := state_sig r1.layout h.hash hs
    show (m'.w.sig s).value = (m1.w.sig s).value
    rw [process_sig h.proper r1.mid h2 (h.drivers.stateInput s k2 t) (fun e => by cases e) (fun l hl ho => by
      rw [h.drivers.outState l hl s ho] at k2; cases k2)]
  · show (m'.w.sig s).ty.size = _
    rw [hfx.ty s]; rfl

theorem Ready.midEval {m m' : Machine K} {t t2 : K} {x : List K} (h : Ready cfg m) (he : MidEval cfg t t2 x m m') :
    Ready cfg m' ∧ m'.s = { m.s with po := m'.s.po } := by
  unfold MidEval at he
  by_cases hlt : (t2 <. t) = true
  · rw [if_pos hlt] at he
    obtain ⟨m4, g1, g2⟩ := he
    obtain ⟨q1, q2⟩ := h.reset g1
    obtain ⟨q3, q4⟩ := q1.process g2
    exact ⟨q3, by rw [q4, q2]⟩
  · rw [if_neg hlt] at he
    rw [he]; exact ⟨h, rfl⟩

/-- The states at the head of the loop. -/
theorem Ready.loop (hdim : ∀ st, cfg.stepper = some st → Stepper.Dim st) {m0 m : Machine K} {t minH maxH t1 t2 : K} {f : Bool} (h : Ready cfg m0)
    (hl : LoopAt cfg t minH maxH m0 t1 t2 f m) : Ready cfg m ∧ m.s.nState = m0.s.nState ∧ m.s.scalarStates = m0.s.scalarStates ∧
      m.s.arrayStates = m0.s.arrayStates ∧ m.s.tPrev = m0.s.tPrev := by
  induction hl with
  | start => exact ⟨h, rfl, rfl, rfl, rfl⟩
  | reject _ _ ht _ ih =>
    obtain ⟨i1, i2, i3, i4, i5⟩ := ih
    obtain ⟨r1, e1, l1⟩ := i1.trial hdim ht
    refine ⟨r1.withSv (by rw [e1]; exact l1), ?_, ?_, ?_, ?_⟩
    · rw [← i2]; show _ = _; rw [Machine.withSv, e1]
    · rw [← i3]; show _ = _; rw [Machine.withSv, e1]
    · rw [← i4]; show _ = _; rw [Machine.withSv, e1]
    · rw [← i5]; show _ = _; rw [Machine.withSv, e1]
  | @accept t1 t2 f m m2 m3 r _ _ ht _ he ih =>
    obtain ⟨i1, i2, i3, i4, i5⟩ := ih
    obtain ⟨r1, e1, l1⟩ := i1.trial hdim ht
    have r2 : Ready cfg ((m2.withSv r.1).record (.accept t1 t2)) := (r1.withSv (by rw [e1]; exact l1)).record
    obtain ⟨r3, e3⟩ := r2.midEval he
    have e4 : m3.s = { m.s with sv := some r.1, po := m3.s.po } := by
      rw [e3]
      show { (m2.withSv r.1).s with po := m3.s.po } = _
      rw [Machine.withSv, e1]
    exact ⟨r3, by rw [e4]; exact i2, by rw [e4]; exact i3, by rw [e4]; exact i4, by rw [e4]; exact i5⟩

/-- A loop that ends was at its head in the last state. -/
theorem SubRun.loop {m0 m m' : Machine K} {t minH maxH t1 t2 : K} {f : Bool} (h : SubRun cfg t minH maxH t1 t2 f m m')
    (hl : LoopAt cfg t minH maxH m0 t1 t2 f m) : ∃ t1' t2' f', LoopAt cfg t minH maxH m0 t1' t2' f' m' ∧ (t1' <. t) = false := by
  induction h with
  | stop h => exact ⟨_, _, _, hl, h⟩
  | reject h1 h2 h3 _ ih => exact ih (.reject hl h1 h2 h3)
  | accept h1 h2 h3 h4 _ ih => exact ih (.accept hl h1 h2 h3 h4)

/-- The last evaluation of a run, with state variables. -/
theorem run_final (hdim : ∀ st, cfg.stepper = some st → Stepper.Dim st) {m m' : Machine K} {n : Nat} {t minH maxH : K}
    (hm : Ready cfg m) (hi : m.s.initialized = true) (h0 : 0 < m.s.nState) (hx : run cfg n t minH maxH m = .ok () m') :
    ∃ (x : List K) (m1 m2 m3 : Machine K), Advance cfg t minH maxH m m1 ∧ Ready cfg m1 ∧ m1.s.sv = some x ∧ x.length = m1.s.nState ∧
      m1.s.nState = m.s.nState ∧ resetWith cfg x m1 = .ok () m2 ∧ processModel cfg t false true m2 = .ok () m3 ∧
      m' = { m3 with s := { m3.s with tPrev := t } } := by
  rcases run_ok hi hx with ⟨e, _⟩ | ⟨_, m1, ha, hf⟩
  · rw [hm.sized.1] at e; omega
  have ha' := ha
  have key : Ready cfg m1 ∧ m1.s.nState = m.s.nState := by
    cases ha with
    | @again m2 x _ _ hb =>
      obtain ⟨r1, e1, l1⟩ := (hm.record (e := .warnRepeated t)).begin hb
      have e1 : m2.s = m.s := e1
      refine ⟨r1.withSv ?_, ?_⟩
      · rw [e1]; exact l1
      · show m2.s.nState = _; rw [e1]
    | steps _ _ hs =>
      obtain ⟨_, _, _, hl, _⟩ := hs.loop .start
      obtain ⟨i1, i2, _⟩ := hm.loop hdim hl
      exact ⟨i1, i2⟩
  obtain ⟨r1, n1⟩ := key
  obtain ⟨x, m2, m3, f1, f2, f3, f4⟩ := hf.ex
  have hxl : x.length = m1.s.nState := by
    rw [← r1.sized.1]
    unfold Sim.svSize
    rw [f1]
  rw [decide_eq_false (by omega)] at f3
  exact ⟨x, m1, m2, m3, ha', r1, f1, hxl, n1, f2, f3, f4⟩

/-- The state vector at the end of a run, with state variables. -/
theorem run_states (h : Owned cfg) (hdim : ∀ st, cfg.stepper = some st → Stepper.Dim st) {m m' : Machine K} {n : Nat} {t minH maxH : K}
    (hm : Ready cfg m) (hi : m.s.initialized = true) (h0 : 0 < m.s.nState) (hx : run cfg n t minH maxH m = .ok () m') :
    Ready cfg m' ∧ ∃ x, m'.s.sv = some x ∧ x.length = m'.s.nState ∧ m'.holds x ∧
      ∀ s ∈ m'.s.scalarStates ++ m'.s.arrayStates, cfg.keptVal m'.w s = m'.w.val s := by
  obtain ⟨x, m1, m2, m3, _, r1, f1, hxl, n1, f2, f3, f4⟩ := run_final hdim hm hi h0 hx
  obtain ⟨r2, e2⟩ := r1.reset f2
  obtain ⟨r3, e3⟩ := r2.process f3
  have h4 := eval_holds h r1 hxl f2 f3
  have h5 := fun s hs => kept_process h r2 f3 (s := s) hs
  subst f4
  refine ⟨⟨.other _ r3.mid rfl rfl rfl, ⟨r3.layout.valueSigs, r3.layout.scalarStates, r3.layout.arrayStates, r3.layout.nState⟩, ⟨r3.sized.1, rfl⟩⟩,
    x, ?_, ?_, h4, fun s hs => h5 s ?_⟩
  · show m3.s.sv = _
    rw [e3, e2]; exact f1
  · show x.length = m3.s.nState
    rw [e3, e2]; exact hxl
  · have hs : s ∈ m3.s.scalarStates ++ m3.s.arrayStates := hs
    rw [e3] at hs; exact hs

end Pooya
