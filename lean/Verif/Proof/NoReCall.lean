import Verif.Proof.NoRe

/-! No call of a simulator assigns a signal that is assigned already, if every signal has one driver. -/

namespace Pooya

set_option linter.unusedSectionVars false

variable {K : Type} [Arith K] {cfg : Config K}

/-- The invariant of the calls. -/
structure CallInv (cfg : Config K) (m : Machine K) : Prop where
  order : OrderInv cfg m
  layout : Layout cfg m
  sizes : ∀ s, (cfg.deriv s).isSome → 0 < (m.w.sig s).ty.size

/-- The hypotheses on the diagram. -/
structure DriveOk (cfg : Config K) : Prop where
  proper : cfg.model.Proper
  drivers : cfg.SingleDrivers
  honest : cfg.Honest
  hash : ∀ l, (cfg.hash l).Perm l

theorem distinct_nodup (ss acc : List SigId) (h : acc.Nodup) : (distinct acc ss).Nodup := by
  induction ss generalizing acc with
  | nil => simpa [distinct] using h
  | cons x ss ih =>
    unfold distinct
    split
    · exact ih acc h
    · rename_i hx
      exact ih _ (List.nodup_append.2 ⟨h, by simp, by rintro a ha b hb rfl; simp at hb; subst hb; exact hx ha⟩)

theorem linkedSigs_nodup (b : Block K) : (linkedSigs b).Nodup := distinct_nodup _ _ List.nodup_nil

theorem callInv_moves {α : Type} {x : MM K α} (h1 : Moves (KeepInv cfg) x) (h2 : Moves Fixed x) :
    Moves (fun a b => CallInv cfg a → CallInv cfg b) x := by
  intro m
  have a := h1 m
  have b := h2 m
  cases hx : x m with
  | ok r m' => rw [hx] at a b; exact fun hm => ⟨a hm.order, hm.layout.fixed b, fun s hs => by rw [b.ty s]; exact hm.sizes s hs⟩
  | error e m' => rw [hx] at a b; exact fun hm => ⟨a hm.order, hm.layout.fixed b, fun s hs => by rw [b.ty s]; exact hm.sizes s hs⟩

theorem Tri.keepInv {α : Type} {P : Machine K → Prop} {x : MM K α} (h : Tri P x (fun _ _ => True) NotRe)
    (h1 : Moves (KeepInv cfg) x) (h2 : Moves Fixed x) (hP : ∀ m, P m → CallInv cfg m) : Tri P x (fun _ => CallInv cfg) NotRe :=
  (h.andMoves (callInv_moves h1 h2) hP).weaken (fun _ h => h) (fun _ _ h => h.2) (fun _ _ h => h.1)

/-- An effect on the world in a machine that satisfies an invariant. -/
theorem Tri.inWith {α : Type} {P : World K → Prop} {x : M K α} {Q : α → World K → Prop} {J : Machine K → Prop}
    (h : Tri P x Q NotRe) (hm : Moves (fun a b => J a → J b) (Pooya.inW x)) :
    Tri (fun m => J m ∧ P m.w) (Pooya.inW x) (fun a m => J m ∧ Q a m.w) NotRe := by
  rintro m ⟨hJ, hP⟩
  have h1 := h m.w hP
  have h2 := hm m
  simp only [Pooya.inW] at h2 ⊢
  cases hx : x m.w with
  | ok a w => rw [hx] at h1 h2; exact ⟨h2 hJ, h1⟩
  | error e w => rw [hx] at h1 h2; exact h1

theorem inputs_free (h : DriveOk cfg) (t : K) (pre : Bool) :
    Tri (fun m => CallInv cfg m ∧ Free (Targets cfg t pre) m.w) (inW (callInputs cfg t))
      (fun _ m => CallInv cfg m ∧ Free (fun s => (pre = true ∧ ∃ l ∈ cfg.model.leaves, s ∈ l.preOuts) ∨ ∃ l ∈ cfg.model.leaves, s ∈ l.outs) m.w)
      NotRe := by
  refine Tri.inWith ?_ (callInv_moves ((covers_inv cfg h.proper).inputs t) ((covers_fixed cfg).inputs t))
  refine Tri.free (O := (· ∈ cfg.inputKeys t)) ?_ (inputs_sigOnly cfg t) (fun w hw => hw.mono (fun s hs => Or.inr hs)) ?_
  · exact (inputs_noRe h.honest t (h.drivers.inputs t)).weaken (fun w hw => hw.mono (fun s hs => Or.inl hs)) (fun _ _ h => h) (fun _ _ h => h)
  · rintro s (⟨_, l, hl, hs⟩ | ⟨l, hl, hs⟩) hk
    · exact h.drivers.preInput l hl s hs t hk
    · exact h.drivers.outInput l hl s hs t hk

theorem pre_free (h : DriveOk cfg) (t : K) :
    Tri (fun m => CallInv cfg m ∧ Free (fun s => (∃ l ∈ cfg.model.leaves, s ∈ l.preOuts) ∨ ∃ l ∈ cfg.model.leaves, s ∈ l.outs) m.w)
      (inW (cfg.model.preStep cfg.dbg t)) (fun _ m => CallInv cfg m ∧ Free (fun s => ∃ l ∈ cfg.model.leaves, s ∈ l.outs) m.w) NotRe := by
  refine Tri.inWith ?_ (callInv_moves ((covers_inv cfg h.proper).pre t) ((covers_fixed cfg).pre t))
  refine Tri.free (O := fun s => ∃ l ∈ cfg.model.leaves, s ∈ l.preOuts) ?_ ?_ (fun w hw => hw.mono (fun s hs => Or.inr hs)) ?_
  · rw [preStep_eq]
    exact (preAll_noRe cfg.dbg t _ h.honest.pre h.drivers.preOuts h.proper.leafNodup h.drivers.prePre).weaken
      (fun w hw => hw.mono (fun s hs => Or.inl hs)) (fun _ _ h => h) (fun _ _ h => h)
  · exact moves_preStep cfg.dbg t cfg.model (fun l hl => moves_pre cfg.dbg t l (fun w w' hw s hs => hw.sig s (fun h' => hs ⟨l, hl, h'⟩)))
  · rintro s ⟨l, hl, hs⟩ ⟨l', hl', hs'⟩
    exact h.drivers.outPre l hl l' hl' s hs hs'

theorem processModel_noRe (h : DriveOk cfg) (t : K) (pre post : Bool) :
    Tri (fun m => CallInv cfg m ∧ Free (Targets cfg t pre) m.w) (processModel cfg t pre post) (fun _ _ => True) NotRe := by
  have hpost : Tri (fun _ => True) (inW (cfg.model.postStep cfg.dbg t)) (fun _ _ => True) NotRe := by
    intro m _
    rw [postStep_eq]
    have := postAll_noRe cfg.dbg t cfg.model.leaves h.honest.post m.w trivial
    simp only [inW]
    cases hx : postAll cfg.dbg t cfg.model.leaves m.w with
    | ok a w => trivial
    | error e w => rw [hx] at this; exact this
  have h2 : Tri (fun m => CallInv cfg m ∧ Free (fun s => ∃ l ∈ cfg.model.leaves, s ∈ l.outs) m.w) (do
      evalModel cfg t
      if post then inW (cfg.model.postStep cfg.dbg t) else pure ()) (fun _ _ => True) NotRe := by
    refine Tri.bind ((eval_noRe h.proper h.honest.act h.drivers.outs h.drivers.outOut t).weaken (fun m hm => ⟨hm.1.order, hm.2⟩)
      (fun _ _ h => h) (fun _ _ h => h)) (fun _ => ?_)
    split
    · exact hpost
    · exact Tri.pure (fun _ _ => trivial)
  unfold processModel
  refine Tri.bind (inputs_free h t pre) (fun _ => ?_)
  dsimp only
  split
  · rename_i hpre
    refine Tri.bind ((pre_free h t).weaken ?_ (fun _ _ h => h) (fun _ _ h => h)) (fun _ => h2)
    exact fun m hm => ⟨hm.1, hm.2.mono (fun s hs => hs.imp (fun h => ⟨hpre, h⟩) id)⟩
  · exact h2.weaken (fun m hm => ⟨hm.1, hm.2.mono (fun s hs => Or.inr hs)⟩) (fun _ _ h => h) (fun _ _ h => h)

theorem targets_linked (h : DriveOk cfg) {t : K} {pre : Bool} {s : SigId} (hs : Targets cfg t pre s) : s ∈ linkedSigs cfg.model := by
  refine mem_linkedSigs cfg s ?_
  rcases hs with hs | ⟨_, l, hl, hs⟩ | ⟨l, hl, hs⟩
  · exact h.drivers.inputLink t s hs
  · exact h.drivers.preLink l hl s hs
  · exact h.drivers.outLink l hl s hs

theorem targets_state (h : DriveOk cfg) {t : K} {s : SigId} (hs : Targets cfg t false s) : cfg.deriv s = none := by
  rcases hs with hs | ⟨he, _⟩ | ⟨l, hl, hs⟩
  · cases hd : cfg.deriv s with
    | none => rfl
    | some d => exact (h.drivers.stateInput s (by simp [hd]) t hs).elim
  · cases he
  · exact h.drivers.outState l hl s hs

theorem mem_states {w : World K} {s : SigId} (hs : s ∈ scalarStatesOf cfg w ∨ s ∈ arrayStatesOf cfg w) : (cfg.deriv s).isSome := by
  rcases hs with hs | hs
  · simp only [scalarStatesOf, List.mem_filter, Bool.and_eq_true] at hs; exact hs.2.2
  · simp only [arrayStatesOf, List.mem_filter, Bool.and_eq_true] at hs; exact hs.2.2

/-- After clearing nothing linked is assigned. -/
theorem clear_free (h : DriveOk cfg) {m : Machine K} (hm : CallInv cfg m) :
    ∃ m1, inW (clearAll m.s.valueSigs) m = .ok () m1 ∧ m1.s = m.s ∧ CallInv cfg m1 ∧ Free (· ∈ linkedSigs cfg.model) m1.w := by
  have e : inW (clearAll m.s.valueSigs) m = .ok () { m with w := { m.w with
      sig := fun s => if s ∈ m.s.valueSigs then { m.w.sig s with assigned := false } else m.w.sig s } } := by
    simp only [inW, clearAll_ok]
  refine ⟨_, e, rfl, ?_, ?_⟩
  · have hty : ∀ s, (if s ∈ m.s.valueSigs then { m.w.sig s with assigned := false } else m.w.sig s).ty = (m.w.sig s).ty := by
      intro s; split <;> rfl
    refine ⟨hm.order.keep ⟨rfl, rfl, rfl⟩, hm.layout.fixed ⟨rfl, rfl, rfl, rfl, rfl, hty⟩, fun s hs => ?_⟩
    show 0 < (if s ∈ m.s.valueSigs then { m.w.sig s with assigned := false } else m.w.sig s).ty.size
    rw [hty]; exact hm.sizes s hs
  · intro s hs
    have : s ∈ m.s.valueSigs := by rw [hm.layout.valueSigs]; exact (h.hash _).mem_iff.2 hs
    simp [this]

/-- `reset_with_state_variables` leaves everything but the states free; without data there are no states. -/
theorem reset_free (h : DriveOk cfg) (x : List K) :
    Tri (CallInv cfg) (resetWith cfg x) (fun _ m => CallInv cfg m ∧
      Free (fun s => s ∈ linkedSigs cfg.model ∧ (cfg.deriv s = none ∨ x.length = 0)) m.w) NotRe := by
  intro m hm
  obtain ⟨m1, h1, hs1, hi1, hf1⟩ := clear_free h hm
  have hkeep := callInv_moves ((covers_inv cfg h.proper).reset x) ((covers_fixed cfg).reset x) m
  have hss := hi1.layout.scalarStates
  have has := hi1.layout.arrayStates
  have hns : m1.s.scalarStates.Nodup := by
    rw [hss]; exact (h.hash _).nodup_iff.2 ((linkedSigs_nodup _).filter _)
  have hna : m1.s.arrayStates.Nodup := by
    rw [has]; exact (h.hash _).nodup_iff.2 ((linkedSigs_nodup _).filter _)
  have memS : ∀ s, s ∈ m1.s.scalarStates → s ∈ scalarStatesOf cfg m1.w := fun s hs => by
    rw [hss] at hs; exact (h.hash _).mem_iff.1 hs
  have memA : ∀ s, s ∈ m1.s.arrayStates → s ∈ arrayStatesOf cfg m1.w := fun s hs => by
    rw [has] at hs; exact (h.hash _).mem_iff.1 hs
  have linkS : ∀ s, s ∈ m1.s.scalarStates → s ∈ linkedSigs cfg.model := fun s hs => (List.mem_filter.1 (memS s hs)).1
  have linkA : ∀ s, s ∈ m1.s.arrayStates → s ∈ linkedSigs cfg.model := fun s hs => (List.mem_filter.1 (memA s hs)).1
  have disj : ∀ s, s ∈ m1.s.arrayStates → s ∉ m1.s.scalarStates := by
    intro s hsa hsc
    have a := (List.mem_filter.1 (memA s hsa)).2
    have b := (List.mem_filter.1 (memS s hsc)).2
    simp only [Bool.and_eq_true, decide_eq_true_eq] at a b
    rw [b.1] at a; simp [Ty.isArray] at a
  have e : resetWith cfg x m = (do
      let d ← inW (writeScalars cfg.dbg m1.s.scalarStates x)
      inW (writeArrays cfg.dbg m1.s.arrayStates d)) m1 := by
    unfold resetWith
    rw [bind_of_ok (show getSim m = .ok m.s m from rfl), bind_of_ok h1, hs1]
  rw [e] at hkeep ⊢
  have w1 := writeScalars_noRe (dbg := cfg.dbg) m1.s.scalarStates hns x m1.w (hf1.mono (linkS))
  have mv1 := moves_writeScalars (T := SigOnly (K := K) (· ∈ m1.s.scalarStates)) cfg.dbg m1.s.scalarStates x
    (fun s hs v w y hy => by have : y ≠ s := fun e => hy (e ▸ hs); simp [upd, this]) m1.w
  rw [bind_apply] at hkeep ⊢
  simp only [inW] at hkeep ⊢
  cases hx : writeScalars cfg.dbg m1.s.scalarStates x m1.w with
  | error er w => rw [hx] at w1; exact w1
  | ok d w2 =>
    rw [hx] at mv1 hkeep
    simp only at hkeep mv1 ⊢
    have hf2 : Free (· ∈ m1.s.arrayStates) w2 := (hf1.mono linkA).keep mv1 disj
    have a1 := writeArrays_noRe (dbg := cfg.dbg) m1.s.arrayStates hna d w2 hf2
    have mv2 := moves_writeArrays (T := SigOnly (K := K) (· ∈ m1.s.arrayStates)) cfg.dbg m1.s.arrayStates d
      (fun s hs v w y hy => by have : y ≠ s := fun e => hy (e ▸ hs); simp [upd, this]) w2
    cases hy : writeArrays cfg.dbg m1.s.arrayStates d w2 with
    | error er w => rw [hy] at a1; exact a1
    | ok u w3 =>
      rw [hy] at hkeep mv2
      refine ⟨hkeep hm, ?_⟩
      rintro s ⟨hl, hs⟩
      have nS : s ∉ m1.s.scalarStates := by
        intro hsc
        rcases hs with hs | hs
        · have := mem_states (Or.inl (memS s hsc)); rw [hs] at this; cases this
        · cases hc : m1.s.scalarStates with
          | nil => rw [hc] at hsc; cases hsc
          | cons a l =>
            rw [List.length_eq_zero_iff.1 hs, hc] at hx; cases hx
      have nA : s ∉ m1.s.arrayStates := by
        intro hsa
        rcases hs with hs | hs
        · have := mem_states (Or.inr (memA s hsa)); rw [hs] at this; cases this
        · have hd : d = [] ∧ w2 = m1.w := by
            rw [List.length_eq_zero_iff.1 hs] at hx
            cases hc : m1.s.scalarStates with
            | nil => rw [hc] at hx; cases hx; exact ⟨rfl, rfl⟩
            | cons a l => rw [hc] at hx; cases hx
          obtain ⟨rfl, rfl⟩ := hd
          cases hc : m1.s.arrayStates with
          | nil => rw [hc] at hsa; cases hsa
          | cons a l =>
            have hpos : 0 < (m1.w.sig a).ty.size :=
              hi1.sizes a (mem_states (Or.inr (memA a (by rw [hc]; simp))))
            rw [hc] at hy
            simp only [writeArrays, bind_apply, get_apply, List.length_nil, hpos, if_true] at hy
            cases hy
      show (w3.sig s).assigned = false
      have e1 : w3.sig s = w2.sig s := mv2 s nA
      have e2 : w2.sig s = m1.w.sig s := mv1 s nS
      rw [e1, e2]
      exact hf1 s hl

theorem Pure0.tri {α : Type} {x : M K α} (h : Pure0 x) : Tri (fun _ => True) (inW x) (fun _ _ => True) NotRe := by
  intro m _
  have := (h m.w).2
  simp only [inW]
  cases hx : x m.w with
  | ok _ _ => trivial
  | error e w => exact this e w hx

theorem getStates_noRe : Tri (fun _ => True) (getStates cfg) (fun _ _ => True) NotRe := by
  unfold getStates
  refine Tri.bind (R := fun _ _ => True) (fun _ _ => trivial) (fun s => Tri.bind (reads_noRe _).1.tri (fun a =>
    Tri.bind (reads_noRe _).2.tri (fun b => ?_)))
  split
  · exact Tri.pure (fun _ _ => trivial)
  · exact Tri.throw (fun _ _ => by show (_ : Err) ≠ _; simp)

theorem getDerivs_noRe : Tri (fun _ => True) (getDerivs cfg) (fun _ _ => True) NotRe := by
  unfold getDerivs
  refine Tri.bind (R := fun _ _ => True) (fun _ _ => trivial) (fun s => ?_)
  split
  · refine Tri.bind (reads_noRe _).1.tri (fun a => Tri.bind (reads_noRe _).2.tri (fun b => ?_))
    split
    · exact Tri.pure (fun _ _ => trivial)
    · exact Tri.throw (fun _ _ => by show (_ : Err) ≠ _; simp)
  · exact Tri.throw (fun _ _ => by show (_ : Err) ≠ _; simp)

/-- The parts of `run`. -/
theorem phases_noRe (h : DriveOk cfg) : Phases cfg (CallInv cfg) NotRe where
  start t := by
    refine Tri.keepInv ?_ ((covers_inv cfg h.proper).beginStep t) ((covers_fixed cfg).beginStep t) (fun _ h => h)
    intro m hm
    obtain ⟨m1, h1, _, hi1, hf1⟩ := clear_free h hm
    unfold beginStep
    rw [bind_of_ok (show getSim m = .ok m.s m from rfl), bind_of_ok h1]
    refine Tri.bind (inputs_free h t true) (fun _ => Tri.bind (R := fun _ _ => True) ?_ (fun _ => ?_)) m1
      ⟨hi1, hf1.mono (fun s hs => targets_linked h hs)⟩
    · exact (pre_free h t).weaken (fun m hm => ⟨hm.1, hm.2.mono (fun s hs => hs.imp (fun h => ⟨rfl, h⟩) id)⟩) (fun _ _ _ => trivial) (fun _ _ h => h)
    · exact getStates_noRe
  minor t x := by
    refine Tri.keepInv ?_ ((covers_inv cfg h.proper).minorCb t x) ((covers_fixed cfg).minorCb t x) (fun _ h => h)
    refine Tri.bind (reset_free h x) (fun _ => Tri.bind (R := fun _ _ => True) ?_ (fun _ => ?_))
    · exact (processModel_noRe h t false false).weaken (fun m hm => ⟨hm.1, hm.2.mono (fun s hs =>
        ⟨targets_linked h hs, Or.inl (targets_state h hs)⟩)⟩) (fun _ _ h => h) (fun _ _ h => h)
    · exact getDerivs_noRe
  mid x t := by
    refine Tri.bind (reset_free h x) (fun _ => ?_)
    refine Tri.keepInv ?_ ((covers_inv cfg h.proper).processModel t false true) ((covers_fixed cfg).processModel t false true) (fun _ h => h.1)
    exact (processModel_noRe h t false true).weaken (fun m hm => ⟨hm.1, hm.2.mono (fun s hs =>
        ⟨targets_linked h hs, Or.inl (targets_state h hs)⟩)⟩) (fun _ _ h => h) (fun _ _ h => h)
  final x t := by
    refine Tri.bind (reset_free h x) (fun _ => ?_)
    refine Tri.keepInv ?_ ((covers_inv cfg h.proper).processModel t _ true) ((covers_fixed cfg).processModel t _ true) (fun _ h => h.1)
    refine (processModel_noRe h t (decide (x.length = 0)) true).weaken (fun m hm => ⟨hm.1, hm.2.mono (fun s hs =>
        ⟨targets_linked h hs, ?_⟩)⟩) (fun _ _ h => h) (fun _ _ h => h)
    by_cases hx : x.length = 0
    · exact Or.inr hx
    · rw [decide_eq_false hx] at hs; exact Or.inl (targets_state h hs)
  log e m hm := ⟨hm.order.keep ⟨rfl, rfl, rfl⟩, hm.layout.fixed ⟨rfl, rfl, rfl, rfl, rfl, fun _ => rfl⟩, hm.sizes⟩
  sv x m hm := ⟨hm.order.keep ⟨rfl, rfl, rfl⟩, hm.layout.fixed ⟨rfl, rfl, rfl, rfl, rfl, fun _ => rfl⟩, hm.sizes⟩
  time t m hm := ⟨hm.order.keep ⟨rfl, rfl, rfl⟩, hm.layout.fixed ⟨rfl, rfl, rfl, rfl, rfl, fun _ => rfl⟩, hm.sizes⟩
  errs e m _ he := by
    simp only [List.mem_cons, List.not_mem_nil, or_false] at he
    rcases he with rfl | rfl | rfl | rfl | rfl <;> (show (_ : Err) ≠ _; simp)

theorem baseInit_free (h : DriveOk cfg) (t : K) :
    Tri (fun m => Blank m ∧ OrderInv cfg m ∧ ∀ s, (cfg.deriv s).isSome → 0 < (m.w.sig s).ty.size) (baseInit cfg t)
      (fun _ m => CallInv cfg m ∧ Free (· ∈ linkedSigs cfg.model) m.w) NotRe := by
  rintro m ⟨hb, ho, hsz⟩
  obtain ⟨m1, h1, h2, _⟩ := layout_init (cfg := cfg) hb t
  obtain ⟨lg, _, e1⟩ := baseInit_eq cfg t m
  have ho1 : OrderInv cfg m1 := by
    have := keep_baseInit cfg t m
    rw [h1] at this
    exact ho.keep this
  rw [h1]
  rw [e1] at h1
  cases h1
  refine ⟨⟨ho1, h2, ?_⟩, ?_⟩
  · intro s hs
    have := hsz s hs
    dsimp only
    split <;> exact this
  · intro s hs
    have : s ∈ m.s.valueSigs ++ cfg.hash (linkedSigs cfg.model) := List.mem_append_right _ ((h.hash _).mem_iff.2 hs)
    simp [this]

theorem fastOrder_free (h : DriveOk cfg) (hs : cfg.strategy = .fast) (t : K) :
    Tri (fun m => CallInv cfg m ∧ Free (fun s => ∃ l ∈ cfg.model.leaves, s ∈ l.outs) m.w)
      (levels cfg t)
      (fun r m => CallInv cfg { m with s := { m.s with fast := m.s.fast ++ r.1 } }) NotRe := by
  rintro m ⟨hm, hf⟩
  have h1 := fastOrder_noRe h.proper h.honest.act h.drivers.outs h.drivers.outOut t m.w hf
  have h2 := inv_fastOrder cfg h.proper hs t hm.order
  have h3 : Fixed m _ := fixed_inW (moves_fastOrder (dbg := cfg.dbg) (t := t) cfg.model.leaves (fun l _ => moves_act _ t l (fun _ _ h => sameTy_within h))
    (fun _ _ w => PreO.refl (T := SameTy) w) (cfg.model.leaves.length + 1)) m
  simp only [inW] at h3
  simp only [levels] at h2 ⊢
  cases hx : fastOrder cfg.dbg t cfg.model.leaves (cfg.model.leaves.length + 1) m.w with
  | error e w => rw [hx] at h1; exact h1
  | ok r w =>
    rw [hx] at h2 h3
    exact ⟨h2, hm.layout.fixed ⟨rfl, rfl, rfl, rfl, rfl, h3.ty⟩, fun s hs => by
      have := hm.sizes s hs
      rw [← h3.ty s] at this; exact this⟩

theorem simInit_noRe (h : DriveOk cfg) (t : K) :
    Tri (fun m => Blank m ∧ OrderInv cfg m ∧ ∀ s, (cfg.deriv s).isSome → 0 < (m.w.sig s).ty.size) (simInit cfg t)
      (fun _ _ => True) NotRe := by
  have hpm : Tri (fun m => CallInv cfg m ∧ Free (· ∈ linkedSigs cfg.model) m.w) (processModel cfg t true true) (fun _ _ => True) NotRe :=
    (processModel_noRe h t true true).weaken (fun m hm => ⟨hm.1, hm.2.mono (fun s hs => targets_linked h hs)⟩) (fun _ _ h => h) (fun _ _ h => h)
  have hv : ∀ {P : Machine K → Prop} c, Tri P (debugVerify cfg.dbg c .debugVerify : MM K Unit) (fun _ => P) NotRe := fun c =>
    Tri.verify (fun _ h _ => h) (fun _ _ => by show (_ : Err) ≠ _; simp)
  unfold simInit
  refine Tri.bind (baseInit_free h t) (fun _ => ?_)
  cases hs : cfg.strategy with
  | plain => exact hpm
  | reuse =>
    refine Tri.bind Tri.getSim (fun s => ?_)
    dsimp only
    split
    · refine Tri.bind (hv _) (fun _ => Tri.bind ?_ (fun _ => hpm))
      rintro m ⟨⟨hm, hf⟩, _⟩
      refine ⟨⟨⟨?_, ?_, ?_, hm.order.fastSub, hm.order.fastNodup, (fun e => by rw [hs] at e; cases e), hm.order.fastNil⟩,
        hm.layout.fixed ⟨rfl, rfl, rfl, rfl, rfl, fun _ => rfl⟩, hm.sizes⟩, hf⟩
      · intro po h'; cases h'; exact h.proper
      · intro po h'; cases h'; exact fun b hb => hb
      · intro po h'; cases h'; exact fun b hb _ => hb
    · exact hpm.weaken (fun _ h => h.1) (fun _ _ h => h) (fun _ _ h => h)
  | fast =>
    refine Tri.bind Tri.getSim (fun s => ?_)
    have hrest : ∀ n : Nat, Tri (fun m => CallInv cfg m ∧ s.valueSigs = cfg.hash (linkedSigs cfg.model)) (do
        if n ≠ cfg.model.leaves.length then throwE (.exc .notFast) else pure ()
        inW (clearAll s.valueSigs)
        processModel cfg t true true) (fun _ _ => True) NotRe := by
      intro n
      have h2 : Tri (fun m => CallInv cfg m ∧ s.valueSigs = cfg.hash (linkedSigs cfg.model)) (do
        inW (clearAll s.valueSigs)
        processModel cfg t true true) (fun _ _ => True) NotRe := by
        refine Tri.bind (R := fun _ m => CallInv cfg m ∧ Free (· ∈ linkedSigs cfg.model) m.w) ?_ (fun _ => hpm)
        rintro m3 ⟨hm3, hv3⟩
        obtain ⟨m4, h4, _, hi4, hf4⟩ := clear_free h hm3
        rw [hm3.layout.valueSigs, ← hv3] at h4
        rw [h4]
        exact ⟨hi4, hf4⟩
      dsimp only
      split
      · exact Tri.throw (fun _ _ => by show (_ : Err) ≠ _; simp)
      · exact h2
    by_cases hvs : s.valueSigs = cfg.hash (linkedSigs cfg.model)
    · refine Tri.bind (hv _) (fun _ => ?_)
      refine Tri.bind ((inputs_free h t true).weaken (fun m hm => ⟨hm.1.1, hm.1.2.mono (fun s hs => targets_linked h hs)⟩)
        (fun _ _ h => h) (fun _ _ h => h)) (fun _ => ?_)
      refine Tri.bind ((pre_free h t).weaken (fun m hm => ⟨hm.1, hm.2.mono (fun s hs => hs.imp (fun h => ⟨rfl, h⟩) id)⟩)
        (fun _ _ h => h) (fun _ _ h => h)) (fun _ => ?_)
      refine Tri.bind (fastOrder_free h hs t) (fun r => ?_)
      refine Tri.bind (R := fun _ m => CallInv cfg m ∧ s.valueSigs = cfg.hash (linkedSigs cfg.model)) ?_ (fun _ => hrest r.2)
      exact fun m hm => ⟨hm, hvs⟩
    · rintro m ⟨⟨hm, _⟩, rfl⟩
      exact (hvs hm.layout.valueSigs).elim

end Pooya
