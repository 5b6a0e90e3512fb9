import Verif.Proof.TiedRun
import Verif.Proof.Quiet

/-! Executions of two variants of a configuration, side by side: initialisation and sequences of calls. -/

namespace Pooya

set_option linter.unusedSectionVars false

variable {K : Type} [Arith K] {c1 c2 cfg : Config K} {idx : List Nat}

/-- The drivers of a model depend only on its leaf blocks and links. -/
theorem Config.Variant.drivers (h : c1.Variant c2) (hd : c1.SingleDrivers) : c2.SingleDrivers := by
  have hm : ∀ {l}, l ∈ c2.model.leaves → l ∈ c1.model.leaves := fun hl => h.leaves.mem_iff.2 hl
  have hk := fun t => h.inputKeys t
  refine ⟨fun l hl => hd.outs l (hm hl), fun l hl => hd.preOuts l (hm hl), fun t => hk t ▸ hd.inputs t,
    fun l hl l' hl' => hd.outOut l (hm hl) l' (hm hl'), fun l hl l' hl' => hd.prePre l (hm hl) l' (hm hl'),
    fun l hl l' hl' => hd.outPre l (hm hl) l' (hm hl'), fun l hl s hs => h.deriv ▸ hd.outState l (hm hl) s hs,
    fun l hl s hs t => hk t ▸ hd.outInput l (hm hl) s hs t, fun l hl s hs t => hk t ▸ hd.preInput l (hm hl) s hs t,
    fun s hs t => hk t ▸ hd.stateInput s (h.deriv ▸ hs) t, fun l hl s hs => (h.links s).1 (hd.outLink l (hm hl) s hs),
    fun l hl s hs => (h.links s).1 (hd.preLink l (hm hl) s hs), fun t s hs => (h.links s).1 (hd.inputLink t s (hk t ▸ hs))⟩

theorem Config.Variant.sound (h : c1.Variant c2) (hs : c1.Sound) (hp : c2.model.Proper) (hh : ∀ l, (c2.hash l).Perm l) : c2.Sound := by
  refine ⟨h.dbg ▸ hs.dbg, hp, ?_, h.drivers hs.drivers, hh, fun l hl => hs.builder l (h.leaves.mem_iff.2 hl),
    fun st e => hs.equivariant st (by rw [h.stepper]; exact e)⟩
  have hm : ∀ {l}, l ∈ c2.model.leaves → l ∈ c1.model.leaves := fun hl => h.leaves.mem_iff.2 hl
  exact ⟨(h.leaves.map _).nodup_iff.1 hs.wired.ids, fun l hl l' hl' => hs.wired.driver l (hm hl) l' (hm hl'), fun l hl => hs.wired.reads l (hm hl)⟩

theorem Config.Sound.with (hs : cfg.Sound) (st : Strategy) {f : List SigId → List SigId} (hf : ∀ l, (f l).Perm l) :
    Config.Sound { cfg with strategy := st, hash := f } :=
  Config.Variant.sound (c1 := cfg) ⟨rfl, .refl _, fun _ => .rfl, rfl, rfl, rfl, rfl⟩ hs hs.proper hf

/-- `init` without the final evaluation. -/
def initHead (cfg : Config K) (t0 : K) : MM K Unit := do
  baseInit cfg t0
  match cfg.strategy with
  | .plain => pure ()
  | .reuse => do
      let s ← getSim
      if 0 < s.svSize then
        debugVerify cfg.dbg s.po.isNone .debugVerify
        setSim (fun s => { s with po := some cfg.model.all })
      else pure ()
  | .fast => do
      let s ← getSim
      debugVerify cfg.dbg s.fast.isEmpty .debugVerify
      inW (callInputs cfg t0)
      inW (cfg.model.preStep cfg.dbg t0)
      let r ← levels cfg t0
      setSim (fun s => { s with fast := s.fast ++ r.1 })
      if r.2 ≠ cfg.model.leaves.length then throwE (.exc .notFast) else pure ()
      inW (clearAll s.valueSigs)

theorem simInit_head (cfg : Config K) (t : K) : simInit cfg t = initHead cfg t >>= fun _ => processModel cfg t true true := by
  unfold simInit initHead
  rw [bind_assoc]
  congr 1
  funext _
  cases cfg.strategy with
  | plain => simp
  | reuse =>
    dsimp only
    rw [bind_assoc]
    congr 1
    funext s
    split <;> simp [bind_assoc]
  | fast =>
    simp only [bind_assoc]
    congr 1
    funext s
    congr 1
    funext _
    congr 1
    funext _
    congr 1
    funext _
    congr 1
    funext r
    congr 1
    funext _
    split <;> simp [bind_assoc]

theorem Acts.quiet {dbg : Bool} {t : K} {ls : List (Leaf K)} {w w' : World K} (h : Acts dbg t w ls w') (hq : ∀ l ∈ ls, l.Quiet (w.mem l.id)) : w'.mem = w.mem := by
  induction h with
  | nil hf => exact hf.mem
  | @cons l w w0 w1 w' ls hf h1 h2 ih =>
    have e := still_act_leaf dbg t l w0 (by rw [hf.mem]; exact hq l (by simp))
    rw [h1] at e
    have e : w1.mem = w0.mem := e
    rw [ih (fun l' hl' => by rw [e, hf.mem]; exact hq l' (by simp [hl'])), e, hf.mem]

theorem pre_quiet {dbg : Bool} {t : K} {ls : List (Leaf K)} {w w' : World K} (h : preAll dbg t ls w = .ok () w')
    (hq : ∀ l ∈ ls, l.Quiet (w.mem l.id)) : w'.mem = w.mem := by
  induction ls generalizing w with
  | nil => cases h; rfl
  | cons l ls ih =>
    unfold preAll at h
    obtain ⟨_, w1, h1, h2⟩ := ok_bind h
    have e := still_pre_leaf dbg t l w (hq l (by simp))
    rw [h1] at e
    have e : w1.mem = w.mem := e
    rw [ih h2 (fun l' hl' => by rw [e]; exact hq l' (by simp [hl'])), e]

/-- The state after `SimulatorBase::init` of a new simulator. -/
structure Based (cfg : Config K) (t0 : K) (w : World K) (m : Machine K) : Prop where
  ready : Ready cfg m
  init : m.s.initialized = true
  time : m.s.tPrev = t0
  sv : m.s.sv = if stateSize cfg w = 0 then some [] else none
  value : m.s.valueSigs = cfg.hash (linkedSigs cfg.model)
  ty : SameTy w m.w
  cleared : ∀ s, cfg.Links s → (m.w.sig s).assigned = false
  other : ∀ s, ¬ cfg.Links s → m.w.sig s = w.sig s
  nState : m.s.nState = stateSize cfg w

theorem based_init (hash : ∀ l, (cfg.hash l).Perm l) (w : World K) (t t0 : K) (hd : ∀ b, w.done b = false) :
    ∃ m, baseInit cfg t0 (fresh w t) = .ok () m ∧ Based cfg t0 w m ∧ m.w.mem = w.mem ∧ m.s.po = none ∧ m.s.fast = [] := by
  obtain ⟨lg, _, he⟩ := baseInit_eq cfg t0 (fresh w t)
  refine ⟨_, he, ⟨⟨?_, ?_, ?_⟩, rfl, rfl, ?_, rfl, fun s => ?_, fun s hs => ?_, fun s hs => ?_, rfl⟩, rfl, rfl, rfl⟩
  · exact .other _ (.new w t hd) rfl rfl rfl
  · have hty : SameTy w ({ (fresh w t).w with
        log := lg
        sig := fun s => if s ∈ (fresh w t).s.valueSigs ++ cfg.hash (linkedSigs cfg.model) then
          { (fresh w t).w.sig s with assigned := false } else (fresh w t).w.sig s }) := fun s => by
      dsimp only; split <;> rfl
    refine ⟨rfl, ?_, ?_, ?_⟩
    · dsimp only; rw [scalarStatesOf_ty hty]; rfl
    · dsimp only; rw [arrayStatesOf_ty hty]; rfl
    · dsimp only; rw [stateSize_ty hty]; rfl
  · refine ⟨?_, rfl⟩
    show (match (if stateSize cfg w = 0 then (some [] : Option (List K)) else if stateSize cfg w = 0 then some [] else none) with
      | some v => v.length | none => stateSize cfg w) = stateSize cfg w
    by_cases h0 : stateSize cfg w = 0
    · rw [if_pos h0, h0]; rfl
    · rw [if_neg h0, if_neg h0]
  · have : (fresh w t).s.svSize = 0 := rfl
    dsimp only
    rw [this]
    show (if stateSize cfg w = 0 then (some [] : Option (List K)) else if stateSize cfg w = 0 then some [] else none) = _
    by_cases h0 : stateSize cfg w = 0
    · rw [if_pos h0, if_pos h0]
    · rw [if_neg h0, if_neg h0]
  · dsimp only; split <;> rfl
  · dsimp only
    rw [if_pos]
    exact List.mem_append_right _ ((hash _).mem_iff.2 (mem_linkedSigs cfg s hs))
  · dsimp only
    rw [if_neg]
    · rfl
    · intro h
      rcases List.mem_append.1 h with h | h
      · cases h
      · exact hs (of_linkedSigs ((hash _).mem_iff.1 h))

/-- The state before the last evaluation of `init`. -/
theorem head_ok (hs : cfg.Sound) {w : World K} {t t0 : K} (hd : ∀ b, w.done b = false) (hty : cfg.Typed w)
    (hpos : cfg.strategy = .reuse → 0 < stateSize cfg w) {m' : Machine K} (h : initHead cfg t0 (fresh w t) = .ok () m') :
    Good cfg m' ∧ Based cfg t0 w m' ∧ ((cfg.strategy = .fast → ∀ l ∈ cfg.model.leaves, l.Quiet (w.mem l.id)) → m'.w.mem = w.mem) := by
  obtain ⟨m1, he, hb, hmem, hpo, hfast⟩ := based_init hs.hash w t t0 hd
  unfold initHead at h
  rw [bind_of_ok he] at h
  cases hst : cfg.strategy with
  | plain =>
    rw [hst] at h
    cases h
    exact ⟨⟨hb.ready, hb.init, fun e => (by rw [hst] at e; cases e), fun e => (by rw [hst] at e; cases e), hty.same hb.ty⟩, hb, fun _ => hmem⟩
  | reuse =>
    rw [hst] at h
    dsimp only at h
    rw [bind_apply] at h
    simp only [getSim] at h
    have h0 : 0 < m1.s.svSize := by rw [hb.ready.sized.1, hb.nState]; exact hpos hst
    rw [if_pos h0] at h
    obtain ⟨_, m2, h3, h4⟩ := ok_bind h
    have e2 : m2 = m1 := verify_ok h3
    subst e2
    cases h4
    have r : Ready cfg { m2 with s := { m2.s with po := some cfg.model.all } } := ⟨.order hst hb.ready.mid,
      ⟨hb.ready.layout.valueSigs, hb.ready.layout.scalarStates, hb.ready.layout.arrayStates, hb.ready.layout.nState⟩, hb.ready.sized⟩
    exact ⟨⟨r, hb.init, fun _ e => (by cases e), fun e => (by rw [hst] at e; cases e), hty.same hb.ty⟩,
      ⟨r, hb.init, hb.time, hb.sv, hb.value, hb.ty, hb.cleared, hb.other, hb.nState⟩, fun _ => hmem⟩
  | fast =>
    rw [hst] at h
    dsimp only at h
    rw [bind_apply] at h
    simp only [getSim] at h
    obtain ⟨_, m2, h1, h2⟩ := ok_bind h
    have e2 : m2 = m1 := verify_ok h1
    subst e2
    obtain ⟨_, m3, h3, h4⟩ := ok_bind h2
    obtain ⟨w3, g3, e3⟩ := inW_ok h3
    obtain ⟨_, m4, h5, h6⟩ := ok_bind h4
    obtain ⟨w4, g4, e4⟩ := inW_ok h5
    have hmid3 : Mid cfg m3 := mid_of ((covers_mid cfg).inputs t0) hb.ready.mid h3
    have hmid4 : Mid cfg m4 := mid_of ((covers_mid cfg).pre t0) hmid3 h5
    obtain ⟨r, m5, h7, h8⟩ := ok_bind h6
    obtain ⟨w5, g5, e5⟩ := inW_ok ((levels_ok _ _).1 h7)
    obtain ⟨_, m6, h9, h10⟩ := ok_bind h8
    have e6 : m6 = { m5 with s := { m5.s with fast := m5.s.fast ++ r.1 } } := by cases h9; rfl
    have hmid6 : Mid cfg m6 := by rw [e6]; exact .fastOrder t0 hst hmid4 h7
    by_cases hr : r.2 ≠ cfg.model.leaves.length
    · rw [if_pos hr] at h10; cases h10
    rw [if_neg hr] at h10
    have h11 : inW (clearAll m2.s.valueSigs) m6 = .ok () m' := h10
    obtain ⟨w7, g7, e7⟩ := inW_ok h11
    have hf := fastOrder_aux (dbg := cfg.dbg) (t := t0) (I := cfg.model.leafId) cfg.model.leaves hs.proper.leafNodup
      (fun l hl => List.mem_map_of_mem hl) (cfg.model.leaves.length + 1) m4.w
    rw [g5] at hf
    obtain ⟨f1, f2, _, f4⟩ := hf
    have hbs := f1.basic (fun l hl => List.mem_map_of_mem (f2 l hl))
    have g3 : callInputs cfg t0 m2.w = .ok () w3 := g3
    have hw3 : m3.w = w3 := by rw [e3]
    have hw4 : m4.w = w4 := by rw [e4]
    have hw6 : m6.w = w5 := by rw [e6, e5]
    have hw7 : m'.w = w7 := by rw [e7]
    rw [hw3] at g4
    rw [hw4] at f1
    rw [hw6] at g7
    -- signals and types
    obtain ⟨_, k2, k3, k4⟩ := clearAll_facts g7
    have hfx : Fixed m2 m4 := by
      have a1 := (covers_fixed cfg).inputs t0 m2
      have a2 := (covers_fixed cfg).pre t0 m3
      rw [h3] at a1
      rw [h5] at a2
      exact PreO.trans (T := Fixed) (show Fixed m2 m3 from a1) (show Fixed m3 m4 from a2)
    have hlink : ∀ s, ¬ cfg.Links s → w5.sig s = m2.w.sig s := by
      intro s hns
      have a3 := f1.acts.sig (s := s) (fun l hl ho => hns (hs.drivers.outLink l (f2 l hl) s ho))
      have a4 : w4.sig s = w3.sig s := by
        rw [preStep_eq] at g4
        exact preAll_sig g4 (fun l hl ho => hns (hs.drivers.preLink l hl s ho))
      rw [a3, a4, inputs_sig g3 (fun hk => hns (hs.drivers.inputLink t0 s hk))]
    have htyA : SameTy w4 w5 := by
      have := moves_fastOrder (dbg := cfg.dbg) (t := t0) (T := SameTy) cfg.model.leaves (fun l _ => moves_act _ t0 l (fun _ _ h => sameTy_within h))
        (fun _ _ _ _ => rfl) (cfg.model.leaves.length + 1) w4
      have g5' : fastOrder cfg.dbg t0 cfg.model.leaves (cfg.model.leaves.length + 1) w4 = .ok r w5 := by rw [← hw4]; exact g5
      rw [g5'] at this
      exact this
    have htyM : SameTy m2.w m'.w := fun s => by
      rw [hw7, k2 s, htyA s, ← hw4, hfx.ty s]
    have es : m'.s = { m2.s with fast := m2.s.fast ++ r.1 } := by rw [e7, e6, e5, e4, e3]
    have hmid7 : Mid cfg m' := by
      rw [clearAll_ok] at g7
      cases g7
      subst e7
      exact .other _ hmid6 (by rw [hw6]) rfl rfl
    have hl := hb.ready.layout
    have r' : Ready cfg m' := by
      refine ⟨hmid7, ⟨?_, ?_, ?_, ?_⟩, ?_⟩
      · rw [es]; exact hl.valueSigs
      · rw [es, scalarStatesOf_ty htyM]; exact hl.scalarStates
      · rw [es, arrayStatesOf_ty htyM]; exact hl.arrayStates
      · rw [es, stateSize_ty htyM]; exact hl.nState
      · have := hb.ready.sized
        unfold SizedN Sim.svSize at this ⊢
        rw [es]
        exact this
    have hfo : cfg.FastOrder m'.s.fast.flatten := by
      have hperm : r.1.flatten.Perm cfg.model.leaves := by
        have hn : r.1.flatten.Nodup := List.Nodup.of_map _ hbs.nodup
        have hsp : r.1.flatten.Subperm cfg.model.leaves := List.subperm_of_subset hn (fun l hl => f2 l hl)
        have hlen : cfg.model.leaves.length ≤ r.1.flatten.length := by
          have : r.2 = cfg.model.leaves.length := by simpa using hr
          omega
        exact hsp.perm_of_length_le hlen
      rw [es, hfast]
      refine ⟨hperm, f1.follows.mono (fun l hl s hreq ha => ?_)⟩
      have hlk := requires_linked (hperm.mem_iff.1 hl) hreq
      by_cases hpre : ∃ l ∈ cfg.model.leaves, s ∈ l.preOuts
      · exact .inr hpre
      · left
        refine ⟨t0, ?_⟩
        by_contra hk
        have a3 : w4.sig s = w3.sig s := by
          rw [preStep_eq] at g4
          exact preAll_sig g4 (fun l hl ho => hpre ⟨l, hl, ho⟩)
        rw [a3, inputs_sig g3 hk, hb.cleared s hlk] at ha
        cases ha
    refine ⟨⟨r', by rw [es]; exact hb.init, fun e => (by rw [hst] at e; cases e), fun _ => hfo, (hty.same hb.ty).same htyM⟩,
      ⟨r', by rw [es]; exact hb.init, by rw [es]; exact hb.time, by rw [es]; exact hb.sv, by rw [es]; exact hb.value,
        fun s => (htyM s).trans (hb.ty s), fun s hl => ?_, fun s hn => ?_, by rw [es]; exact hb.nState⟩, fun hq => ?_⟩
    · rw [hw7]
      refine k3 s ?_
      rw [hb.value, (hs.hash _).mem_iff]
      exact mem_linkedSigs cfg s hl
    · rw [hw7, k4 s, hlink s hn, hb.other s hn]
      rw [hb.value, (hs.hash _).mem_iff]
      exact fun h => hn (of_linkedSigs h)
    · rw [hw7, clear_mem g7]
      have q := hq rfl
      have m3e : w3.mem = w.mem := (inputs_mem g3).trans hmem
      have m4e : w4.mem = w.mem := by
        rw [preStep_eq] at g4
        rw [pre_quiet g4 (fun l hl => by rw [m3e]; exact q l hl), m3e]
      rw [f1.acts.quiet (fun l hl => by rw [m4e]; exact q l (f2 l hl)), m4e]

/-- Simulators that do not determine an order always get to the evaluation. -/
theorem head_succ (hs : cfg.Sound) {w : World K} {t t0 : K} (hd : ∀ b, w.done b = false) (hst : cfg.strategy ≠ .fast) :
    ∃ m', initHead cfg t0 (fresh w t) = .ok () m' := by
  obtain ⟨m1, he, hb, hmem, hpo, hfast⟩ := based_init hs.hash w t t0 hd
  unfold initHead
  rw [bind_of_ok he]
  cases h : cfg.strategy with
  | plain => exact ⟨m1, rfl⟩
  | reuse =>
    dsimp only
    rw [bind_apply]
    simp only [getSim]
    split
    · unfold debugVerify
      rw [hpo]
      simp only [Option.isNone_none, Bool.not_true, Bool.and_false, Bool.false_eq_true, if_false]
      exact ⟨_, rfl⟩
    · exact ⟨m1, rfl⟩
  | fast => exact (hst h).elim

/-- The states before the last evaluation of `init` are tied. -/
theorem head_tied (h : Coupled c1 c2) {w1 w2 : World K} {t t0 : K} (hw : SameView w1 w2) (hd1 : ∀ b, w1.done b = false) (hd2 : ∀ b, w2.done b = false)
    (hty : c1.Typed w1) (hpos : c1.strategy = .reuse ∨ c2.strategy = .reuse → 0 < stateSize c1 w1)
    (hq : c1.strategy = .fast ∨ c2.strategy = .fast → ∀ l ∈ c1.model.leaves, l.Quiet (w1.mem l.id)) {m1 m2 : Machine K}
    (h1 : initHead c1 t0 (fresh w1 t) = .ok () m1) (h2 : initHead c2 t0 (fresh w2 t) = .ok () m2) :
    ∃ idx, Tied c1 c2 idx m1 m2 ∧ OutsFree c1 m1.w := by
  have hty2 : c2.Typed w2 := ⟨fun s hs => by rw [← hw.ty]; exact hty.float s (by rw [h.variant.deriv]; exact hs),
    fun s d hs => by rw [← hw.ty, ← hw.ty]; exact hty.deriv s d (by rw [h.variant.deriv]; exact hs)⟩
  have hsize : stateSize c2 w2 = stateSize c1 w1 := by
    obtain ⟨n1, _, b1, _⟩ := based_init h.sound1.hash w1 t t0 hd1
    obtain ⟨n2, _, b2, _⟩ := based_init h.sound2.hash w2 t t0 hd2
    rw [← b1.nState, ← b2.nState]
    exact (same_layout h.variant h.sound1.hash h.sound2.hash b1.ready.layout b2.ready.layout
      (fun s => by rw [b1.ty s, b2.ty s]; exact hw.ty s)).nState.symm
  obtain ⟨g1, b1, q1⟩ := head_ok h.sound1 hd1 hty (fun e => hpos (.inl e)) h1
  obtain ⟨g2, b2, q2⟩ := head_ok h.sound2 hd2 hty2 (fun e => by rw [hsize]; exact hpos (.inr e)) h2
  have hview : SameView m1.w m2.w := by
    refine sameView_of (fun s => ?_) (fun b => ?_)
    · have hty : (m1.w.sig s).ty = (m2.w.sig s).ty := by rw [b1.ty s, b2.ty s]; exact hw.ty s
      by_cases hl : c1.Links s
      · have u1 := b1.cleared s hl
        have u2 := b2.cleared s ((h.variant.links s).1 hl)
        exact ⟨hty, by rw [u1, u2], fun e => by rw [u1] at e; cases e⟩
      · rw [b1.other s hl, b2.other s (fun e => hl ((h.variant.links s).2 e))]
        exact hw.cell s
    · rw [q1 (fun e => hq (.inl e)), q2 (fun e l hl => by
        rw [← hw.mem]; exact hq (.inr e) l (h.variant.leaves.mem_iff.2 hl))]
      exact hw.mem b
  have hl := same_layout h.variant h.sound1.hash h.sound2.hash g1.ready.layout g2.ready.layout hview.ty
  have o1 := g1.ready.layout.statesOk h.sound1.hash
  obtain ⟨idx, p1, p2, p3⟩ := exists_idx (K := K) (size := m1.w.size) o1.nodup hl.scalar hl.array
  refine ⟨idx, ⟨hview, g1, g2, by rw [b1.time, b2.time], p1, by rw [p2, o1.slots], p3, ?_⟩, fun l hl s hs => b1.cleared s (h.sound1.drivers.outLink l hl s hs)⟩
  rw [b1.sv, b2.sv, hsize]
  by_cases h0 : stateSize c1 w1 = 0
  · rw [if_pos h0]
    refine .inr ⟨[], [], rfl, rfl, ?_⟩
    have : idx = [] := List.length_eq_zero_iff.1 (by rw [p2, ← o1.slots, b1.nState, h0])
    rw [this]
    exact ⟨rfl, fun j => rfl⟩
  · rw [if_neg h0]; exact .inl ⟨rfl, rfl⟩

/-- The last evaluation of `init`. -/
theorem init_last_tied (h : Coupled c1 c2) {m1 m2 : Machine K} (ht : Tied c1 c2 idx m1 m2) (hf : OutsFree c1 m1.w) (t0 : K) :
    EqvOut (fun _ _ => Tied c1 c2 idx) (processModel c1 t0 true true m1) (processModel c2 t0 true true m2) :=
  (process_tied h t0 true true m1 m2 ⟨⟨ht.view, ht.good1, ht.good2, hf⟩, fun e => by cases e⟩).mono (fun _ _ m1' m2' e1 e2 hq => by
    obtain ⟨g1, f1, y1⟩ := ht.good1.process e1
    obtain ⟨g2, f2, y2⟩ := ht.good2.process e2
    exact ht.next hq.1 g1 g2 f1 f2 y1)

theorem runs_tied (h : Coupled c1 c2) (as : List (RunArgs K)) : Eqv (Tied c1 c2 idx) (runs c1 as) (runs c2 as) (fun _ _ => Tied c1 c2 idx) := by
  induction as with
  | nil => exact Eqv.pure (fun _ _ h => h)
  | cons a as ih => exact Eqv.bind (run_tied h _ _ _ _) (fun _ _ => ih)

theorem Tied.agree {m1 m2 : Machine K} (ht : Tied c1 c2 idx m1 m2) : Agree m1 m2 := by
  refine ⟨ht.view, ht.time, ?_⟩
  rcases ht.sv with h | ⟨x1, x2, e1, e2, hx⟩
  · exact .inl h
  · obtain ⟨val, p1, p2⟩ := (ht.corr x1 x2).2 hx
    refine .inr ⟨x1, x2, val, e1, e2, p1, ?_⟩
    rw [← sameView_size ht.view]; exact p2

theorem EqvOut.outcome {r1 r2 : EStateM.Result Err (Machine K) Unit} (h : EqvOut (fun _ _ => Tied c1 c2 idx) r1 r2) : SameOutcome r1 r2 := by
  cases r1 <;> cases r2 <;> first | exact Tied.agree h | trivial

/-- Simulations with two variants of a configuration. -/
theorem simulate_head (h : Coupled c1 c2) {w : World K} {t t0 : K} (hs : Startable c1 c2 w) {m1 m2 : Machine K}
    (h1 : initHead c1 t0 (fresh w t) = .ok () m1) (h2 : initHead c2 t0 (fresh w t) = .ok () m2) (as : List (RunArgs K)) :
    SameOutcome (simulate c1 t0 as (fresh w t)) (simulate c2 t0 as (fresh w t)) := by
  obtain ⟨idx, ht, hf⟩ := head_tied h (SameView.refl w) hs.done hs.done hs.typed hs.states hs.quiet h1 h2
  unfold simulate
  rw [simInit_head, simInit_head, bind_assoc, bind_assoc, bind_of_ok h1, bind_of_ok h2]
  refine EqvOut.outcome (idx := idx) (c1 := c1) (c2 := c2) ?_
  exact Eqv.bind (P := fun a b => a = m1 ∧ b = m2) (R := fun _ _ => Tied c1 c2 idx)
    (by intro a b hab; rw [hab.1, hab.2]; exact init_last_tied h ht hf t0) (fun _ _ => runs_tied h as) m1 m2 ⟨rfl, rfl⟩

theorem head_of (hs : cfg.Sound) {w : World K} {t t0 : K} (hd : ∀ b, w.done b = false)
    (h : cfg.strategy = .fast → ∃ m', simInit cfg t0 (fresh w t) = .ok () m') : ∃ m', initHead cfg t0 (fresh w t) = .ok () m' := by
  by_cases e : cfg.strategy = .fast
  · obtain ⟨m', h⟩ := h e
    rw [simInit_head] at h
    obtain ⟨_, m1, h1, _⟩ := ok_bind h
    exact ⟨m1, h1⟩
  · exact head_succ hs hd e

/-- Simulations with two variants of a configuration; a `FastSimulator` must accept the model. -/
theorem simulate_same (h : Coupled c1 c2) {w : World K} {t t0 : K} (hs : Startable c1 c2 w)
    (h1 : c1.strategy = .fast → ∃ m', simInit c1 t0 (fresh w t) = .ok () m') (h2 : c2.strategy = .fast → ∃ m', simInit c2 t0 (fresh w t) = .ok () m')
    (as : List (RunArgs K)) : SameOutcome (simulate c1 t0 as (fresh w t)) (simulate c2 t0 as (fresh w t)) := by
  obtain ⟨m1, e1⟩ := head_of h.sound1 hs.done h1
  obtain ⟨m2, e2⟩ := head_of h.sound2 hs.done h2
  exact simulate_head h hs e1 e2 as

end Pooya
