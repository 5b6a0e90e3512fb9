import Verif.Proof.Tied

/-! Executions of two variants of a configuration, side by side: a whole run. -/

namespace Pooya

set_option linter.unusedSectionVars false

variable {K : Type} [Arith K] {c1 c2 cfg : Config K} {idx : List Nat}

theorem Config.Steady.variant (hv : c1.Variant c2) (h : c1.Steady) : c2.Steady :=
  ⟨fun t t' => by rw [← hv.inputKeys, ← hv.inputKeys]; exact h.inputs t t', fun l hl => h.assigns l (hv.leaves.mem_iff.2 hl),
    fun l hl s hs => by rw [← hv.deriv]; exact h.preOuts l (hv.leaves.mem_iff.2 hl) s hs⟩

theorem Coupled.symm (h : Coupled c1 c2) : Coupled c2 c1 :=
  ⟨h.variant.symm, h.sound2, h.sound1, fun hf => (h.steady hf.symm).variant h.variant⟩

theorem Coupled.steady2 (h : Coupled c1 c2) (hf : c1.strategy = .fast ∨ c2.strategy = .fast) : c2.Steady := (h.steady hf).variant h.variant

theorem Config.Sound.builders (h : cfg.Sound) : ∀ b ∈ cfg.model.all, b.isBuilder = false := by
  intro b hb
  cases b with
  | leaf l =>
    have := h.builder l ((leaf_mem_all _ l).2 hb)
    simp only [Block.isBuilder]
    cases hk : l.kind <;> simp [hk] at this ⊢
  | sub _ _ _ => rfl

/-- An initialised simulator between the parts of a run. -/
structure Good (cfg : Config K) (m : Machine K) : Prop where
  ready : Ready cfg m
  init : m.s.initialized = true
  po : cfg.strategy = .reuse → m.s.po ≠ none
  fast : cfg.strategy = .fast → cfg.FastOrder m.s.fast.flatten
  typed : cfg.Typed m.w

theorem Config.Typed.same {w w' : World K} (h : cfg.Typed w) (ht : SameTy w w') : cfg.Typed w' :=
  ⟨fun s hs => by rw [ht s]; exact h.float s hs, fun s d hd => by rw [ht s, ht d]; exact h.deriv s d hd⟩

theorem Good.next {m m' : Machine K} (g : Good cfg m) (r : Ready cfg m') (e : m'.s = { m.s with po := m'.s.po })
    (hpo : cfg.strategy = .reuse → m'.s.po ≠ none) (ht : SameTy m.w m'.w) : Good cfg m' :=
  ⟨r, by rw [e]; exact g.init, hpo, fun h => by rw [e]; exact g.fast h, g.typed.same ht⟩

theorem Good.keep {m m' : Machine K} (g : Good cfg m) (r : Ready cfg m') (e : m'.s = m.s) (ht : SameTy m.w m'.w) : Good cfg m' :=
  g.next r (by rw [e]) (fun h => by rw [e]; exact g.po h) ht

theorem Good.inW {α : Type} {x : M K α} {m m' : Machine K} {a : α} (g : Good cfg m) (h1 : Moves (KeepMid cfg) (inW x)) (h2 : Moves Fixed (inW x))
    (hx : inW x m = .ok a m') : Good cfg m' ∧ m'.s = m.s ∧ SameTy m.w m'.w := by
  have e := inW_sim x m
  rw [hx] at e
  have e : m'.s = m.s := e
  have hf := h2 m
  rw [hx] at hf
  have hf : Fixed m m' := hf
  exact ⟨g.keep (g.ready.step h1 h2 (by rw [e]) hx) e hf.ty, e, hf.ty⟩

theorem evalModel_po {t : K} {m m' : Machine K} (hst : cfg.strategy = .reuse) (h : evalModel cfg t m = .ok () m') : m'.s.po ≠ none := by
  unfold evalModel at h
  rw [hst] at h
  dsimp only at h
  obtain ⟨_, m1, h1, h2⟩ := ok_bind h
  rw [bind_apply] at h2
  simp only [getSim] at h2
  cases hp : m1.s.po with
  | none => rw [hp] at h2; cases h2
  | some po =>
    rw [hp] at h2
    dsimp only at h2
    obtain ⟨po', m2, h3, h4⟩ := ok_bind h2
    cases h4
    intro e
    cases e

theorem Good.process {t : K} {p q : Bool} {m m' : Machine K} (g : Good cfg m) (h : processModel cfg t p q m = .ok () m') :
    Good cfg m' ∧ m'.s = { m.s with po := m'.s.po } ∧ SameTy m.w m'.w := by
  obtain ⟨r, e⟩ := g.ready.process h
  have hf := (covers_fixed cfg).processModel t p q m
  rw [h] at hf
  have hf : Fixed m m' := hf
  refine ⟨g.next r e (fun hst => ?_) hf.ty, e, hf.ty⟩
  obtain ⟨w1, w2, m3, _, _, h3, h4⟩ := processModel_ok h
  have := evalModel_po hst h3
  cases q with
  | false => rw [if_neg (by simp)] at h4; rw [h4]; exact this
  | true =>
    rw [if_pos rfl] at h4
    obtain ⟨w4, _, e4⟩ := h4
    rw [e4]; exact this

theorem Good.record {m : Machine K} {e : Event K} (g : Good cfg m) : Good cfg (m.record e) := g.keep g.ready.record rfl (fun _ => rfl)

/-! ### Inputs, `pre_step`, `post_step` and evaluations -/

theorem applyInput_asg {l : List (SigId × Val K)} {e : Option Err} {dbg : Bool} {w w' : World K} (h : applyInput dbg l e w = .ok () w') :
    (∀ s ∈ l.map Prod.fst, (w'.sig s).assigned = true) ∧ ∀ s, (w.sig s).assigned = true → (w'.sig s).assigned = true := by
  induction l generalizing w with
  | nil =>
    unfold applyInput throwOpt at h
    cases e with
    | some e => cases h
    | none => cases h; exact ⟨by simp, fun _ h => h⟩
  | cons p l ih =>
    obtain ⟨s, v⟩ := p
    unfold applyInput at h
    obtain ⟨_, w1, h1, h2⟩ := ok_bind h
    have hw := setv_ok h1
    obtain ⟨i1, i2⟩ := ih h2
    have hs : (w1.sig s).assigned = true := by rw [hw]; simp [upd]
    refine ⟨fun s' hs' => ?_, fun s' hs' => i2 s' ?_⟩
    · simp only [List.map_cons, List.mem_cons] at hs'
      rcases hs' with e | hs'
      · rw [e]; exact i2 s hs
      · exact i1 s' hs'
    · by_cases e : s' = s
      · rw [e]; exact hs
      · rw [hw]; simp only [upd, e, if_false]; exact hs'

theorem inputs_asg {t : K} {w w' : World K} (h : callInputs cfg t w = .ok () w') :
    (∀ s ∈ cfg.inputKeys t, (w'.sig s).assigned = true) ∧ ∀ s, (w.sig s).assigned = true → (w'.sig s).assigned = true := by
  unfold callInputs at h
  obtain ⟨_, w1, h1, h2⟩ := ok_bind h
  cases h1
  unfold Config.inputKeys
  cases hi : cfg.inputs with
  | none =>
    rw [hi] at h2
    have h2 : applyInput cfg.dbg _ _ _ = .ok () w' := h2
    obtain ⟨i1, i2⟩ := applyInput_asg h2
    exact ⟨fun s hs => i1 s (by simpa using hs), i2⟩
  | some f =>
    rw [hi] at h2
    dsimp only at h2
    obtain ⟨_, w2, h3, h4⟩ := ok_bind h2
    obtain ⟨i1, i2⟩ := applyInput_asg h3
    obtain ⟨j1, j2⟩ := applyInput_asg h4
    refine ⟨fun s hs => ?_, fun s hs => j2 s (i2 s hs)⟩
    rcases List.mem_append.1 hs with hs | hs
    · exact j2 s (i1 s hs)
    · exact j1 s hs

/-- The outputs of activation functions are unassigned. -/
def OutsFree (cfg : Config K) (w : World K) : Prop := ∀ l ∈ cfg.model.leaves, ∀ s ∈ l.outs, (w.sig s).assigned = false

/-- The state variables are assigned. -/
def StatesSet (m : Machine K) : Prop := ∀ s ∈ m.s.scalarStates ++ m.s.arrayStates, (m.w.sig s).assigned = true

theorem Coupled.callInputs (h : Coupled c1 c2) (t : K) : Twin false SameView (callInputs c1 t) (callInputs c2 t) := by
  have e : Pooya.callInputs c2 t = Pooya.callInputs c1 t := by
    unfold Pooya.callInputs
    rw [h.variant.dbg, h.variant.inputs, h.variant.modelInput]
  rw [e]
  have vc : TwinCore (K := K) false SameView c1.dbg c1.dbg := by rw [h.sound1.dbg]; exact view_core
  exact vc.callInputs rfl t

theorem Coupled.preStep (h : Coupled c1 c2) (t : K) :
    Eqv SameView (c1.model.preStep c1.dbg t) (c2.model.preStep c2.dbg t) (fun _ _ => SameView) := by
  rw [h.sound1.dbg, h.sound2.dbg, preStep_eq, preStep_eq]
  exact preAll_perm t h.variant.leaves h.sound1.proper.leafNodup h.sound1.drivers.prePre

theorem Coupled.postStep (h : Coupled c1 c2) (t : K) :
    Eqv SameView (c1.model.postStep c1.dbg t) (c2.model.postStep c2.dbg t) (fun _ _ => SameView) := by
  rw [h.sound1.dbg, h.sound2.dbg, postStep_eq, postStep_eq]
  exact postAll_perm t h.variant.leaves h.sound1.proper.leafNodup

theorem Eqv.inW {α : Type} {x y : M K α} {Q : α → α → Prop} {P : World K → World K → Prop} (h : Eqv P x y (fun a b w1 w2 => Q a b ∧ P w1 w2)) :
    Eqv (fun m1 m2 : Machine K => P m1.w m2.w) (inW x) (inW y)
      (fun a b m1' m2' => Q a b ∧ P m1'.w m2'.w) := by
  intro m1 m2 hp
  have := h m1.w m2.w hp
  unfold Pooya.inW
  cases hx : x m1.w <;> cases hy : y m2.w <;> rw [hx, hy] at this <;> exact this

/-- The conditions of an evaluation. -/
structure Before (c1 c2 : Config K) (m1 m2 : Machine K) : Prop where
  view : SameView m1.w m2.w
  good1 : Good c1 m1
  good2 : Good c2 m2
  free : OutsFree c1 m1.w

theorem Coupled.outs (h : Coupled c1 c2) {w1 w2 : World K} (hw : SameView w1 w2) (hf : OutsFree c1 w1) : OutsFree c2 w2 := fun l hl s hs => by
  rw [← hw.assigned]; exact hf l (h.variant.leaves.mem_iff.2 hl) s hs

theorem inW_ex {α : Type} {x : M K α} {m m' : Machine K} {a : α} (h : inW x m = .ok a m') : x m.w = .ok a m'.w ∧ m'.s = m.s := by
  obtain ⟨w', h1, h2⟩ := inW_ok h
  subst h2
  exact ⟨h1, rfl⟩

/-- Inputs on both sides. -/
theorem inputs_tied (h : Coupled c1 c2) (t : K) (p : Bool) :
    Eqv (fun m1 m2 => Before c1 c2 m1 m2 ∧ (p = false → StatesSet m1)) (inW (callInputs c1 t)) (inW (callInputs c2 t))
      (fun _ _ m1 m2 => Before c1 c2 m1 m2 ∧ (p = false → StatesSet m1) ∧ ∀ s ∈ c1.inputKeys t, (m1.w.sig s).assigned = true) := by
  intro m1 m2 ⟨hb, hs⟩
  have := (Eqv.ofTwin (h.callInputs t)).inW m1 m2 hb.view
  refine this.mono (fun a b m1' m2' e1 e2 hq => ?_)
  obtain ⟨g1, s1, t1⟩ := hb.good1.inW ((covers_mid c1).inputs t) ((covers_fixed c1).inputs t) e1
  obtain ⟨g2, s2, t2⟩ := hb.good2.inW ((covers_mid c2).inputs t) ((covers_fixed c2).inputs t) e2
  obtain ⟨x1, _⟩ := inW_ex e1
  obtain ⟨i1, i2⟩ := inputs_asg x1
  refine ⟨⟨hq.2, g1, g2, fun l hl s hs => ?_⟩, fun hp s hs' => ?_, i1⟩
  · rw [inputs_sig x1 (h.sound1.drivers.outInput l hl s hs t)]
    exact hb.free l hl s hs
  · rw [s1] at hs'
    exact i2 s (hs hp s hs')

/-- `pre_step` on both sides. -/
theorem pre_tied (h : Coupled c1 c2) (t : K) :
    Eqv (fun m1 m2 => Before c1 c2 m1 m2 ∧ ∀ s ∈ c1.inputKeys t, (m1.w.sig s).assigned = true)
      (inW (c1.model.preStep c1.dbg t)) (inW (c2.model.preStep c2.dbg t))
      (fun _ _ m1 m2 => Before c1 c2 m1 m2 ∧ (c1.Steady → ∀ l ∈ c1.model.leaves, ∀ s ∈ l.preOuts, (m1.w.sig s).assigned = true) ∧
        ∀ s ∈ c1.inputKeys t, (m1.w.sig s).assigned = true) := by
  intro m1 m2 ⟨hb, hs⟩
  have := ((h.preStep t).weaken (fun _ _ h => h) (fun _ _ _ _ h => ⟨trivial, h⟩)).inW (Q := fun _ _ => True) m1 m2 hb.view
  refine this.mono (fun a b m1' m2' e1 e2 hq => ?_)
  obtain ⟨g1, s1, t1⟩ := hb.good1.inW ((covers_mid c1).pre t) ((covers_fixed c1).pre t) e1
  obtain ⟨g2, s2, t2⟩ := hb.good2.inW ((covers_mid c2).pre t) ((covers_fixed c2).pre t) e2
  obtain ⟨x1, _⟩ := inW_ex e1
  have hsig : ∀ s, (∀ l ∈ c1.model.leaves, s ∉ l.preOuts) → m1'.w.sig s = m1.w.sig s := fun s hs => by
    rw [preStep_eq] at x1
    exact preAll_sig x1 hs
  refine ⟨⟨hq.2, g1, g2, fun l hl s hs => ?_⟩, fun hst l hl s hs' => ?_, fun s hs' => ?_⟩
  · rw [hsig s (fun l' hl' => h.sound1.drivers.outPre l hl l' hl' s hs)]
    exact hb.free l hl s hs
  · exact (preStep_integ h.sound1.proper hl (hst.preOuts l hl s hs').1
      (fun l' hl' ho => h.sound1.drivers.prePre l' hl' l hl s ho hs') x1).1
  · rw [hsig s (fun l hl ho => h.sound1.drivers.preInput l hl s ho t hs')]
    exact hs s hs'

theorem Before.evaluable1 (h : Coupled c1 c2) {m1 m2 : Machine K} (hb : Before c1 c2 m1 m2) : Evaluable c1 m1 :=
  ⟨h.sound1.proper, h.sound1.builders, fun hst => ⟨mid_inv c1 h.sound1.proper hb.good1.ready.mid, hb.good1.po hst⟩,
    fun hst => ⟨hb.good1.fast hst, (h.steady (.inl hst)).assigns⟩⟩

theorem Before.symm (h : Coupled c1 c2) {m1 m2 : Machine K} (hb : Before c1 c2 m1 m2) : Before c2 c1 m2 m1 :=
  ⟨hb.view.symm, hb.good2, hb.good1, h.outs hb.view hb.free⟩

/-- Evaluations on both sides. -/
theorem eval_tied (h : Coupled c1 c2) (t : K) :
    Eqv (fun m1 m2 => Before c1 c2 m1 m2 ∧ (c1.Steady → ∀ l ∈ c1.model.leaves, ∀ s ∈ l.preOuts, (m1.w.sig s).assigned = true) ∧
        ∀ s ∈ c1.inputKeys t, (m1.w.sig s).assigned = true) (evalModel c1 t) (evalModel c2 t) (fun _ _ m1 m2 => SameView m1.w m2.w) := by
  intro m1 m2 ⟨hb, hpre, hin⟩
  have sup : ∀ (ca : Config K), c1.Variant ca → c1.Steady → ∀ w, (∀ s, (m1.w.sig s).assigned = true → (w.sig s).assigned = true) → Supplied ca w := by
    intro ca hv hst w hw s hs _
    refine hw s ?_
    rcases hs with ⟨t', ht'⟩ | ⟨l, hl, hl'⟩
    · exact hin s (by rw [hst.inputs t t', hv.inputKeys]; exact ht')
    · exact hpre hst l (hv.leaves.mem_iff.2 hl) s hl'
  have hrefl : c1.Variant c1 := ⟨rfl, List.Perm.refl _, fun _ => Iff.rfl, rfl, rfl, rfl, rfl⟩
  have := eval_any c1 c2 h.variant.dbg h.variant.leaves h.sound1.wired (hb.evaluable1 h) ((hb.symm h).evaluable1 h.symm) hb.view hb.free
    (fun hst => sup c1 hrefl (h.steady (.inl hst)) m1.w (fun _ h => h))
    (fun hst => sup c2 h.variant (h.steady (.inr hst)) m2.w (fun s hs => by rw [← hb.view.assigned]; exact hs)) t
  cases hx : evalModel c1 t m1 <;> cases hy : evalModel c2 t m2 <;> rw [hx, hy] at this <;> exact this

theorem good_state {m : Machine K} (g : Good cfg m) (hash : ∀ l, (cfg.hash l).Perm l) {s : SigId} (hl : cfg.Links s) (hd : (cfg.deriv s).isSome) :
    s ∈ m.s.scalarStates ++ m.s.arrayStates := by
  have hm := mem_linkedSigs cfg s hl
  rcases g.typed.float s hd with ht | ht
  · refine List.mem_append_left _ ?_
    rw [g.ready.layout.scalarStates, (hash _).mem_iff]
    simp only [scalarStatesOf, List.mem_filter, Bool.and_eq_true, decide_eq_true_eq]
    exact ⟨hm, ht, hd⟩
  · refine List.mem_append_right _ ?_
    rw [g.ready.layout.arrayStates, (hash _).mem_iff]
    simp only [arrayStatesOf, List.mem_filter, Bool.and_eq_true]
    exact ⟨hm, ht, hd⟩

/-- `process_model` on both sides. -/
theorem process_tied (h : Coupled c1 c2) (t : K) (p q : Bool) :
    Eqv (fun m1 m2 => Before c1 c2 m1 m2 ∧ (p = false → StatesSet m1)) (processModel c1 t p q) (processModel c2 t p q)
      (fun _ _ m1 m2 => SameView m1.w m2.w ∧ Good c1 m1 ∧ Good c2 m2) := by
  have h2 : Eqv (fun m1 m2 => Before c1 c2 m1 m2 ∧ (c1.Steady → ∀ l ∈ c1.model.leaves, ∀ s ∈ l.preOuts, (m1.w.sig s).assigned = true) ∧
        ∀ s ∈ c1.inputKeys t, (m1.w.sig s).assigned = true)
      (do evalModel c1 t
          if q then inW (c1.model.postStep c1.dbg t) else pure ())
      (do evalModel c2 t
          if q then inW (c2.model.postStep c2.dbg t) else pure ()) (fun _ _ m1 m2 => SameView m1.w m2.w) := by
    refine Eqv.bind (eval_tied h t) (fun _ _ => ?_)
    cases q with
    | false => exact Eqv.pure (fun _ _ h => h)
    | true =>
      have := ((h.postStep t).weaken (fun _ _ h => h) (fun _ _ _ _ h => ⟨trivial, h⟩)).inW (Q := fun _ _ => True)
      exact this.weaken (fun _ _ h => h) (fun _ _ _ _ h => h.2)
  have h3 : Eqv (fun m1 m2 => Before c1 c2 m1 m2 ∧ (p = false → StatesSet m1)) (processModel c1 t p q) (processModel c2 t p q)
      (fun _ _ m1 m2 => SameView m1.w m2.w) := by
    unfold processModel
    refine Eqv.bind (inputs_tied h t p) (fun _ _ => ?_)
    cases p with
    | true =>
      simp only [if_true]
      exact Eqv.bind ((pre_tied h t).weaken (fun _ _ h => ⟨h.1, h.2.2⟩) (fun _ _ _ _ h => h)) (fun _ _ => h2)
    | false =>
      simp only [Bool.false_eq_true, if_false]
      refine h2.weaken (fun m1 m2 hh => ⟨hh.1, fun hst l hl s hs => ?_, hh.2.2⟩) (fun _ _ _ _ h => h)
      exact hh.2.1 trivial s (good_state hh.1.good1 h.sound1.hash (h.sound1.drivers.preLink l hl s hs) (hst.preOuts l hl s hs).2)
  intro m1 m2 hh
  exact (h3 m1 m2 hh).mono (fun _ _ m1' m2' e1 e2 hq => ⟨hq, (hh.1.good1.process e1).1, (hh.1.good2.process e2).1⟩)

/-! ### Whole runs -/

/-- The two simulators between the parts of a run: the diagrams look the same, and the state vector of the second is the one of the first,
rearranged by `idx`. -/
structure Tied (c1 c2 : Config K) (idx : List Nat) (m1 m2 : Machine K) : Prop where
  view : SameView m1.w m2.w
  good1 : Good c1 m1
  good2 : Good c2 m2
  time : m1.s.tPrev = m2.s.tPrev
  perm : idx.Perm (List.range idx.length)
  len : idx.length = m1.s.nState
  corr : ∀ x1 x2 : List K, Corr m1.w.size m1.s.scalarStates m1.s.arrayStates m2.s.scalarStates m2.s.arrayStates x1 x2 ↔ Rearranged idx x1 x2
  sv : (m1.s.sv = none ∧ m2.s.sv = none) ∨ ∃ x1 x2, m1.s.sv = some x1 ∧ m2.s.sv = some x2 ∧ Rearranged idx x1 x2

theorem Tied.layout (h : Coupled c1 c2) {m1 m2 : Machine K} (ht : Tied c1 c2 idx m1 m2) : SameLayout m1.s m2.s :=
  same_layout h.variant h.sound1.hash h.sound2.hash ht.good1.ready.layout ht.good2.ready.layout ht.view.ty

theorem Tied.next {m1 m2 m1' m2' : Machine K} (ht : Tied c1 c2 idx m1 m2) (hv : SameView m1'.w m2'.w) (g1 : Good c1 m1') (g2 : Good c2 m2')
    (e1 : m1'.s = { m1.s with po := m1'.s.po }) (e2 : m2'.s = { m2.s with po := m2'.s.po }) (hty : SameTy m1.w m1'.w) : Tied c1 c2 idx m1' m2' := by
  refine ⟨hv, g1, g2, ?_, ht.perm, ?_, ?_, ?_⟩
  · rw [e1, e2]; exact ht.time
  · rw [e1]; exact ht.len
  · rw [e1, e2, ← same_size hty]; exact ht.corr
  · rw [e1, e2]; exact ht.sv

theorem Tied.keep {m1 m2 m1' m2' : Machine K} (ht : Tied c1 c2 idx m1 m2) (hv : SameView m1'.w m2'.w) (g1 : Good c1 m1') (g2 : Good c2 m2')
    (e1 : m1'.s = m1.s) (e2 : m2'.s = m2.s) (hty : SameTy m1.w m1'.w) : Tied c1 c2 idx m1' m2' :=
  ht.next hv g1 g2 (by rw [e1]) (by rw [e2]) hty

theorem Tied.lengths (h : Coupled c1 c2) {m1 m2 : Machine K} (ht : Tied c1 c2 idx m1 m2) {x1 x2 : List K} (hx : Rearranged idx x1 x2) :
    x1.length = slots m1.w.size m1.s.scalarStates m1.s.arrayStates ∧ x2.length = slots m2.w.size m2.s.scalarStates m2.s.arrayStates ∧
      x1.length = m1.s.nState ∧ x2.length = m2.s.nState := by
  obtain ⟨val, p1, p2⟩ := (ht.corr x1 x2).2 hx
  rw [p1.length, p2.length]
  have s1 := (ht.good1.ready.layout.statesOk h.sound1.hash).slots
  have s2 := (ht.good2.ready.layout.statesOk h.sound2.hash).slots
  rw [s1, s2, sameView_size ht.view]
  exact ⟨rfl, rfl, rfl, rfl⟩

/-- Resetting both diagrams to corresponding state vectors. -/
theorem reset_tied (h : Coupled c1 c2) {m1 m2 : Machine K} (ht : Tied c1 c2 idx m1 m2) {x1 x2 : List K} (hx : Rearranged idx x1 x2) :
    EqvOut (fun _ _ m1' m2' => Tied c1 c2 idx m1' m2' ∧ OutsFree c1 m1'.w ∧ StatesSet m1') (resetWith c1 x1 m1) (resetWith c2 x2 m2) := by
  obtain ⟨l1, l2, _, _⟩ := ht.lengths h hx
  have o1 := ht.good1.ready.layout.statesOk h.sound1.hash
  have o2 := ht.good2.ready.layout.statesOk h.sound2.hash
  obtain ⟨m1', e1⟩ := resetWith_succ (cfg := c1) o1.nodup o1.linked o1.scalar o1.array l1
  obtain ⟨m2', e2⟩ := resetWith_succ (cfg := c2) o2.nodup o2.linked o2.scalar o2.array l2
  rw [e1, e2]
  obtain ⟨r1, s1⟩ := ht.good1.ready.reset e1
  obtain ⟨r2, s2⟩ := ht.good2.ready.reset e2
  obtain ⟨a1, a2, a3, a4, a5⟩ := resetWith_holds o1.nodup l1 e1
  obtain ⟨b1, b2, b3, b4, b5⟩ := resetWith_holds o2.nodup l2 e2
  have hl := ht.layout h
  have hmem : ∀ s, s ∈ m1.s.scalarStates ++ m1.s.arrayStates ↔ s ∈ m2.s.scalarStates ++ m2.s.arrayStates := fun s => by
    rw [List.mem_append, List.mem_append, hl.scalar.mem_iff, hl.array.mem_iff]
  obtain ⟨val, p1, p2⟩ := (ht.corr x1 x2).2 hx
  have hview : SameView m1'.w m2'.w := by
    refine sameView_of (fun s => ?_) (fun b => ?_)
    · have hty : (m1'.w.sig s).ty = (m2'.w.sig s).ty := by rw [a5, b5]; exact ht.view.ty s
      by_cases hs : s ∈ m1.s.scalarStates ++ m1.s.arrayStates
      · have hs2 := (hmem s).1 hs
        refine ⟨hty, by rw [a2 s hs, b2 s hs2], fun _ => ?_⟩
        have q1 : Packed m1'.w.val m1.w.size m1.s.scalarStates m1.s.arrayStates x1 := by
          have : Packed m1'.w.val m1'.w.size m1'.s.scalarStates m1'.s.arrayStates x1 := a1
          rw [s1] at this
          exact this.congr (fun _ _ => rfl) (fun s _ => by show (m1.w.sig s).ty.size = (m1'.w.sig s).ty.size; rw [a5])
        have q2 : Packed m2'.w.val m1.w.size m2.s.scalarStates m2.s.arrayStates x2 := by
          have : Packed m2'.w.val m2'.w.size m2'.s.scalarStates m2'.s.arrayStates x2 := b1
          rw [s2] at this
          exact this.congr (fun _ _ => rfl) (fun s _ => by show (m1.w.sig s).ty.size = (m2'.w.sig s).ty.size; rw [b5, ht.view.ty s])
        have v1 := packed_inj q1 p1 s hs
        have v2 := packed_inj q2 p2 s hs2
        show m1'.w.val s = m2'.w.val s
        rw [v1, v2]
      · have hs2 : s ∉ m2.s.scalarStates ++ m2.s.arrayStates := fun h => hs ((hmem s).2 h)
        by_cases hv : s ∈ m1.s.valueSigs
        · have u1 := a3 s hv hs
          have u2 := b3 s ((hl.value s).1 hv) hs2
          exact ⟨hty, by rw [u1, u2], fun hh => by rw [u1] at hh; cases hh⟩
        · rw [a4 s hv hs, b4 s (fun h => hv ((hl.value s).2 h)) hs2]
          exact ht.view.cell s
    · rw [reset_mem e1, reset_mem e2]; exact ht.view.mem b
  refine ⟨ht.keep hview (ht.good1.keep r1 s1 a5) (ht.good2.keep r2 s2 b5) s1 s2 a5, fun l hl' s hs => ?_, fun s hs => ?_⟩
  · refine a3 s ?_ (fun hst => ?_)
    · rw [ht.good1.ready.layout.valueSigs, (h.sound1.hash _).mem_iff]
      exact mem_linkedSigs c1 s (h.sound1.drivers.outLink l hl' s hs)
    · have := (state_sig ht.good1.ready.layout h.sound1.hash hst).2
      rw [h.sound1.drivers.outState l hl' s hs] at this
      cases this
  · rw [s1] at hs; exact a2 s hs

/-- Resetting and evaluating. -/
theorem evalAt_tied (h : Coupled c1 c2) {m1 m2 : Machine K} (ht : Tied c1 c2 idx m1 m2) {x1 x2 : List K} (hx : Rearranged idx x1 x2) (t : K) (q : Bool) :
    EqvOut (fun _ _ m1' m2' => Tied c1 c2 idx m1' m2')
      ((do resetWith c1 x1; processModel c1 t false q) m1) ((do resetWith c2 x2; processModel c2 t false q) m2) := by
  refine Eqv.bind (P := fun a b => a = m1 ∧ b = m2) (R := fun _ _ m1' m2' => Tied c1 c2 idx m1' m2' ∧ OutsFree c1 m1'.w ∧ StatesSet m1') ?_ ?_ m1 m2 ⟨rfl, rfl⟩
  · rintro _ _ ⟨rfl, rfl⟩; exact reset_tied h ht hx
  · intro _ _ n1 n2 ⟨tt, hf, hs⟩
    refine (process_tied h t false q n1 n2 ⟨⟨tt.view, tt.good1, tt.good2, hf⟩, fun _ => hs⟩).mono (fun _ _ n1' n2' e1 e2 hq => ?_)
    obtain ⟨g1, f1, y1⟩ := tt.good1.process e1
    obtain ⟨g2, f2, y2⟩ := tt.good2.process e2
    exact tt.next hq.1 g1 g2 f1 f2 y1

/-- The right-hand side. -/
theorem minor_tied (h : Coupled c1 c2) {m1 m2 : Machine K} (ht : Tied c1 c2 idx m1 m2) {x1 x2 : List K} (hx : Rearranged idx x1 x2) (t : K) :
    EqvOut (fun d1 d2 m1' m2' => Tied c1 c2 idx m1' m2' ∧ Rearranged idx d1 d2) (minorCb c1 t x1 m1) (minorCb c2 t x2 m2) := by
  have e : ∀ (c : Config K) (x : List K), minorCb c t x = ((do resetWith c x; processModel c t false false) >>= fun _ => getDerivs c) := fun c x => by
    unfold minorCb; simp only [bind_assoc]
  rw [e, e]
  refine Eqv.bind (P := fun a b => a = m1 ∧ b = m2) (R := fun _ _ m1' m2' => Tied c1 c2 idx m1' m2') ?_ ?_ m1 m2 ⟨rfl, rfl⟩
  · rintro _ _ ⟨rfl, rfl⟩; exact evalAt_tied h ht hx t false
  · intro _ _ n1 n2 tt
    refine (getDerivs_tied h.sound1.dbg h.sound2.dbg h.variant.deriv tt.view (tt.layout h)
      (fun s hs => (state_sig tt.good1.ready.layout h.sound1.hash hs).2) tt.good1.typed.deriv).mono ?_
    rintro d1 d2 n1' n2' _ _ ⟨rfl, rfl, hc⟩
    exact ⟨tt, (tt.corr d1 d2).1 hc⟩

/-- The stepper. -/
theorem exec_tied (h : Coupled c1 c2) {p1 p2 : StepProg K} (hp : p1.Related (Rearranged idx) p2) :
    Eqv (Tied c1 c2 idx) (p1.exec (minorCb c1)) (p2.exec (minorCb c2))
      (fun r1 r2 m1 m2 => Tied c1 c2 idx m1 m2 ∧ Rearranged idx r1.1 r2.1 ∧ r1.2 = r2.2) := by
  induction p1 generalizing p2 with
  | ret v hh =>
    cases p2 with
    | ret v' hh' => exact Eqv.pure (fun _ _ ht => ⟨ht, hp.1, hp.2⟩)
    | call _ _ _ => exact hp.elim
  | call t v k ih =>
    cases p2 with
    | ret _ _ => exact hp.elim
    | call t' v' k' =>
      obtain ⟨rfl, hv, hk⟩ := hp
      unfold StepProg.exec
      refine Eqv.bind (R := fun d1 d2 m1 m2 => Tied c1 c2 idx m1 m2 ∧ Rearranged idx d1 d2) (fun m1 m2 ht => minor_tied h ht hv t) (fun d1 d2 => ?_)
      intro n1 n2 ⟨tt, hd⟩
      exact ih d1 (hk d1 d2 hd) n1 n2 tt

/-- The diagram after clearing all signals. -/
def cleared (m : Machine K) : Machine K :=
  { m with w := { m.w with sig := fun s => if s ∈ m.s.valueSigs then { m.w.sig s with assigned := false } else m.w.sig s } }

/-- Starting a step. -/
theorem begin_tied (h : Coupled c1 c2) (t : K) : Eqv (Tied c1 c2 idx) (beginStep c1 t) (beginStep c2 t)
    (fun x1 x2 m1 m2 => Tied c1 c2 idx m1 m2 ∧ Rearranged idx x1 x2) := by
  intro m1 m2 ht
  have e : ∀ (c : Config K), beginStep c t = ((do let s ← getSim; inW (clearAll s.valueSigs)) >>= fun _ => (inW (callInputs c t)) >>= fun _ =>
      (inW (c.model.preStep c.dbg t)) >>= fun _ => getStates c) := fun c => by
    unfold beginStep; simp only [bind_assoc]
  rw [e, e]
  have hl := ht.layout h
  refine Eqv.bind (P := fun a b => a = m1 ∧ b = m2) (R := fun _ _ n1 n2 => Before c1 c2 n1 n2 ∧ Tied c1 c2 idx n1 n2) ?_ ?_ m1 m2 ⟨rfl, rfl⟩
  · intro a b hab
    rw [hab.1, hab.2]
    have x1 : (do let s ← getSim; inW (clearAll s.valueSigs) : MM K Unit) m1 = .ok () (cleared m1) := by
      rw [bind_apply]; simp only [getSim]; unfold Pooya.inW; rw [clearAll_ok]; rfl
    have x2 : (do let s ← getSim; inW (clearAll s.valueSigs) : MM K Unit) m2 = .ok () (cleared m2) := by
      rw [bind_apply]; simp only [getSim]; unfold Pooya.inW; rw [clearAll_ok]; rfl
    have r1 := ht.good1.ready.step (m' := cleared m1) (covers_mid c1).clear (covers_fixed c1).clear rfl x1
    have r2 := ht.good2.ready.step (m' := cleared m2) (covers_mid c2).clear (covers_fixed c2).clear rfl x2
    have f1 := (covers_fixed c1).clear m1
    have f2 := (covers_fixed c2).clear m2
    rw [x1] at f1
    rw [x2] at f2
    rw [x1, x2]
    generalize hn1 : cleared m1 = n1 at *
    generalize hn2 : cleared m2 = n2 at *
    have f1 : Fixed m1 n1 := f1
    have f2 : Fixed m2 n2 := f2
    have s1 : n1.s = m1.s := by rw [← hn1]; rfl
    have s2 : n2.s = m2.s := by rw [← hn2]; rfl
    have g1 := ht.good1.keep r1 s1 f1.ty
    have g2 := ht.good2.keep r2 s2 f2.ty
    have hview : SameView n1.w n2.w := by
      rw [← hn1, ← hn2]
      unfold cleared
      refine sameView_of (fun s => ?_) ht.view.mem
      dsimp only
      by_cases hv : s ∈ m1.s.valueSigs
      · rw [if_pos hv, if_pos ((hl.value s).1 hv)]
        exact ⟨ht.view.ty s, rfl, fun hh => by cases hh⟩
      · rw [if_neg hv, if_neg (fun hh => hv ((hl.value s).2 hh))]
        exact ht.view.cell s
    refine ⟨⟨hview, g1, g2, fun l hl' s hs => ?_⟩, ht.keep hview g1 g2 s1 s2 f1.ty⟩
    rw [← hn1]
    unfold cleared
    dsimp only
    rw [if_pos]
    rw [ht.good1.ready.layout.valueSigs, (h.sound1.hash _).mem_iff]
    exact mem_linkedSigs c1 s (h.sound1.drivers.outLink l hl' s hs)
  · intro _ _
    refine Eqv.bind (R := fun _ _ n1 n2 => (Before c1 c2 n1 n2 ∧ ∀ s ∈ c1.inputKeys t, (n1.w.sig s).assigned = true) ∧ Tied c1 c2 idx n1 n2) ?_ (fun _ _ => ?_)
    · intro n1 n2 ⟨hb, tt⟩
      refine (inputs_tied h t true n1 n2 ⟨hb, fun e => by cases e⟩).mono (fun _ _ n1' n2' e1 e2 hq => ?_)
      obtain ⟨g1, s1, y1⟩ := tt.good1.inW ((covers_mid c1).inputs t) ((covers_fixed c1).inputs t) e1
      obtain ⟨g2, s2, y2⟩ := tt.good2.inW ((covers_mid c2).inputs t) ((covers_fixed c2).inputs t) e2
      exact ⟨⟨hq.1, hq.2.2⟩, tt.keep hq.1.view g1 g2 s1 s2 y1⟩
    refine Eqv.bind (R := fun _ _ n1 n2 => Tied c1 c2 idx n1 n2) ?_ (fun _ _ => ?_)
    · intro n1 n2 ⟨hb, tt⟩
      refine (pre_tied h t n1 n2 hb).mono (fun _ _ n1' n2' e1 e2 hq => ?_)
      obtain ⟨g1, s1, y1⟩ := tt.good1.inW ((covers_mid c1).pre t) ((covers_fixed c1).pre t) e1
      obtain ⟨g2, s2, y2⟩ := tt.good2.inW ((covers_mid c2).pre t) ((covers_fixed c2).pre t) e2
      exact tt.keep hq.1.view g1 g2 s1 s2 y1
    · intro n1 n2 tt
      refine (getStates_tied h.sound1.dbg h.sound2.dbg tt.view (tt.layout h) (by
        rw [tt.good1.ready.sized.1, tt.good2.ready.sized.1, (tt.layout h).nState])).mono ?_
      rintro y1 y2 n1' n2' _ _ ⟨rfl, rfl, hc⟩
      exact ⟨tt, (tt.corr y1 y2).1 hc⟩

theorem Tied.record {m1 m2 : Machine K} {e : Event K} (ht : Tied c1 c2 idx m1 m2) : Tied c1 c2 idx (m1.record e) (m2.record e) :=
  ht.keep (sameView_of ht.view.cell ht.view.mem) ht.good1.record ht.good2.record rfl rfl (fun _ => rfl)

theorem emit_tied (e : Event K) : Eqv (Tied c1 c2 idx) (inW (emit e)) (inW (emit e)) (fun _ _ => Tied c1 c2 idx) :=
  fun _ _ ht => ht.record

theorem setSv_tied (h : Coupled c1 c2) {x1 x2 : List K} (hx : Rearranged idx x1 x2) :
    Eqv (Tied c1 c2 idx) (setSim (fun s : Sim K => { s with sv := some x1 })) (setSim (fun s : Sim K => { s with sv := some x2 })) (fun _ _ => Tied c1 c2 idx) := by
  intro m1 m2 ht
  obtain ⟨_, _, l1, l2⟩ := ht.lengths h hx
  exact ⟨ht.view, ⟨ht.good1.ready.withSv l1, ht.good1.init, ht.good1.po, ht.good1.fast, ht.good1.typed⟩,
    ⟨ht.good2.ready.withSv l2, ht.good2.init, ht.good2.po, ht.good2.fast, ht.good2.typed⟩, ht.time, ht.perm, ht.len, ht.corr, .inr ⟨x1, x2, rfl, rfl, hx⟩⟩

theorem setTime_tied (t : K) :
    Eqv (Tied c1 c2 idx) (setSim (fun s : Sim K => { s with tPrev := t })) (setSim (fun s : Sim K => { s with tPrev := t })) (fun _ _ => Tied c1 c2 idx) := by
  intro m1 m2 ht
  have g : ∀ {c : Config K} {m : Machine K}, Good c m → Good c { m with s := { m.s with tPrev := t } } := fun {c m} g =>
    ⟨⟨.other _ g.ready.mid rfl rfl rfl, ⟨g.ready.layout.valueSigs, g.ready.layout.scalarStates, g.ready.layout.arrayStates, g.ready.layout.nState⟩,
      g.ready.sized⟩, g.init, g.po, g.fast, g.typed⟩
  exact ⟨ht.view, g ht.good1, g ht.good2, rfl, ht.perm, ht.len, ht.corr, ht.sv⟩

/-- The loop over sub-steps. -/
theorem subLoop_tied (h : Coupled c1 c2) (t minH maxH : K) (n : Nat) (t1 t2 : K) (force : Bool) :
    Eqv (Tied c1 c2 idx) (subLoop c1 t minH maxH n t1 t2 force) (subLoop c2 t minH maxH n t1 t2 force) (fun _ _ => Tied c1 c2 idx) := by
  induction n generalizing t1 t2 force with
  | zero => unfold subLoop; exact Eqv.throw
  | succ n ih =>
    unfold subLoop
    by_cases hlt : (!(t1 <. t)) = true
    · rw [if_pos hlt, if_pos hlt]; exact Eqv.pure (fun _ _ h => h)
    rw [if_neg hlt, if_neg hlt]
    refine Eqv.bind (begin_tied h t1) (fun x1 x2 => ?_)
    intro m1 m2 ⟨ht, hx⟩
    refine Eqv.bind (emit_tied _) (fun _ _ => ?_) m1 m2 ht
    rw [← h.variant.stepper]
    cases hst : c1.stepper with
    | none => exact Eqv.throw
    | some st =>
      dsimp only
      refine Eqv.bind (exec_tied h (h.sound1.equivariant st hst idx ht.perm t1 t2 x1 x2 hx)) (fun r1 r2 => ?_)
      intro n1 n2 ⟨tt, hr, he⟩
      rw [he]
      refine Eqv.bind (setSv_tied h hr) (fun _ _ => ?_) n1 n2 tt
      split
      · refine Eqv.bind (emit_tied _) (fun _ _ => ?_)
        split
        · have := ih t2 (fmin (t2 +. fmax minH (fmin r2.2 maxH)) t) false
          have h5 : Eqv (Tied c1 c2 idx) (do resetWith c1 r1.1; processModel c1 t2 false true) (do resetWith c2 r2.1; processModel c2 t2 false true)
            (fun _ _ => Tied c1 c2 idx) := fun _ _ hh => evalAt_tied h hh hr t2 true
          have h6 := Eqv.bind h5 (fun _ _ => this)
          simp only [bind_assoc] at h6
          exact h6
        · exact ih _ _ _
      · exact ih _ _ _

theorem verify_tied (b b' : Bool) (e : Exc) : Eqv (Tied c1 c2 idx) (debugVerify b b' e) (debugVerify b b' e) (fun _ _ => Tied c1 c2 idx) := by
  unfold debugVerify
  split
  · exact Eqv.throw
  · exact Eqv.pure (fun _ _ h => h)

theorem advance_tied (h : Coupled c1 c2) (n : Nat) (t minH maxH : K) :
    Eqv (Tied c1 c2 idx) (advance c1 n t minH maxH) (advance c2 n t minH maxH) (fun _ _ => Tied c1 c2 idx) := by
  intro m1 m2 ht
  unfold advance
  rw [bind_apply, bind_apply]
  simp only [getSim]
  rw [← ht.time, ← h.variant.stepper, ← h.variant.dbg]
  split
  · trivial
  · split
    · refine Eqv.bind (emit_tied _) (fun _ _ => ?_) m1 m2 ht
      refine Eqv.bind (begin_tied h t) (fun x1 x2 => ?_)
      intro n1 n2 ⟨tt, hx⟩
      exact setSv_tied h hx n1 n2 tt
    · exact Eqv.bind (verify_tied _ _ _) (fun _ _ => Eqv.bind (verify_tied _ _ _) (fun _ _ => Eqv.bind (verify_tied _ _ _) (fun _ _ =>
        subLoop_tied h t minH maxH n _ _ _))) m1 m2 ht

theorem finish_tied (h : Coupled c1 c2) (t : K) : Eqv (Tied c1 c2 idx) (finish c1 t) (finish c2 t) (fun _ _ => Tied c1 c2 idx) := by
  intro m1 m2 ht
  unfold finish
  rw [bind_apply, bind_apply]
  simp only [getSim]
  rcases ht.sv with ⟨e1, e2⟩ | ⟨x1, x2, e1, e2, hx⟩
  · rw [e1, e2]; trivial
  · rw [e1, e2]
    dsimp only
    obtain ⟨_, _, l1, l2⟩ := ht.lengths h hx
    have hl : decide (x2.length = 0) = decide (x1.length = 0) := by rw [l1, l2, (ht.layout h).nState]
    rw [hl]
    refine Eqv.bind (P := fun a b => a = m1 ∧ b = m2) (R := fun _ _ m1' m2' => Tied c1 c2 idx m1' m2' ∧ OutsFree c1 m1'.w ∧ StatesSet m1')
      (by rintro _ _ ⟨rfl, rfl⟩; exact reset_tied h ht hx) (fun _ _ => ?_) m1 m2 ⟨rfl, rfl⟩
    refine Eqv.bind (R := fun _ _ => Tied c1 c2 idx) ?_ (fun _ _ => setTime_tied t)
    intro n1 n2 ⟨tt, hf, hs⟩
    refine (process_tied h t (decide (x1.length = 0)) true n1 n2 ⟨⟨tt.view, tt.good1, tt.good2, hf⟩, fun _ => hs⟩).mono (fun _ _ n1' n2' e1 e2 hq => ?_)
    obtain ⟨g1, f1, y1⟩ := tt.good1.process e1
    obtain ⟨g2, f2, y2⟩ := tt.good2.process e2
    exact tt.next hq.1 g1 g2 f1 f2 y1

/-- A whole run of two variants. -/
theorem run_tied (h : Coupled c1 c2) (n : Nat) (t minH maxH : K) :
    Eqv (Tied c1 c2 idx) (run c1 n t minH maxH) (run c2 n t minH maxH) (fun _ _ => Tied c1 c2 idx) := by
  intro m1 m2 ht
  unfold run
  rw [bind_apply, bind_apply]
  simp only [getSim]
  rw [ht.good1.init, ht.good2.init]
  simp only [Bool.not_true, Bool.false_eq_true, if_false]
  have hsz : m1.s.svSize = m2.s.svSize := by rw [ht.good1.ready.sized.1, ht.good2.ready.sized.1, (ht.layout h).nState]
  rw [hsz]
  split
  · exact Eqv.bind (advance_tied h n t minH maxH) (fun _ _ => finish_tied h t) m1 m2 ht
  · exact finish_tied h t m1 m2 ht

end Pooya
