import Verif.Proof.Unmoved

/-! A run from a state with an arbitrary old state vector and arbitrary old signals. -/

namespace Pooya

set_option linter.unusedSectionVars false

variable {K : Type} [Arith K] {cfg : Config K}

/-- The same outcome in another final state. -/
def rmap {σ α : Type} (f : σ → σ) : EStateM.Result Err σ α → EStateM.Result Err σ α
  | .ok a s => .ok a (f s)
  | .error e s => .error e (f s)

/-- The effect neither reads nor writes the state vector, only its size. -/
def Blind {α : Type} (n : Nat) (x : MM K α) : Prop :=
  ∀ (m : Machine K) (v : List K), m.s.svSize = n → v.length = n → x (m.withSv v) = rmap (·.withSv v) (x m) ∧ (stateOf (x m)).s.svSize = n

namespace Blind
variable {n : Nat} {α β : Type}

theorem bind {x : MM K α} {f : α → MM K β} (hx : Blind n x) (hf : ∀ a, Blind n (f a)) : Blind n (x >>= f) := by
  intro m v hm hv
  obtain ⟨h1, h2⟩ := hx m v hm hv
  rw [bind_apply, bind_apply, h1]
  cases h : x m with
  | ok a m1 => rw [h] at h2; exact hf a m1 v h2 hv
  | error e m1 => rw [h] at h2; exact ⟨rfl, h2⟩

theorem pure (a : α) : Blind n (Pure.pure a : MM K α) := fun _ _ hm _ => ⟨rfl, hm⟩
theorem throw (e : Err) : Blind n (throwE e : MM K α) := fun _ _ hm _ => ⟨rfl, hm⟩

theorem inW (x : M K α) : Blind n (Pooya.inW x) := by
  intro m v hm hv
  unfold Pooya.inW
  show (match x m.w with | .ok a w' => EStateM.Result.ok a { (m.withSv v) with w := w' } | .error e w' => .error e { (m.withSv v) with w := w' }) = _ ∧ _
  cases h : x m.w with
  | ok a w' => exact ⟨rfl, hm⟩
  | error e w' => exact ⟨rfl, hm⟩

theorem sim {k : Sim K → MM K α} (h : ∀ s, Blind n (k s)) (he : ∀ (s : Sim K) (v : List K), s.svSize = n → v.length = n → k { s with sv := some v } = k s) :
    Blind n (getSim >>= k) := by
  intro m v hm hv
  rw [bind_apply, bind_apply]
  simp only [getSim]
  have := he m.s v hm hv
  show k { m.s with sv := some v } (m.withSv v) = _ ∧ _
  rw [this]
  exact h m.s m v hm hv

theorem po (po' : List (Block K)) : Blind n (setSim (fun s : Sim K => { s with po := some po' })) := fun _ _ hm _ => ⟨rfl, hm⟩

theorem exec {f : K → List K → MM K (List K)} (hf : ∀ t v, Blind n (f t v)) (p : StepProg K) : Blind n (p.exec f) := by
  induction p with
  | ret v h => exact Blind.pure _
  | call t v k ih => exact Blind.bind (hf t v) (fun r => ih r)

theorem evalModel (t : K) : Blind n (Pooya.evalModel cfg t) := by
  unfold Pooya.evalModel
  cases cfg.strategy with
  | plain => exact Blind.bind (Blind.inW _) (fun _ => Blind.inW _)
  | reuse =>
    refine Blind.bind (Blind.inW _) (fun _ => Blind.sim (fun s => ?_) (fun _ _ _ _ => rfl))
    cases s.po with
    | none => exact Blind.throw _
    | some po => exact Blind.bind (Blind.inW _) (fun _ => Blind.po _)
  | fast => exact Blind.sim (fun s => Blind.inW _) (fun _ _ _ _ => rfl)

theorem processModel (t : K) (p q : Bool) : Blind n (Pooya.processModel cfg t p q) := by
  unfold Pooya.processModel
  refine Blind.bind (Blind.inW _) (fun _ => ?_)
  dsimp only
  have h2 : Blind n (do
      Pooya.evalModel cfg t
      if q then Pooya.inW (cfg.model.postStep cfg.dbg t) else Pure.pure ()) := by
    refine Blind.bind (Blind.evalModel t) (fun _ => ?_)
    split
    · exact Blind.inW _
    · exact Blind.pure _
  split
  · exact Blind.bind (Blind.inW _) (fun _ => h2)
  · exact h2

theorem resetWith (x : List K) : Blind n (Pooya.resetWith cfg x) :=
  Blind.sim (fun _ => Blind.bind (Blind.inW _) (fun _ => Blind.bind (Blind.inW _) (fun _ => Blind.inW _))) (fun _ _ _ _ => rfl)

theorem getStates : Blind n (Pooya.getStates cfg) := by
  unfold Pooya.getStates
  refine Blind.sim (fun s => Blind.bind (Blind.inW _) (fun a => Blind.bind (Blind.inW _) (fun b => ?_))) (fun s v hs hv => ?_)
  · split
    · exact Blind.pure _
    · exact Blind.throw _
  · have : ({ s with sv := some v } : Sim K).svSize = s.svSize := by rw [hs]; exact hv
    simp only [this]

theorem getDerivs : Blind n (Pooya.getDerivs cfg) := by
  unfold Pooya.getDerivs
  refine Blind.sim (fun s => ?_) (fun _ _ _ _ => rfl)
  split
  · refine Blind.bind (Blind.inW _) (fun a => Blind.bind (Blind.inW _) (fun b => ?_))
    split
    · exact Blind.pure _
    · exact Blind.throw _
  · exact Blind.throw _

theorem minorCb (t : K) (x : List K) : Blind n (Pooya.minorCb cfg t x) :=
  Blind.bind (Blind.resetWith x) (fun _ => Blind.bind (Blind.processModel t false false) (fun _ => Blind.getDerivs))

theorem beginStep (t : K) : Blind n (Pooya.beginStep cfg t) :=
  Blind.sim (fun _ => Blind.bind (Blind.inW _) (fun _ => Blind.bind (Blind.inW _) (fun _ => Blind.bind (Blind.inW _) (fun _ => Blind.getStates))))
    (fun _ _ _ _ => rfl)

end Blind

/-- Starting a step forgets the old signals. -/
theorem clear_cleared (m : Machine K) : clearAll m.s.valueSigs (cleared m).w = clearAll m.s.valueSigs m.w := by
  rw [clearAll_ok, clearAll_ok]
  congr 1
  unfold cleared
  congr 1
  funext s
  dsimp only
  split <;> rfl

theorem begin_cleared (t : K) (m : Machine K) : beginStep cfg t (cleared m) = beginStep cfg t m := by
  unfold beginStep
  have : inW (clearAll m.s.valueSigs) (cleared m) = inW (clearAll m.s.valueSigs) m := by
    unfold inW
    rw [clear_cleared]
    rfl
  rw [bind_apply, bind_apply]
  simp only [getSim]
  show (inW (clearAll m.s.valueSigs) >>= _) (cleared m) = _
  rw [bind_apply, bind_apply, this]

theorem reset_cleared (x : List K) (m : Machine K) : resetWith cfg x (cleared m) = resetWith cfg x m := by
  unfold resetWith
  have : inW (clearAll m.s.valueSigs) (cleared m) = inW (clearAll m.s.valueSigs) m := by
    unfold inW
    rw [clear_cleared]
    rfl
  rw [bind_apply, bind_apply]
  simp only [getSim]
  show (inW (clearAll m.s.valueSigs) >>= _) (cleared m) = _
  rw [bind_apply, bind_apply, this]
  rfl

/-- The same result, if they return. -/
def Near {σ α : Type} (r r' : EStateM.Result Err σ α) : Prop := ∀ a s, r = .ok a s ↔ r' = .ok a s

theorem Near.refl {σ α : Type} (r : EStateM.Result Err σ α) : Near r r := fun _ _ => Iff.rfl

theorem Near.err {σ α : Type} (e e' : Err) (s s' : σ) : Near (.error e s : EStateM.Result Err σ α) (.error e' s') := by
  intro a s
  constructor <;> intro h <;> cases h

theorem Near.bind {σ α β : Type} {x : EStateM Err σ α} {s s' : σ} (h : Near (x s) (x s')) (f : α → EStateM Err σ β) :
    Near ((x >>= f) s) ((x >>= f) s') := by
  intro b t
  constructor
  · intro hb
    obtain ⟨a, s1, h1, h2⟩ := ok_bind hb
    rw [bind_of_ok ((h a s1).1 h1)]; exact h2
  · intro hb
    obtain ⟨a, s1, h1, h2⟩ := ok_bind hb
    rw [bind_of_ok ((h a s1).2 h1)]; exact h2

theorem Near.verify {σ α : Type} (d c : Bool) (e : Exc) {f : EStateM Err σ α} {s s' : σ} (h : Near (f s) (f s')) :
    Near ((debugVerify d c e >>= fun _ => f) s) ((debugVerify d c e >>= fun _ => f) s') := by
  cases hc : (d && !c) with
  | true =>
    have : ∀ s : σ, debugVerify d c e s = .error (.exc e) s := fun s => by simp [debugVerify, hc]
    rw [bind_apply, bind_apply, this, this]
    exact Near.err _ _ _ _
  | false =>
    have : ∀ s : σ, debugVerify d c e s = .ok () s := fun s => by simp [debugVerify, hc]
    rw [bind_of_ok (this s), bind_of_ok (this s')]
    exact h

/-- What the start of a step yields does not depend on the old signals and the old state vector. -/
theorem begin_norm (t : K) (m : Machine K) {n : Nat} {v : List K} (hm : m.s.svSize = n) (hv : v.length = n) :
    beginStep cfg t ((cleared m).withSv v) = rmap (·.withSv v) (beginStep cfg t m) ∧ (stateOf (beginStep cfg t m)).s.svSize = n := by
  have := Blind.beginStep (cfg := cfg) (n := n) t (cleared m) v hm hv
  rw [begin_cleared] at this
  exact this

theorem sub_norm {t minH maxH t1 t2 : K} {f : Bool} {N n : Nat} (h1 : (t1 <. t) = true) (m : Machine K) {v : List K} (hm : m.s.svSize = n) (hv : v.length = n) :
    Near (subLoop cfg t minH maxH N t1 t2 f ((cleared m).withSv v)) (subLoop cfg t minH maxH N t1 t2 f m) := by
  cases N with
  | zero => exact Near.err _ _ _ _
  | succ N =>
    unfold subLoop
    rw [if_neg (by rw [h1]; simp)]
    obtain ⟨e1, z1⟩ := begin_norm (cfg := cfg) t1 m hm hv
    rw [bind_apply, bind_apply, e1]
    cases hb : beginStep cfg t1 m with
    | error e m1 => exact Near.err _ _ _ _
    | ok orig m1 =>
      rw [hb] at z1
      simp only [rmap]
      rw [bind_apply, bind_apply]
      obtain ⟨e2, z2⟩ := Blind.inW (K := K) (n := n) (emit (.trial t1 t2)) m1 v z1 hv
      rw [e2]
      cases ht : inW (emit (.trial t1 t2)) m1 with
      | error e m2 => exact Near.err _ _ _ _
      | ok u m2 =>
        rw [ht] at z2
        simp only [rmap]
        cases hst : cfg.stepper with
        | none => exact Near.err _ _ _ _
        | some st =>
          dsimp only
          rw [bind_apply, bind_apply]
          obtain ⟨e3, z3⟩ := Blind.exec (n := n) (f := minorCb cfg) (fun t x => Blind.minorCb t x) (st t1 orig t2) m2 v z2 hv
          rw [e3]
          cases hx : (st t1 orig t2).exec (minorCb cfg) m2 with
          | error e m3 => exact Near.err _ _ _ _
          | ok r m3 => exact Near.refl _

theorem advance_norm {t minH maxH : K} {N n : Nat} (m : Machine K) {v : List K} (hc : Comparable t m.s.tPrev) (hm : m.s.svSize = n) (hv : v.length = n) :
    Near (advance cfg N t minH maxH ((cleared m).withSv v)) (advance cfg N t minH maxH m) := by
  unfold advance
  rw [bind_apply, bind_apply]
  simp only [getSim]
  show Near ((if t <. m.s.tPrev then _ else _ : MM K Unit) _) _
  by_cases h1 : (t <. m.s.tPrev) = true
  · rw [if_pos h1, if_pos h1]; exact Near.err _ _ _ _
  · rw [if_neg h1, if_neg h1]
    show Near ((if t ==. m.s.tPrev then _ else _ : MM K Unit) _) _
    by_cases h2 : (t ==. m.s.tPrev) = true
    · rw [if_pos h2, if_pos h2]
      have e1 : inW (emit (.warnRepeated t)) m = .ok () (m.record (.warnRepeated t)) := rfl
      have e2 : inW (emit (.warnRepeated t)) ((cleared m).withSv v) = .ok () ((cleared (m.record (.warnRepeated t))).withSv v) := rfl
      rw [bind_of_ok e1, bind_of_ok e2]
      obtain ⟨e3, z3⟩ := begin_norm (cfg := cfg) t (m.record (.warnRepeated t)) (n := n) (v := v) hm hv
      rw [bind_apply, bind_apply, e3]
      cases hb : beginStep cfg t (m.record (.warnRepeated t)) with
      | error e m1 => exact Near.err _ _ _ _
      | ok orig m1 => exact Near.refl _
    · rw [if_neg h2, if_neg h2]
      have h3 : (m.s.tPrev <. t) = true := by
        rcases hc with h | h | h
        · exact (h1 h).elim
        · exact (h2 h).elim
        · exact h
      exact Near.verify _ _ _ (Near.verify _ _ _ (Near.verify _ _ _ (sub_norm h3 m hm hv)))

/-- A run does not depend on the old values of signals, nor on the old state vector. -/
theorem run_norm {t minH maxH : K} {N n : Nat} (m : Machine K) {v : List K} (hi : m.s.initialized = true) (hc : Comparable t m.s.tPrev)
    (hm : m.s.svSize = n) (hv : v.length = n) (h0 : n = 0 → m.s.sv = some []) :
    Near (run cfg N t minH maxH ((cleared m).withSv v)) (run cfg N t minH maxH m) := by
  rw [run_eq cfg N t minH maxH m hi, run_eq cfg N t minH maxH ((cleared m).withSv v) hi]
  have : ((cleared m).withSv v).s.svSize = n := hv
  rw [this, hm]
  by_cases hn : 0 < n
  · rw [if_pos hn, if_pos hn]
    exact Near.bind (advance_norm m hc hm hv) _
  · rw [if_neg hn, if_neg hn]
    have hn : n = 0 := by omega
    have hv0 : v = [] := List.length_eq_zero_iff.1 (hv.trans hn)
    subst hv0
    have e : (cleared m).withSv [] = cleared m := by
      unfold Machine.withSv
      show ({ cleared m with s := { m.s with sv := some [] } } : Machine K) = cleared m
      rw [← h0 hn]
      rfl
    rw [e]
    unfold finish
    rw [bind_apply, bind_apply]
    simp only [getSim]
    show Near ((match m.s.sv with | none => _ | some x => _ : MM K Unit) (cleared m)) _
    rw [h0 hn]
    dsimp only
    rw [bind_apply, bind_apply, reset_cleared]
    exact Near.refl _

theorem Near.outcome {r1 r2 r1' r2' : EStateM.Result Err (Machine K) Unit} (h1 : Near r1' r1) (h2 : Near r2' r2) (h : SameOutcome r1' r2') :
    SameOutcome r1 r2 := by
  cases r1 with
  | ok a m1 =>
    have := (h1 a m1).2 rfl
    subst this
    cases r2 with
    | ok b m2 => have := (h2 b m2).2 rfl; subst this; exact h
    | error e m2 =>
      cases r2' with
      | ok b m => have := (h2 b m).1 rfl; cases this
      | error _ _ => exact h
  | error e m1 =>
    cases r1' with
    | ok a m => have := (h1 a m).1 rfl; cases this
    | error _ _ =>
      cases r2 with
      | ok b m2 => have := (h2 b m2).2 rfl; subst this; exact h
      | error _ _ => trivial

/-! ### What a failed call leaves -/

theorem mid_with {i : Option (UserInput K)} {mi : UserInput K} {st : Option (Stepper K)} {m : Machine K} (h : Mid cfg m) : Mid (cfg.With i mi st) m := by
  induction h with
  | new w t h => exact .new w t h
  | other m' _ h1 h2 h3 ih => exact .other m' ih h1 h2 h3
  | eval t _ ih => exact .eval (cfg := cfg.With i mi st) t ih
  | order h _ ih => exact .order (cfg := cfg.With i mi st) h ih
  | fastOrder t h _ h1 ih => exact .fastOrder (cfg := cfg.With i mi st) t h ih h1
  | fastFail t h _ h1 ih => exact .fastFail (cfg := cfg.With i mi st) t h ih h1

theorem mid_without {i : Option (UserInput K)} {mi : UserInput K} {st : Option (Stepper K)} {m : Machine K} (h : Mid (cfg.With i mi st) m) : Mid cfg m :=
  mid_with (cfg := cfg.With i mi st) (i := cfg.inputs) (mi := cfg.modelInput) (st := cfg.stepper) h

/-- The remembered orders stay. -/
def Ordered (m m' : Machine K) : Prop := (m.s.po ≠ none → m'.s.po ≠ none) ∧ m'.s.fast = m.s.fast

instance : PreO (Ordered (K := K)) where
  refl _ := ⟨fun h => h, rfl⟩
  trans h h' := ⟨fun hp => h'.1 (h.1 hp), h'.2.trans h.2⟩

theorem ordered_eval (t : K) : Moves Ordered (evalModel cfg t) := by
  have key : ∀ {α : Type} (x : M K α), Moves Ordered (inW x) := fun x m => by
    have := inW_sim x m
    exact ⟨fun h => by rw [this]; exact h, by rw [this]⟩
  unfold evalModel
  cases cfg.strategy with
  | plain => exact Moves.bind (key _) (fun _ => key _)
  | reuse =>
    refine Moves.bind (key _) (fun _ => Moves.bind Moves.getSim (fun s => ?_))
    cases s.po with
    | none => exact Moves.throw _
    | some po => exact Moves.bind (key _) (fun _ m => ⟨(fun _ e => by cases e), rfl⟩)
  | fast => exact Moves.bind Moves.getSim (fun _ => key _)

theorem covers_ordered (cfg : Config K) : Covers cfg (Ordered (K := K)) :=
  covers_of_keep (fun _ _ h => ⟨fun hp => by rw [h.2.1]; exact hp, h.2.2⟩) (fun t => ordered_eval t)

/-- The state vector stays written. -/
def Filled (m m' : Machine K) : Prop := m.s.sv ≠ none → m'.s.sv ≠ none

instance : PreO (Filled (K := K)) where
  refl _ h := h
  trans h h' hp := h' (h hp)

theorem covers_filled (cfg : Config K) : Covers cfg (Filled (K := K)) :=
  covers_mk (T := SameTy) (fun _ _ h hp => by rw [h.2]; exact hp) (fun _ w => PreO.refl (T := SameTy) w)
    (fun _ _ _ => sameTy_upd _ _ _ _) (fun _ _ => sameTy_upd _ _ _ _)
    (fun l _ t => moves_pre _ t l (fun _ _ h => sameTy_within h))
    (fun l _ t => moves_post _ t l (fun _ _ h => sameTy_within h))
    (fun t m hp => by
      rw [(moves_eval_any cfg t (fun l => moves_act _ t l (fun _ _ h => sameTy_within h)) (fun _ _ _ w => PreO.refl (T := SameTy) w) m).2]
      exact hp)
    (fun _ _ _ e => by cases e) (fun _ _ h => h)

/-- A simulator with no states has an empty state vector. -/
def Empty0 (m : Machine K) : Prop := m.s.nState = 0 → m.s.sv = some []

theorem empty0_of {m m' : Machine K} (h : Empty0 m) (hf : Filled m m') (hn : m'.s.nState = m.s.nState) (hz : SizedN m'.s.nState m') : Empty0 m' := by
  intro h0
  have h1 := hf (by rw [h (hn.symm.trans h0)]; intro e; cases e)
  have h2 := hz.1
  unfold Sim.svSize at h2
  cases hs : m'.s.sv with
  | none => exact (h1 hs).elim
  | some v =>
    rw [hs, h0] at h2
    rw [List.length_eq_zero_iff.1 h2]

/-- The simulator after a call of `run`, whatever its outcome, with any inputs. -/
theorem good_after {m : Machine K} (g : Good cfg m) (h0 : Empty0 m) {i : Option (UserInput K)} {mi : UserInput K} {st : Option (Stepper K)}
    (hd : ∀ s, st = some s → Stepper.Dim s) (N : Nat) (t a b : K) {m' : Machine K} (hm' : m' = stateOf (run (cfg.With i mi st) N t a b m)) :
    Good cfg m' ∧ Empty0 m' ∧ SameTy m.w m'.w ∧ m'.s.nState = m.s.nState := by
  have hf := (covers_fixed (cfg.With i mi st)).run N t a b m g.init
  have hmid := (covers_mid (cfg.With i mi st)).run N t a b m g.init (mid_with g.ready.mid)
  have hord := (covers_ordered (cfg.With i mi st)).run N t a b m g.init
  have hfil := (covers_filled (cfg.With i mi st)).run N t a b m g.init
  have hz := sized_run (cfg := cfg.With i mi st) hd N t a b m g.init g.ready.sized
  rw [← hm'] at hf hmid hord hfil hz
  have hl := g.ready.layout
  have hz' : SizedN m'.s.nState m' := by rw [hf.nState]; exact hz
  refine ⟨⟨⟨mid_without hmid, ⟨?_, ?_, ?_, ?_⟩, hz'⟩, by rw [hf.initialized]; exact g.init, fun e => hord.1 (g.po e),
    fun e => by rw [hord.2]; exact g.fast e, g.typed.same hf.ty⟩, empty0_of h0 hfil hf.nState hz', hf.ty, hf.nState⟩
  · rw [hf.valueSigs]; exact hl.valueSigs
  · rw [hf.scalarStates, scalarStatesOf_ty hf.ty]; exact hl.scalarStates
  · rw [hf.arrayStates, arrayStatesOf_ty hf.ty]; exact hl.arrayStates
  · rw [hf.nState, stateSize_ty hf.ty]; exact hl.nState

theorem Config.Variant.refl (cfg : Config K) : cfg.Variant cfg := ⟨rfl, .refl _, fun _ => Iff.rfl, rfl, rfl, rfl, rfl⟩

theorem coupled_self (hs : cfg.Sound) (hf : cfg.strategy = .fast → cfg.Steady) : Coupled cfg cfg :=
  ⟨.refl cfg, hs, hs, fun h => hf (h.elim id id)⟩

theorem good_cleared {m : Machine K} (g : Good cfg m) {v : List K} (hv : v.length = m.s.nState) : Good cfg ((cleared m).withSv v) := by
  have hty : SameTy m.w ((cleared m).withSv v).w := fun s => by
    show (if s ∈ m.s.valueSigs then ({ m.w.sig s with assigned := false } : Cell K) else m.w.sig s).ty = _
    split <;> rfl
  have hl := g.ready.layout
  exact ⟨⟨.other _ g.ready.mid rfl rfl rfl, ⟨hl.valueSigs, by rw [scalarStatesOf_ty hty]; exact hl.scalarStates,
    by rw [arrayStatesOf_ty hty]; exact hl.arrayStates, by rw [stateSize_ty hty]; exact hl.nState⟩, ⟨hv, rfl⟩⟩, g.init, g.po, g.fast, g.typed.same hty⟩

/-- Runs from two states that differ only in signals linked to the model, the state vector, recorded calls and the remembered order. -/
theorem retry (hs : cfg.Sound) (hf : cfg.strategy = .fast → cfg.Steady) {m m' : Machine K} (g : Good cfg m) (g' : Good cfg m') (h0 : Empty0 m) (h0' : Empty0 m')
    (hty : SameTy m.w m'.w) (hmem : ∀ b, m'.w.mem b = m.w.mem b) (hsig : ∀ s, ¬ cfg.Links s → m'.w.sig s = m.w.sig s) (ht : m'.s.tPrev = m.s.tPrev)
    (b : RunArgs K) (bs : List (RunArgs K)) (hc : Comparable b.t m.s.tPrev) : SameOutcome (runs cfg (b :: bs) m) (runs cfg (b :: bs) m') := by
  have hn : m'.s.nState = m.s.nState := by rw [g'.ready.layout.nState, g.ready.layout.nState, stateSize_ty hty]
  generalize hv : List.replicate m.s.nState m.s.tPrev = v
  have hv : v.length = m.s.nState := by rw [← hv]; simp
  have n1 := run_norm (cfg := cfg) (N := b.fuel) (t := b.t) (minH := b.minH) (maxH := b.maxH) m g.init hc g.ready.sized.1 hv h0
  have n2 := run_norm (cfg := cfg) (N := b.fuel) (t := b.t) (minH := b.minH) (maxH := b.maxH) m' g'.init (by rw [ht]; exact hc) g'.ready.sized.1
    (by rw [hn]; exact hv) h0'
  have g1 := good_cleared g hv
  have g2 := good_cleared g' (by rw [hn]; exact hv)
  have hval : ∀ s, s ∈ m'.s.valueSigs ↔ s ∈ m.s.valueSigs := fun s => by rw [g.ready.layout.valueSigs, g'.ready.layout.valueSigs]
  have hview : SameView ((cleared m).withSv v).w ((cleared m').withSv v).w := by
    refine sameView_of (fun s => ?_) (fun b => (hmem b).symm)
    show CellEq (if s ∈ m.s.valueSigs then ({ m.w.sig s with assigned := false } : Cell K) else m.w.sig s)
      (if s ∈ m'.s.valueSigs then ({ m'.w.sig s with assigned := false } : Cell K) else m'.w.sig s)
    by_cases hl : s ∈ m.s.valueSigs
    · rw [if_pos hl, if_pos ((hval s).2 hl)]
      exact ⟨(hty s).symm, rfl, fun e => by cases e⟩
    · rw [if_neg hl, if_neg (fun e => hl ((hval s).1 e))]
      rw [hsig s (fun e => hl (by rw [g.ready.layout.valueSigs, (hs.hash _).mem_iff]; exact mem_linkedSigs cfg s e))]
      exact ⟨rfl, rfl, fun _ => rfl⟩
  have hcp := coupled_self hs hf
  have hl := same_layout hcp.variant hs.hash hs.hash g1.ready.layout g2.ready.layout hview.ty
  have o1 := g1.ready.layout.statesOk hs.hash
  obtain ⟨idx, p1, p2, p3⟩ := exists_idx (K := K) (size := ((cleared m).withSv v).w.size) o1.nodup hl.scalar hl.array
  have esc : ((cleared m').withSv v).s.scalarStates = ((cleared m).withSv v).s.scalarStates := by
    rw [g1.ready.layout.scalarStates, g2.ready.layout.scalarStates, scalarStatesOf_ty (fun s => (hview.ty s).symm)]
  have esa : ((cleared m').withSv v).s.arrayStates = ((cleared m).withSv v).s.arrayStates := by
    rw [g1.ready.layout.arrayStates, g2.ready.layout.arrayStates, arrayStatesOf_ty (fun s => (hview.ty s).symm)]
  have htied : Tied cfg cfg idx ((cleared m).withSv v) ((cleared m').withSv v) := by
    refine ⟨hview, g1, g2, ht.symm, p1, by rw [p2, o1.slots], p3, .inr ⟨v, v, rfl, rfl, ?_⟩⟩
    rw [← p3, esc, esa]
    obtain ⟨val, hp⟩ := unpack (A := K) (size := ((cleared m).withSv v).w.size) o1.nodup (x := v) (by rw [← o1.slots]; exact hv)
    exact ⟨val, hp, hp⟩
  have := EqvOut.outcome (runs_tied hcp (b :: bs) _ _ htied)
  exact Near.outcome (Near.bind n1 _) (Near.bind n2 _) this

/-- A simulator after `init` and some calls of `run`. -/
theorem simulate_good (hs : cfg.Sound) (hf : cfg.strategy = .fast → cfg.Steady) {w : World K} {t t0 : K} (hw : Startable cfg cfg w)
    {as : List (RunArgs K)} {m : Machine K} (hd : ∀ st, cfg.stepper = some st → Stepper.Dim st) (h : simulate cfg t0 as (fresh w t) = .ok () m) :
    Good cfg m ∧ Empty0 m := by
  have hcp := coupled_self hs hf
  unfold simulate at h
  rw [simInit_head, bind_assoc] at h
  obtain ⟨_, m1, h1, ha⟩ := ok_bind h
  obtain ⟨_, m2, h2, hb⟩ := ok_bind ha
  obtain ⟨g1, b1, _⟩ := head_ok hs hw.done hw.typed (fun e => hw.states (.inl e)) h1
  obtain ⟨g2, e2, _⟩ := g1.process h2
  have z1 : Empty0 m2 := by
    intro h0
    rw [e2] at h0 ⊢
    have h0 : m1.s.nState = 0 := h0
    show m1.s.sv = some []
    rw [b1.sv, if_pos (by rw [← b1.nState]; exact h0)]
  clear h1 h2 e2 b1 g1 ha h
  rename_i hty
  clear hty
  induction as generalizing m2 with
  | nil => cases hb; exact ⟨g2, z1⟩
  | cons a as ih =>
    unfold runs at hb
    obtain ⟨_, m3, h3, h4⟩ := ok_bind hb
    obtain ⟨g3, z3, _, _⟩ := good_after (i := cfg.inputs) (mi := cfg.modelInput) (st := cfg.stepper) g2 z1 hd a.fuel a.t a.minH a.maxH (m' := m3)
      (by show m3 = stateOf (run cfg a.fuel a.t a.minH a.maxH m2); rw [h3]; rfl)
    exact ih m3 h4 g3 z3

end Pooya
