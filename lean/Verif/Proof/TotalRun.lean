import Verif.Proof.TotalEval
import Verif.Proof.FastInit
import Verif.Proof.Tied
import Verif.Proof.Steps

/-! Calls on complete diagrams return. -/

namespace Pooya

set_option linter.unusedSectionVars false

variable {K : Type} [Arith K] {cfg : Config K} {ty : SigId → Ty} {rank : BlkId → Nat} {p : K → Prop} {m : Machine K}

theorem Recorded.mono {q : K → Prop} {w : World K} (h : Recorded cfg p w) (hq : cfg.Delays → ∀ s, p s → q s) : Recorded cfg q w :=
  fun l hl hd s hs => hq ⟨l, hl, hd⟩ s (h l hl hd s hs)

theorem Fit.mono {q : K → Prop} (h : Fit cfg ty p m) (hq : cfg.Delays → ∀ s, p s → q s) : Fit cfg ty q m :=
  ⟨h.world, h.sim, h.call, h.fast, h.recd.mono hq⟩

theorem Fit.listed (h : cfg.WellPosed ty rank) (hf : Fit cfg ty p m) {s : SigId} (hs : cfg.Links s ∧ (cfg.deriv s).isSome = true) :
    s ∈ m.s.scalarStates ++ m.s.arrayStates := by
  obtain ⟨d, hd⟩ := Option.isSome_iff_exists.1 hs.2
  have hfl := (h.typed.deriv s d hd).1
  have hlk := mem_linkedSigs cfg s hs.1
  rw [List.mem_append, hf.call.layout.scalarStates, hf.call.layout.arrayStates, (h.typed.hash _).mem_iff, (h.typed.hash _).mem_iff]
  simp only [scalarStatesOf, arrayStatesOf, List.mem_filter, Bool.and_eq_true, decide_eq_true_eq, hf.world.types]
  cases ht : ty s <;> rw [ht] at hfl
  · exact .inl ⟨hlk, rfl, hs.2⟩
  all_goals first | (exact hfl.elim) | (exact .inr ⟨hlk, rfl, hs.2⟩)

theorem Fit.svLength (hf : Fit cfg ty p m) {x : List K} (hx : m.s.sv = some x) : x.length = m.s.nState := by
  have := hf.sim.size
  unfold Sim.svSize at this
  rw [hx] at this
  exact this

theorem Lax.inW {α : Type} {x : M K α} (h : Lax (fun _ => True) x) : Tri (fun _ : Machine K => True) (Pooya.inW x) (fun _ _ => True) (fun e _ => Excused e) :=
  Tri.weaken (Tri.inW h (fun _ => True)) (fun _ _ => ⟨trivial, trivial⟩) (fun _ _ _ => trivial) (fun _ _ h => h.1)

theorem Looks.inW {α : Type} {σ : SigId → Cell K} {x : M K α} {Q : α → Prop} (h : Looks σ x Q) :
    Tri (fun m : Machine K => m.w.sig = σ) (Pooya.inW x) (fun a m => m.w.sig = σ ∧ Q a) (fun e _ => Excused e) :=
  Tri.weaken (Tri.inW h (fun _ => True)) (fun _ h => ⟨h, trivial⟩) (fun _ _ h => h.1) (fun _ _ h => h.1)

theorem reset_lax (hd : cfg.dbg = true) (x : List K) : Tri (fun _ : Machine K => True) (resetWith cfg x) (fun _ _ => True) (fun e _ => Excused e) := by
  refine Tri.bind (R := fun _ _ => True) (fun _ _ => trivial) (fun s => Tri.bind (R := fun _ _ => True) ?_ (fun _ => Tri.bind (R := fun _ _ => True) ?_ (fun d => ?_)))
  · exact Lax.inW (fun w _ => by rw [clearAll_ok]; trivial)
  · rw [hd]; exact Lax.inW (writeScalars_lax _ _)
  · rw [hd]; exact Lax.inW (writeArrays_lax _ _)

theorem runs_reset (h : cfg.WellPosed ty rank) (hf : Fit cfg ty p m) {x : List K} (hx : x.length = m.s.nState) :
    ∃ m', resetWith cfg x m = .ok () m' ∧ Fit cfg ty p m' ∧ m'.s = m.s ∧
      Free (fun s => s ∈ linkedSigs cfg.model ∧ (cfg.deriv s = none ∨ x.length = 0)) m'.w ∧ Has (fun s => cfg.Links s ∧ (cfg.deriv s).isSome = true) m'.w := by
  have hk := keeps_reset h.typed x false m.s.nState hx m ⟨⟨hf.world, hf.sim⟩, rfl⟩
  have hn := reset_free h.drive x m hf.call
  have hl := reset_lax h.typed.dbg x m trivial
  have ho := keep_reset cfg x m
  have hs := resetWith_sim cfg x m
  have hok := hf.call.layout.statesOk h.typed.hash
  cases hr : resetWith cfg x m with
  | error e m' => rw [hr] at hk hn hl; exact (not_excused hl hn hk.1.1).elim
  | ok u m' =>
    rw [hr] at hk hn ho hs
    have hs : m'.s = m.s := hs
    refine ⟨m', rfl, hf.next h hk.1 hk.2 hn.1.order (by rw [hs]) (hf.recd.mem (reset_mem hr)), hs, hn.2, fun s hst => ?_⟩
    exact (resetWith_holds hok.nodup (by rw [hx]; exact hok.slots) hr).2.1 s (hf.listed h hst)

theorem runs_getStates (h : cfg.WellPosed ty rank) (hf : Fit cfg ty p m) (ha : Has (fun s => cfg.Links s ∧ (cfg.deriv s).isSome = true) m.w) :
    ∃ x, getStates cfg m = .ok x m ∧ x.length = m.s.nState := by
  have hk := keeps_getStates h.typed false m.s.nState m ⟨⟨hf.world, hf.sim⟩, rfl⟩
  have hn := getStates_noRe (cfg := cfg) m trivial
  have hl : Tri (fun m' : Machine K => m'.w.sig = m.w.sig) (do
      let a ← inW (readScalars cfg.dbg m.s.scalarStates)
      let b ← inW (readArrays cfg.dbg m.s.arrayStates)
      if (a ++ b).length = m.s.svSize then pure (a ++ b) else throwE (.ub .outOfBounds)) (fun _ _ => True) (fun e _ => Excused e) := by
    have hst := fun s hs => ha s (state_sig (s := s) hf.call.layout h.typed.hash hs)
    rw [h.typed.dbg]
    refine Tri.bind (Looks.inW (readScalars_lax hf.world.sound _ (fun s hs => hst s (by simp [hs])))) (fun a => Tri.bind (R := fun _ _ => True) ?_ (fun b => ?_))
    · exact Tri.weaken (Looks.inW (readArrays_lax hf.world.sound _ (fun s hs => hst s (by simp [hs])))) (fun _ h => h.1) (fun _ _ _ => trivial) (fun _ _ h => h)
    · split
      · exact fun _ _ => trivial
      · exact fun _ _ => .inr (.inr ⟨_, rfl⟩)
  have hl := hl m rfl
  have e : getStates cfg m = (do
      let a ← inW (readScalars cfg.dbg m.s.scalarStates)
      let b ← inW (readArrays cfg.dbg m.s.arrayStates)
      if (a ++ b).length = m.s.svSize then pure (a ++ b) else throwE (.ub .outOfBounds) : MM K (List K)) m := rfl
  rw [← e] at hl
  cases hx : getStates cfg m with
  | error e m' => rw [hx] at hk hn hl; exact (not_excused hl hn hk.1.1).elim
  | ok x m' =>
    rw [hx] at hk
    obtain ⟨rfl, _, _⟩ := getStates_ok hx
    exact ⟨x, rfl, hk.2⟩

theorem derivsOf_mem {ss ds : List SigId} (h : derivsOf cfg ss = some ds) : ∀ d ∈ ds, ∃ s ∈ ss, cfg.deriv s = some d := by
  induction ss generalizing ds with
  | nil => cases h; simp
  | cons s ss ih =>
    unfold derivsOf at h
    cases h1 : cfg.deriv s with
    | none => rw [h1] at h; cases h
    | some d =>
      cases h2 : derivsOf cfg ss with
      | none => rw [h1, h2] at h; cases h
      | some ds' =>
        rw [h1, h2] at h
        cases h
        intro x hx
        rcases List.mem_cons.1 hx with e | e
        · exact ⟨s, by simp, by rw [e, h1]⟩
        · obtain ⟨s', hs', g⟩ := ih h2 x e
          exact ⟨s', by simp [hs'], g⟩

theorem runs_getDerivs (h : cfg.WellPosed ty rank) (hf : Fit cfg ty p m) (ha : Has cfg.Provided m.w) :
    ∃ x, getDerivs cfg m = .ok x m ∧ x.length = m.s.nState := by
  have hk := keeps_getDerivs h.typed false m.s.nState m ⟨⟨hf.world, hf.sim⟩, rfl⟩
  have hn := getDerivs_noRe (cfg := cfg) m trivial
  obtain ⟨ds, e1, _⟩ := derivs_typed h.typed (fun s hs => (hf.sim.scalars s hs).2)
  obtain ⟨da, e2, _⟩ := derivs_typed h.typed (fun s hs => (hf.sim.arrays s hs).2)
  have hl : Tri (fun m' : Machine K => m'.w.sig = m.w.sig) (do
      let a ← inW (readScalars cfg.dbg ds)
      let b ← inW (readArrays cfg.dbg da)
      if (a ++ b).length = m.s.nState then pure (a ++ b) else throwE (.ub .outOfBounds)) (fun _ _ => True) (fun e _ => Excused e) := by
    have h1 : ∀ d ∈ ds, (m.w.sig d).assigned = true := fun d hd => by
      obtain ⟨s, hs, g⟩ := derivsOf_mem e1 d hd
      exact ha d (h.derivs s d (state_sig hf.call.layout h.typed.hash (by simp [hs])).1 g)
    have h2 : ∀ d ∈ da, (m.w.sig d).assigned = true := fun d hd => by
      obtain ⟨s, hs, g⟩ := derivsOf_mem e2 d hd
      exact ha d (h.derivs s d (state_sig hf.call.layout h.typed.hash (by simp [hs])).1 g)
    rw [h.typed.dbg]
    refine Tri.bind (Looks.inW (readScalars_lax hf.world.sound _ h1)) (fun a => Tri.bind (R := fun _ _ => True) ?_ (fun b => ?_))
    · exact Tri.weaken (Looks.inW (readArrays_lax hf.world.sound _ h2)) (fun _ h => h.1) (fun _ _ _ => trivial) (fun _ _ h => h)
    · split
      · exact fun _ _ => trivial
      · exact fun _ _ => .inr (.inr ⟨_, rfl⟩)
  have hl := hl m rfl
  have e : getDerivs cfg m = (do
      let a ← inW (readScalars cfg.dbg ds)
      let b ← inW (readArrays cfg.dbg da)
      if (a ++ b).length = m.s.nState then pure (a ++ b) else throwE (.ub .outOfBounds) : MM K (List K)) m := by
    unfold getDerivs
    rw [bind_apply]
    simp only [getSim, e1, e2]
  rw [← e] at hl
  cases hx : getDerivs cfg m with
  | error e m' => rw [hx] at hk hn hl; exact (not_excused hl hn hk.1.1).elim
  | ok x m' =>
    rw [hx] at hk
    obtain ⟨rfl, _, _⟩ := getDerivs_ok h.typed.dbg hx
    exact ⟨x, rfl, hk.2⟩

theorem runs_clear (h : cfg.WellPosed ty rank) (hf : Fit cfg ty p m) :
    ∃ w', clearAll m.s.valueSigs m.w = .ok () w' ∧ Fit cfg ty p { m with w := w' } ∧ Free (· ∈ linkedSigs cfg.model) w' := by
  obtain ⟨m1, g1, g2, g3, g4⟩ := clear_free h.drive hf.call
  obtain ⟨w', e1, rfl⟩ := inW_ok g1
  have hk := Keeps.clearAll (cfg := cfg) (pol := strict) (ty := ty) m.s.valueSigs m.w hf.world
  rw [e1] at hk
  exact ⟨w', e1, hf.next h hk.1 hf.sim g3.order rfl (hf.recd.mem (clear_mem e1)), g4⟩

theorem inW_of {α : Type} {x : M K α} {a : α} {w' : World K} (h : x m.w = .ok a w') : inW x m = .ok a { m with w := w' } := by
  unfold inW; simp only [h]

theorem runs_begin (h : cfg.WellPosed ty rank) (hf : Fit cfg ty p m) (t : K) :
    ∃ x m', beginStep cfg t m = .ok x m' ∧ Fit cfg ty p m' ∧ m'.s = m.s ∧ x.length = m.s.nState := by
  obtain ⟨w0, g0, f0, free0⟩ := runs_clear h hf
  obtain ⟨w1, g1, f1, d1, me1, s1, _⟩ := runs_inputs h f0.world t (fun s hs => free0 s (mem_linkedSigs cfg s (h.drivers.inputLink t s hs)))
  have hf1 : Fit cfg ty p { m with w := w1 } := f0.setW h f1 d1 (f0.recd.mem me1)
  obtain ⟨w2, g2, f2, d2, s2, r2, a2⟩ := runs_pre h f1 t (fun s ⟨l, hl, hs⟩ => by
    rw [s1 s (h.drivers.preInput l hl s hs t)]; exact free0 s (mem_linkedSigs cfg s (h.drivers.preLink l hl s hs)))
  have hf2 : Fit cfg ty p { m with w := w2 } := hf1.setW h f2 d2 (r2 p hf1.recd)
  obtain ⟨x, g3, l3⟩ := runs_getStates h hf2 a2
  refine ⟨x, { m with w := w2 }, ?_, hf2, rfl, l3⟩
  unfold beginStep
  rw [bind_apply]
  simp only [getSim]
  rw [bind_of_ok (inW_of g0), bind_of_ok (inW_of (m := { m with w := w0 }) g1), bind_of_ok (inW_of (m := { m with w := w1 }) g2)]
  exact g3

theorem runs_given (h : cfg.WellPosed ty rank) (hc : CanCompare cfg) (hf : Fit cfg ty p m) {x : List K} (hx : x.length = m.s.nState) (t : K) (post : Bool)
    (hp : post = true → cfg.Delays → ∀ s, p s → (s <. t) = true) :
    ∃ m1 m', resetWith cfg x m = .ok () m1 ∧ processModel cfg t false post m1 = .ok () m' ∧ Fit cfg ty (fun s => p s ∨ (post = true ∧ s = t)) m' ∧
      m'.s = { m.s with po := m'.s.po } ∧ Has cfg.Provided m'.w := by
  obtain ⟨m1, g1, f1, e1, free1, a1⟩ := runs_reset h hf hx
  obtain ⟨m2, g2, f2, e2, a2⟩ := runs_process h hc f1 t false post (fun s hs => free1 s ⟨targets_linked h.drive hs, .inl (targets_state h.drive hs)⟩) (fun _ => a1) hp
  exact ⟨m1, m2, g1, g2, f2, by rw [e2, e1], a2⟩

theorem runs_minor (h : cfg.WellPosed ty rank) (hc : CanCompare cfg) (hf : Fit cfg ty p m) {x : List K} (hx : x.length = m.s.nState) (t : K) :
    ∃ d m', minorCb cfg t x m = .ok d m' ∧ Fit cfg ty p m' ∧ m'.s = { m.s with po := m'.s.po } ∧ d.length = m.s.nState := by
  obtain ⟨m1, m2, g1, g2, f2, e2, a2⟩ := runs_given h hc hf hx t false (fun e => by cases e)
  obtain ⟨d, g3, l3⟩ := runs_getDerivs h f2 a2
  refine ⟨d, m2, ?_, f2.mono (fun _ s hs => hs.elim id (fun e => by cases e.1)), e2, by rw [l3, e2]⟩
  unfold minorCb
  rw [bind_of_ok g1, bind_of_ok g2]
  exact g3

theorem runs_exec (h : cfg.WellPosed ty rank) (hc : CanCompare cfg) (hf : Fit cfg ty p m) (q : StepProg K) (hq : q.Dim m.s.nState) :
    ∃ r m', q.exec (minorCb cfg) m = .ok r m' ∧ Fit cfg ty p m' ∧ m'.s = { m.s with po := m'.s.po } ∧ r.1.length = m.s.nState := by
  have key := Tri.execV (K := K) (I := fun m' : Machine K => Fit cfg ty p m' ∧ m'.s = { m.s with po := m'.s.po }) (E := fun _ _ => False) (n := m.s.nState)
    (f := minorCb cfg) (fun t v hv m1 ⟨f1, e1⟩ => by
      obtain ⟨d, m2, g, f2, e2, l2⟩ := runs_minor h hc f1 (x := v) (by rw [e1]; exact hv) t
      rw [g]
      exact ⟨⟨f2, by rw [e2, e1]⟩, by rw [l2, e1]⟩) q hq m ⟨hf, rfl⟩
  cases hx : q.exec (minorCb cfg) m with
  | error e m' => rw [hx] at key; exact key.elim
  | ok r m' => rw [hx] at key; exact ⟨r, m', rfl, key.1.1, key.1.2, key.2⟩

theorem Fit.emit (h : cfg.WellPosed ty rank) (hf : Fit cfg ty p m) (e : Event K) : Fit cfg ty p { m with w := { m.w with log := e :: m.w.log } } :=
  hf.setW h ⟨hf.world.types, hf.world.cells, hf.world.members⟩ rfl hf.recd

theorem Fit.setSv (h : cfg.WellPosed ty rank) (hf : Fit cfg ty p m) {x : List K} (hx : x.length = m.s.nState) : Fit cfg ty p { m with s := { m.s with sv := some x } } :=
  hf.next h hf.world ⟨hf.sim.scalars, hf.sim.arrays, hf.sim.total, hx, fun e => (by cases e), fun e => (by cases e), hf.sim.order, hf.sim.fast⟩
    (hf.call.order.keep ⟨rfl, rfl, rfl⟩) rfl hf.recd

theorem Fit.setT (h : cfg.WellPosed ty rank) (hf : Fit cfg ty p m) (t : K) : Fit cfg ty p { m with s := { m.s with tPrev := t } } :=
  hf.next h hf.world ⟨hf.sim.scalars, hf.sim.arrays, hf.sim.total, hf.sim.size, hf.sim.unset, hf.sim.set, hf.sim.order, hf.sim.fast⟩
    (hf.call.order.keep ⟨rfl, rfl, rfl⟩) rfl hf.recd

/-! ### Runs -/

/-- The bound `k` on the number of trials suffices for the loop. -/
def Enough (cfg : Config K) (t minH maxH : K) (k : Nat) (t1 t2 : K) (f : Bool) : Prop :=
  ∃ A n, Answering cfg A ∧ Ends A t minH maxH n t1 t2 f ∧ n < k

/-- The result of a part of a run: it returns, or the bound on the number of trials is reached, but not if `B`. -/
def Gets (B : Prop) (x : EStateM.Result Err (Machine K) Unit) (Q : Machine K → Prop) : Prop :=
  match x with
  | .ok _ m' => Q m'
  | .error e _ => e = .fuel ∧ ¬ B

/-- Times recorded when the loop is about to try a step from `t1`. -/
def OnTime (t t1 : K) (s : K) : Prop := ((t1 <. t) = true → (s <=. t1) = true) ∧ ((t1 <. t) = false → (s <. t) = true)

theorem OrderedArith.refl (ho : OrderedArith K) (a : K) : (a <=. a) = true := (ho.total a a).elim id id

theorem fmin_lt {a b c : K} (hc : (a <. c) = true) (hb : (a <. b) = true) : (a <. fmin b c) = true := by
  unfold fmin
  split
  · exact hc
  · exact hb

theorem Fit.stepper (h : cfg.WellPosed ty rank) (hf : Fit cfg ty p m) (hn : 0 < m.s.nState) : cfg.stepper.isSome = true := by
  refine h.stepper ?_
  have ht := hf.sim.total
  cases hs : m.s.scalarStates with
  | cons a l => exact ⟨a, (hf.sim.scalars a (by rw [hs]; exact List.mem_cons_self)).2⟩
  | nil =>
    cases ha : m.s.arrayStates with
    | cons a l => exact ⟨a, (hf.sim.arrays a (by rw [ha]; exact List.mem_cons_self)).2⟩
    | nil =>
      rw [hs, ha] at ht
      simp only [List.length_nil, List.map_nil, List.sum_nil] at ht
      omega

theorem single_answers {st : Stepper K} (h : st ∈ [euler, rk4]) (t1 : K) (x : List K) (t2 : K) : (st t1 x t2).Answers (fun nh => nh = t2 -. t1) := by
  simp only [List.mem_cons, List.not_mem_nil, or_false] at h
  rcases h with rfl | rfl
  · intro r; rfl
  · intro _ _ _ _; rfl

theorem runs_loop (h : cfg.WellPosed ty rank) (hsome : cfg.stepper.isSome = true) (ho : cfg.Delays → OrderedArith K) (t0 t minH maxH : K) (k : Nat) (t1 t2 : K) (force : Bool)
    (hf : Fit cfg ty (OnTime t t1) m) (h01 : cfg.Delays → (t0 <=. t1) = true)
    (hgo : cfg.Delays → ((∀ st, cfg.stepper = some st → st ∈ [euler, rk4]) ∧ ((t1 <. t) = true → t2 = t)) ∨ ∀ a h : K, (t0 <=. a) = true → (a <. t) = true → (a <. (a +. fmax minH (fmin h maxH))) = true)
    (ht : cfg.Delays → (t1 <. t) = true → (t1 <. t2) = true) (hsv : (t1 <. t) = true ∨ m.s.sv.isSome = true) :
    Gets (Enough cfg t minH maxH k t1 t2 force) (subLoop cfg t minH maxH k t1 t2 force m) (fun m' => Fit cfg ty (fun s => (s <. t) = true) m' ∧ m'.s = { m.s with po := m'.s.po, sv := m'.s.sv } ∧
      m'.s.sv.isSome = true) := by
  have hc : CanCompare cfg := fun hd => (ho hd).total
  induction k generalizing m t1 t2 force with
  | zero => exact ⟨rfl, fun ⟨_, _, _, _, hn⟩ => absurd hn (Nat.not_lt_zero _)⟩
  | succ k ih =>
    unfold subLoop
    by_cases h1 : (t1 <. t) = true
    · simp only [h1, Bool.not_true, Bool.false_eq_true, if_false]
      obtain ⟨x, m1, g1, f1, e1, l1⟩ := runs_begin h hf t1
      rw [bind_of_ok g1]
      have g2 : inW (emit (.trial t1 t2)) m1 = .ok () { m1 with w := { m1.w with log := .trial t1 t2 :: m1.w.log } } := rfl
      have f2 := f1.emit h (.trial t1 t2)
      rw [bind_of_ok g2]
      obtain ⟨st, hst⟩ := Option.isSome_iff_exists.1 hsome
      simp only [hst]
      obtain ⟨r, m3, g3, f3, e3, l3⟩ := runs_exec h hc f2 (st t1 x t2) (by
        have hd := h.typed.stepper st hst t1 t2 x
        rw [l1] at hd
        show (st t1 x t2).Dim m1.s.nState
        rw [e1]; exact hd)
      rw [bind_of_ok g3]
      have hstep : Enough cfg t minH maxH (k + 1) t1 t2 force → (if (force || (t2 -. t1) <=. r.2 || (t2 -. t1) <=. minH) = true then
          Enough cfg t minH maxH k t2 (fmin (t2 +. fmax minH (fmin r.2 maxH)) t) false else
          Enough cfg t minH maxH k t1 (t1 +. fmax minH (fmin r.2 maxH)) (r.2 <=. minH)) := by
        rintro ⟨A, n, hA, he, hn⟩
        have hr2 : A t1 t2 r.2 := by
          have := Tri.answers (P := A t1 t2) (I := fun _ => True) (E := fun _ _ => True) (f := minorCb cfg) (fun s v m _ => by split <;> trivial)
            _ (hA st hst t1 x t2) { m1 with w := { m1.w with log := .trial t1 t2 :: m1.w.log } } trivial
          rw [g3] at this
          exact this.2
        cases he with
        | stop e => rw [h1] at e; cases e
        | step q1 q2 =>
          split
          · rename_i hacc; exact ⟨A, _, hA, q1 _ hr2 hacc, by omega⟩
          · rename_i hacc; exact ⟨A, _, hA, q2 _ hr2 (by simpa using hacc), by omega⟩
      have e3 : m3.s = { m1.s with po := m3.s.po } := e3
      have l3 : r.1.length = m1.s.nState := l3
      have f4 := f3.setSv h (x := r.1) (by rw [l3, e3])
      have g4 : setSim (fun s => { s with sv := some r.1 }) m3 = .ok () { m3 with s := { m3.s with sv := some r.1 } } := rfl
      rw [bind_of_ok g4]
      have e4 : ({ m3.s with sv := some r.1 } : Sim K) = { m.s with po := m3.s.po, sv := some r.1 } := by rw [e3, e1]
      have again : ∀ (m' : Machine K) (u1 u2 : K) (f : Bool), (Enough cfg t minH maxH (k + 1) t1 t2 force → Enough cfg t minH maxH k u1 u2 f) → Fit cfg ty (OnTime t u1) m' →
          (cfg.Delays → (t0 <=. u1) = true) → (cfg.Delays → ((∀ st, cfg.stepper = some st → st ∈ [euler, rk4]) ∧ ((u1 <. t) = true → u2 = t)) ∨
            ∀ a h : K, (t0 <=. a) = true → (a <. t) = true → (a <. (a +. fmax minH (fmin h maxH))) = true) → (cfg.Delays → (u1 <. t) = true → (u1 <. u2) = true) →
          m'.s = { m.s with po := m'.s.po, sv := m'.s.sv } → m'.s.sv.isSome = true →
          Gets (Enough cfg t minH maxH (k + 1) t1 t2 force) (subLoop cfg t minH maxH k u1 u2 f m') (fun m' => Fit cfg ty (fun s => (s <. t) = true) m' ∧ m'.s = { m.s with po := m'.s.po, sv := m'.s.sv } ∧
            m'.s.sv.isSome = true) := by
        intro m' u1 u2 f hen hf' h0u hg hu he hs
        have := ih u1 u2 f hf' h0u hg hu (.inr hs)
        revert this
        cases subLoop cfg t minH maxH k u1 u2 f m' with
        | error e m2 => exact fun ⟨q1, q2⟩ => ⟨q1, fun q => q2 (hen q)⟩
        | ok _ m2 =>
          rintro ⟨q1, q2, q3⟩
          refine ⟨q1, ?_, q3⟩
          have q2 : m2.s = { m'.s with po := m2.s.po, sv := m2.s.sv } := q2
          rw [q2, he]
      split
      · rename_i hacc
        simp only [hacc, if_true] at hstep
        have g5 : inW (emit (.accept t1 t2)) { m3 with s := { m3.s with sv := some r.1 } } = .ok () { w := { m3.w with log := .accept t1 t2 :: m3.w.log }, s := { m3.s with sv := some r.1 } } := rfl
        rw [bind_of_ok g5]
        have f5 := f4.emit h (.accept t1 t2)
        have h02 : cfg.Delays → (t0 <=. t2) = true := fun hd => (ho hd).le_of_lt _ _ ((ho hd).le_trans_lt _ _ _ (h01 hd) (ht hd h1))
        by_cases h2 : (t2 <. t) = true
        · simp only [h2, if_true]
          obtain ⟨m6, m7, g6, g7, f7, e7, _⟩ := runs_given h hc f5 (x := r.1) (by show r.1.length = m3.s.nState; rw [l3, e3]) t2 true
            (fun _ hd s hs => (ho hd).le_trans_lt _ _ _ (hs.1 h1) (ht hd h1))
          have e7 : m7.s = { m3.s with sv := some r.1, po := m7.s.po } := e7
          rw [bind_of_ok g6, bind_of_ok g7]
          have hgo' : cfg.Delays → ∀ a h : K, (t0 <=. a) = true → (a <. t) = true → (a <. (a +. fmax minH (fmin h maxH))) = true := fun hd => by
            rcases hgo hd with ⟨_, q⟩ | q
            · rw [q h1, (ho hd).irrefl] at h2; cases h2
            · exact q
          refine again m7 _ _ _ hstep (f7.mono (fun hd s hs => ?_)) h02 (fun hd => .inr (hgo' hd)) (fun hd _ => ?_) ?_ ?_
          · refine ⟨fun _ => ?_, fun e => by rw [h2] at e; cases e⟩
            rcases hs with hs | ⟨_, rfl⟩
            · exact (ho hd).le_of_lt _ _ ((ho hd).le_trans_lt _ _ _ (hs.1 h1) (ht hd h1))
            · exact (ho hd).refl _
          · exact fmin_lt h2 (hgo' hd _ _ (h02 hd) h2)
          · rw [e7, e3, e1]
          · rw [e7]; rfl
        · simp only [h2]
          refine again _ _ _ _ hstep (f5.mono (fun hd s hs => ?_)) h02 (fun hd => (hgo hd).imp_left (fun q => ⟨q.1, fun e => (h2 e).elim⟩)) (fun hd e => (h2 e).elim) e4 rfl
          exact ⟨fun e => (h2 e).elim, fun _ => (ho hd).le_trans_lt _ _ _ (hs.1 h1) h1⟩
      · rename_i hacc
        simp only [hacc] at hstep
        have hgo' : cfg.Delays → ∀ a h : K, (t0 <=. a) = true → (a <. t) = true → (a <. (a +. fmax minH (fmin h maxH))) = true := fun hd => by
          rcases hgo hd with ⟨q, _⟩ | q
          · have := Tri.answers (P := fun nh => nh = t2 -. t1) (I := fun _ => True) (E := fun _ _ => True) (f := minorCb cfg) (fun s v m _ => by split <;> trivial)
              _ (single_answers (q st hst) t1 x t2) { m1 with w := { m1.w with log := .trial t1 t2 :: m1.w.log } } trivial
            rw [g3] at this
            rw [this.2, (ho hd).refl] at hacc
            simp at hacc
          · exact q
        exact again _ _ _ _ hstep f4 h01 (fun hd => .inr (hgo' hd)) (fun hd _ => hgo' hd _ _ (h01 hd) h1) e4 rfl
    · have h1' : (t1 <. t) = false := by simpa using h1
      simp only [h1', Bool.not_false, if_true]
      refine ⟨hf.mono (fun hd s hs => hs.2 h1'), rfl, hsv.resolve_left h1⟩

theorem runs_finish (h : cfg.WellPosed ty rank) (ho : cfg.Delays → OrderedArith K) (t : K) (hf : Fit cfg ty (fun s => (s <. t) = true) m) (hsv : m.s.sv.isSome = true) :
    ∃ m', finish cfg t m = .ok () m' ∧ Fit cfg ty (fun s => (s <=. t) = true) m' ∧ m'.s = { m.s with po := m'.s.po, tPrev := t } ∧
      Has cfg.Provided m'.w := by
  have hc : CanCompare cfg := fun hd => (ho hd).total
  obtain ⟨x, hx⟩ := Option.isSome_iff_exists.1 hsv
  have hl := hf.svLength hx
  obtain ⟨m1, g1, f1, e1, free1, a1⟩ := runs_reset h hf hl
  obtain ⟨m2, g2, f2, e2, a2⟩ := runs_process h hc f1 t (decide (x.length = 0)) true (fun s hs => free1 s (by
      refine ⟨targets_linked h.drive hs, ?_⟩
      by_cases h0 : x.length = 0
      · exact .inr h0
      · simp only [h0, decide_false] at hs
        exact .inl (targets_state h.drive hs))) (fun _ => a1) (fun _ _ s hs => hs)
  have e : finish cfg t m = (do
      resetWith cfg x
      processModel cfg t (decide (x.length = 0)) true
      setSim (fun s => { s with tPrev := t }) : MM K Unit) m := by
    unfold finish
    rw [bind_apply]
    simp only [getSim, hx]
  refine ⟨{ m2 with s := { m2.s with tPrev := t } }, ?_, (f2.mono (fun hd s hs => ?_)).setT h t, ?_⟩
  · rw [e, bind_of_ok g1, bind_of_ok g2]; rfl
  · rcases hs with hs | ⟨_, rfl⟩
    · exact (ho hd).le_of_lt _ _ hs
    · exact (ho hd).refl _
  · exact ⟨by rw [e2, e1], a2⟩

theorem runs_advance (h : cfg.WellPosed ty rank) (ho : cfg.Delays → OrderedArith K) (fuel : Nat) (t minH maxH : K) (hf : Fit cfg ty (fun s => (s <=. m.s.tPrev) = true) m)
    (hd : cfg.Delays → (m.s.tPrev <. t) = true) (hcmp : Comparable t m.s.tPrev) (hb : (t <. m.s.tPrev) = false) (hmin : (Arith.lit 0 <. minH) = true)
    (hmax : (minH <. maxH) = true) (hfw : cfg.Delays → cfg.Forward m.s.tPrev t minH maxH) (hsome : cfg.stepper.isSome = true) :
    Gets (Enough cfg t minH maxH fuel m.s.tPrev t false) (advance cfg fuel t minH maxH m) (fun m' => Fit cfg ty (fun s => (s <. t) = true) m' ∧ m'.s = { m.s with po := m'.s.po, sv := m'.s.sv } ∧ m'.s.sv.isSome = true) := by
  have e : advance cfg fuel t minH maxH m = (if t <. m.s.tPrev then throwE (.exc .backInTime)
      else if t ==. m.s.tPrev then do
        inW (emit (.warnRepeated t))
        let x ← beginStep cfg t
        setSim (fun s => { s with sv := some x })
      else do
        debugVerify cfg.dbg cfg.stepper.isSome .debugVerify
        debugVerify cfg.dbg (Arith.lit 0 <. minH) .debugVerify
        debugVerify cfg.dbg (minH <. maxH) .debugVerify
        subLoop cfg t minH maxH fuel m.s.tPrev t false : MM K Unit) m := rfl
  rw [e, hb]
  simp only [Bool.false_eq_true, if_false]
  by_cases he : (t ==. m.s.tPrev) = true
  · simp only [he, if_true]
    have g1 : inW (emit (.warnRepeated t)) m = .ok () { m with w := { m.w with log := .warnRepeated t :: m.w.log } } := rfl
    obtain ⟨x, m2, g2, f2, e2, l2⟩ := runs_begin h (hf.emit h (.warnRepeated t)) t
    rw [bind_of_ok g1, bind_of_ok g2]
    have f3 := (f2.mono (fun hd' s hs => (ho hd').le_trans_lt _ _ _ hs (hd hd'))).setSv h (x := x) (by rw [l2, e2])
    exact ⟨f3, by show ({ m2.s with sv := some x } : Sim K) = _; rw [e2], rfl⟩
  · simp only [he, Bool.false_eq_true, if_false]
    have h3 : (m.s.tPrev <. t) = true := (hcmp.resolve_left (by rw [hb]; simp)).resolve_left he
    have v : ∀ c : Bool, c = true → (debugVerify cfg.dbg c .debugVerify : MM K Unit) m = .ok () m := fun c hc => by rw [hc]; simp [debugVerify]
    rw [bind_of_ok (v _ hsome), bind_of_ok (v _ hmin), bind_of_ok (v _ hmax)]
    exact runs_loop h hsome ho m.s.tPrev t minH maxH fuel _ _ _ (hf.mono (fun _ s hs => ⟨fun _ => hs, fun e => by rw [h3] at e; cases e⟩)) (fun hd => (ho hd).refl _)
      (fun hd => (hfw hd).imp_left (fun q => ⟨q, fun _ => rfl⟩)) (fun _ _ => h3) (.inl h3)

/-- `run` on an initialised simulator. -/
theorem runs_run (h : cfg.WellPosed ty rank) (ho : cfg.Delays → OrderedArith K) (fuel : Nat) (t minH maxH : K) (hi : m.s.initialized = true)
    (hf : Fit cfg ty (fun s => (s <=. m.s.tPrev) = true) m) (hfair : (Call.run fuel t minH maxH).Fair cfg m) :
    Gets (Enough cfg t minH maxH fuel m.s.tPrev t false) (run cfg fuel t minH maxH m) (fun m' => Fit cfg ty (fun s => (s <=. m'.s.tPrev) = true) m' ∧ m'.s.initialized = true ∧ m'.s.tPrev = t ∧ Has cfg.Provided m'.w) := by
  obtain ⟨hd, hs⟩ := hfair hi
  have e : run cfg fuel t minH maxH m = (if 0 < m.s.svSize then (do advance cfg fuel t minH maxH; finish cfg t) m else finish cfg t m) := by
    unfold run
    simp only [bind_apply, getSim, hi, Bool.not_true, Bool.false_eq_true, if_false]
    split
    · rw [bind_apply]
    · rfl
  have hfin : ∀ m1 : Machine K, Fit cfg ty (fun s => (s <. t) = true) m1 → m1.s.sv.isSome = true → m1.s.initialized = true →
      Gets (Enough cfg t minH maxH fuel m.s.tPrev t false) (finish cfg t m1) (fun m' => Fit cfg ty (fun s => (s <=. m'.s.tPrev) = true) m' ∧ m'.s.initialized = true ∧ m'.s.tPrev = t ∧ Has cfg.Provided m'.w) := by
    intro m1 f1 s1 i1
    obtain ⟨m2, g2, f2, e2, a2⟩ := runs_finish h ho t f1 s1
    rw [g2]
    have et : m2.s.tPrev = t := by rw [e2]
    refine ⟨?_, by rw [e2]; exact i1, et, a2⟩
    rw [et]; exact f2
  rw [e]
  by_cases h0 : 0 < m.s.svSize
  · rw [if_pos h0]
    obtain ⟨c1, c2, c3, c4, c5⟩ := hs (by rw [← hf.sim.size]; exact h0)
    have ha := runs_advance h ho fuel t minH maxH hf hd c1 c2 c3 c4 c5 (hf.stepper h (by rw [← hf.sim.size]; exact h0))
    rw [bind_apply]
    cases hx : advance cfg fuel t minH maxH m with
    | error e m' => rw [hx] at ha; exact ha
    | ok u m1 =>
      rw [hx] at ha
      obtain ⟨q1, q2, q3⟩ := ha
      exact hfin m1 q1 q3 (by rw [q2]; exact hi)
  · rw [if_neg h0]
    refine hfin m (hf.mono (fun hd' s hs => (ho hd').le_trans_lt _ _ _ hs (hd hd'))) ?_ hi
    cases hsv : m.s.sv with
    | none =>
      have := hf.sim.unset hsv
      rw [← hf.sim.size] at this
      exact (h0 this).elim
    | some x => rfl

/-! ### `init` -/

/-- A simulator before `init`. -/
structure Unused (cfg : Config K) (ty : SigId → Ty) (m : Machine K) : Prop where
  blank : Blank m
  world : m.w.Fine strict cfg ty
  done : ∀ b, m.w.done b = false
  record : ∀ l ∈ cfg.model.leaves, l.isDelay = true → (m.w.mem l.id).ts = []

theorem runs_init (h : cfg.WellPosed ty rank) (ho : cfg.Delays → OrderedArith K) (t : K) (hu : Unused cfg ty m) :
    ∃ m', simInit cfg t m = .ok () m' ∧ Fit cfg ty (fun s => (s <=. m'.s.tPrev) = true) m' ∧ m'.s.initialized = true ∧ m'.s.tPrev = t ∧ Has cfg.Provided m'.w := by
  have hc : CanCompare cfg := fun hd => (ho hd).total
  have hord : OrderInv cfg m := ⟨fun po e => (by rw [hu.blank.po] at e; cases e), fun po e => (by rw [hu.blank.po] at e; cases e),
    fun po e => (by rw [hu.blank.po] at e; cases e), fun l hl => (by rw [hu.blank.fast] at hl; cases hl), by rw [hu.blank.fast]; exact List.nodup_nil,
    fun _ l hl => (by rw [hu.blank.fast] at hl; cases hl), fun _ => hu.blank.fast⟩
  obtain ⟨m1, e1, w1, s1, i1, p1, po1, fa1, _⟩ := base_fine h.typed hu.blank hu.world t
  have hfree := baseInit_free h.drive t m ⟨hu.blank, hord, fun s hd => by rw [hu.world.types]; exact h.sizes s hd⟩
  rw [e1] at hfree
  obtain ⟨c1, free1⟩ := hfree
  obtain ⟨lg, _, e1'⟩ := baseInit_eq cfg t m
  rw [e1] at e1'
  have t1 : m1.s.tPrev = t := by cases e1'; rfl
  have me1 : m1.w.mem = m.w.mem := by cases e1'; rfl
  have d1 : m1.w.done = m.w.done := by cases e1'; rfl
  clear e1'
  have r1 : Recorded cfg (fun _ => False) m1.w := fun l hl hd s hs => by
    rw [me1, hu.record l hl hd] at hs; cases hs
  -- the evaluation at the end
  have last : ∀ m2 : Machine K, Fit cfg ty (fun _ => False) m2 → Free (· ∈ linkedSigs cfg.model) m2.w → m2.s.initialized = true → m2.s.tPrev = t →
      ∃ m', processModel cfg t true true m2 = .ok () m' ∧ Fit cfg ty (fun s => (s <=. m'.s.tPrev) = true) m' ∧ m'.s.initialized = true ∧ m'.s.tPrev = t ∧ Has cfg.Provided m'.w := by
    intro m2 f2 free2 i2 t2
    obtain ⟨m3, g3, f3, e3, a3⟩ := runs_process h hc f2 t true true (fun s hs => free2 s (targets_linked h.drive hs)) (fun e => by cases e)
      (fun _ _ s hs => hs.elim)
    have et : m3.s.tPrev = t := by rw [e3]; exact t2
    refine ⟨m3, g3, ?_, by rw [e3]; exact i2, et, a3⟩
    rw [et]
    exact f3.mono (fun hd s hs => hs.elim False.elim (fun e => by rw [e.2]; exact (ho hd).refl _))
  unfold simInit
  rw [bind_of_ok e1]
  cases hs : cfg.strategy with
  | plain =>
    have hf := s1 m1.s.po (.inr (by rw [hs]; simp)) (fun p e => by rw [po1] at e; cases e)
    exact last m1 ⟨w1, hf, c1, (fun e => by rw [hs] at e; cases e), r1⟩ free1 i1 t1
  | reuse =>
    dsimp only
    rw [bind_apply]
    simp only [getSim, p1 hs, if_true, po1]
    have hw' : BlocksOf cfg cfg.model.all := fun l hl => (leaf_mem_all _ l).2 hl
    have hf := s1 (some cfg.model.all) (.inl rfl) (fun p e => by cases e; exact hw')
    have hv : (debugVerify cfg.dbg (none : Option (List (Block K))).isNone Exc.debugVerify : MM K Unit) m1 = .ok () m1 := by simp [debugVerify]
    have hpo : (setSim (fun s : Sim K => { s with po := some cfg.model.all }) : MM K Unit) m1 = .ok () { m1 with s := { m1.s with po := some cfg.model.all } } := rfl
    rw [bind_of_ok hv, bind_of_ok hpo]
    refine last { m1 with s := { m1.s with po := some cfg.model.all } } ⟨w1, hf, ⟨?_, ⟨c1.layout.valueSigs, c1.layout.scalarStates, c1.layout.arrayStates, c1.layout.nState⟩,
      c1.sizes⟩, (fun e => by rw [hs] at e; cases e), r1⟩ free1 i1 t1
    exact ⟨fun po e => (by cases e; exact h.typed.proper), fun po e b hb => (by cases e; exact hb), fun po e b hb _ => (by cases e; exact hb),
      c1.order.fastSub, c1.order.fastNodup, c1.order.fastDone, c1.order.fastNil⟩
  | fast =>
    have hf := s1 m1.s.po (.inr (by rw [hs]; simp)) (fun p e => by rw [po1] at e; cases e)
    dsimp only
    rw [bind_apply]
    simp only [getSim, fa1]
    have hv : (debugVerify cfg.dbg ([] : List (List (Leaf K))).isEmpty Exc.debugVerify : MM K Unit) m1 = .ok () m1 := by simp [debugVerify]
    rw [bind_of_ok hv]
    obtain ⟨w2, g2, f2, d2, me2, s2, a2⟩ := runs_inputs h w1 t (fun s hs => free1 s (mem_linkedSigs cfg s (h.drivers.inputLink t s hs)))
    obtain ⟨w3, g3, f3, d3, s3, r3, a3⟩ := runs_pre h f2 t (fun s ⟨l, hl, hs⟩ => by
      rw [s2 s (h.drivers.preInput l hl s hs t)]; exact free1 s (mem_linkedSigs cfg s (h.drivers.preLink l hl s hs)))
    rw [bind_of_ok (inW_of g2), bind_of_ok (inW_of (m := { m1 with w := w2 }) g3)]
    have hsrc : Has cfg.Source w3 := fun s hs' => by
      rcases hs' with hs' | hs'
      · rw [s3 s (fun l hl hs => h.drivers.preInput l hl s hs t (hs' t))]; exact a2 s (hs' t)
      · exact a3 s hs'
    have hfree3 : Free (fun s => ∃ l ∈ cfg.model.leaves, s ∈ l.outs) w3 := fun s ⟨l, hl, hs⟩ => by
      rw [s3 s (fun l' hl' => h.drivers.outPre l hl l' hl' s hs), s2 s (h.drivers.outInput l hl s hs t)]
      exact free1 s (mem_linkedSigs cfg s (h.drivers.outLink l hl s hs))
    have h0 : ∀ l ∈ cfg.model.leaves, w3.done l.id = false := fun l _ => by rw [d3, d2, d1]; exact hu.done _
    have rec3 : Recorded cfg (fun _ => False) w3 := r3 _ (r1.mem me2)
    have hI : ∀ l ∈ cfg.model.leaves, cfg.model.leafId l.id := fun l hl => List.mem_map_of_mem hl
    have hev := fastOrder_completes (dbg := cfg.dbg) (t := t) (I := cfg.model.leafId) cfg.model.leaves h.typed.proper.leafNodup hI (Nat.lt_succ_self _) w3
    unfold Completes Evals at hev
    rw [Nat.succ_eq_add_one] at hev
    have hk := keeps_order h.typed hc t (cfg.model.leaves.length + 1) w3 f3
    have hn := fastOrder_noRe h.typed.proper h.honest.act h.drivers.outs h.drivers.outOut t w3 hfree3
    cases hx : fastOrder cfg.dbg t cfg.model.leaves (cfg.model.leaves.length + 1) w3 with
    | error e w4 =>
      rw [hx] at hev hk hn
      obtain ⟨ls, wm, q1, q2, q3⟩ := hev
      exact (not_excused (fails_excused h (Steps.fine h hc q2 q1 f3 rec3).1 q3) hn hk.1).elim
    | ok r w4 =>
      rw [hx] at hev hk
      obtain ⟨ls, q1, q2, q3, q4, q5⟩ := hev
      obtain ⟨hall, _⟩ := steps_provided h h0 q1 q2 q3 hsrc
      have hb := q2.basic (fun l hl => hI l (q1 l hl))
      have hperm : ls.Perm cfg.model.leaves :=
        (List.perm_ext_iff_of_nodup (List.Nodup.of_map _ hb.nodup) (List.Nodup.of_map _ h.typed.proper.leafNodup)).2 (fun l => ⟨q1 l, hall l⟩)
      have hlen : r.2 = cfg.model.leaves.length := by rw [q5, hperm.length_eq]
      rw [bind_of_ok ((levels_ok cfg t).2 (inW_of (m := { m1 with w := w3 }) hx))]
      have g5 : (setSim (fun s : Sim K => { s with fast := s.fast ++ r.1 }) : MM K Unit) { m1 with w := w4 } = .ok () { w := w4, s := { m1.s with fast := m1.s.fast ++ r.1 } } := rfl
      rw [bind_of_ok g5]
      simp only [hlen, ne_eq, not_true_eq_false, if_false]
      have hflat : (m1.s.fast ++ r.1).flatten = ls := by rw [fa1, ← q4]; rfl
      have hfo : cfg.FastOrder ls := by
        refine ⟨hperm, q2.follows.mono (fun l hl s hreq ha => ?_)⟩
        have hlk := mem_linkedSigs cfg s (requires_linked (q1 l hl) hreq)
        by_cases hpre : ∃ l ∈ cfg.model.leaves, s ∈ l.preOuts
        · exact .inr hpre
        · left
          refine ⟨t, ?_⟩
          by_contra hk
          rw [s3 s (fun l hl ho => hpre ⟨l, hl, ho⟩), s2 s hk, free1 s hlk] at ha
          cases ha
      have hfit : Fit cfg ty (fun _ => False) { w := w4, s := { m1.s with fast := m1.s.fast ++ r.1 } } := by
        refine ⟨hk.1, ⟨hf.scalars, hf.arrays, hf.total, hf.size, hf.unset, hf.set, (fun e => by rw [hs] at e; cases e), fun l hl => ?_⟩, ⟨⟨?_, ?_, ?_, ?_, ?_, ?_, ?_⟩, ?_, ?_⟩, fun _ => ?_, ?_⟩
        · have hl : l ∈ (m1.s.fast ++ r.1).flatten := hl
          rw [hflat] at hl; exact q1 l hl
        · exact c1.order.poNodup
        · exact c1.order.poSub
        · exact c1.order.poAll
        · intro l hl
          have hl : l ∈ (m1.s.fast ++ r.1).flatten := hl
          rw [hflat] at hl; exact q1 l hl
        · show (List.map Leaf.id (m1.s.fast ++ r.1).flatten).Nodup
          rw [hflat]; exact hb.nodup
        · intro _ l hl
          have hl : l ∈ (m1.s.fast ++ r.1).flatten := hl
          rw [hflat] at hl
          exact (hb.done l.id (hI l (q1 l hl))).2 (.inr (List.mem_map_of_mem hl))
        · exact fun e => (e hs).elim
        · exact c1.layout.fixed ⟨rfl, rfl, rfl, rfl, rfl, fun s => by rw [hk.1.types, w1.types]⟩
        · intro s hd
          show 0 < (w4.sig s).ty.size
          rw [hk.1.types]; exact h.sizes s hd
        · show cfg.FastOrder (m1.s.fast ++ r.1).flatten
          rw [hflat]; exact hfo
        · exact (Steps.fine h hc q2 q1 f3 rec3).2
      obtain ⟨w6, g6, f6, free6⟩ := runs_clear h hfit
      rw [bind_of_ok (inW_of g6)]
      exact last _ f6 free6 i1 t1

/-! ### Calls -/

/-- The invariant of the calls. -/
structure Cared (cfg : Config K) (ty : SigId → Ty) (m : Machine K) : Prop where
  new : m.s.initialized = false → Unused cfg ty m
  fit : m.s.initialized = true → Fit cfg ty (fun s => (s <=. m.s.tPrev) = true) m

/-- The bound on the number of trials suffices for the call. -/
def Call.Enough (cfg : Config K) (m : Machine K) : Call K → Prop
  | .init _ => True
  | .run fuel t minH maxH => m.s.initialized = true → Pooya.Enough cfg t minH maxH fuel m.s.tPrev t false

/-- `init` returns; `run` returns or needs more trial steps. -/
theorem runs_call (h : cfg.WellPosed ty rank) (ho : cfg.Delays → OrderedArith K) (hm : Cared cfg ty m) (c : Call K) (hf : c.Fair cfg m) :
    Gets (c.Enough cfg m) (c.exec cfg m) (fun m' => Cared cfg ty m' ∧ m'.s.initialized = true ∧ m'.s.tPrev = c.time ∧ Has cfg.Provided m'.w) := by
  have care : ∀ {m' : Machine K}, Fit cfg ty (fun s => (s <=. m'.s.tPrev) = true) m' → m'.s.initialized = true → Cared cfg ty m' :=
    fun f i => ⟨fun e => Bool.noConfusion (i.symm.trans e), fun _ => f⟩
  have hinit : ∀ B t, m.s.initialized = false → Gets B (simInit cfg t m) (fun m' => Cared cfg ty m' ∧ m'.s.initialized = true ∧ m'.s.tPrev = t ∧ Has cfg.Provided m'.w) := by
    intro B t hi
    obtain ⟨m', g, f, i, e⟩ := runs_init h ho t (hm.new hi)
    rw [g]
    exact ⟨care f i, i, e⟩
  cases c with
  | init t => exact hinit _ t hf
  | run fuel t a b =>
    cases hi : m.s.initialized with
    | false =>
      have e : Call.exec cfg (.run fuel t a b) m = simInit cfg t m := run_init cfg fuel t a b m hi
      rw [e]
      exact hinit _ t hi
    | true =>
      have := runs_run h ho fuel t a b hi (hm.fit hi) hf
      show Gets (Call.Enough cfg m (.run fuel t a b)) (run cfg fuel t a b m) _
      revert this
      cases run cfg fuel t a b m with
      | error e m' => exact fun ⟨q1, q2⟩ => ⟨q1, fun q => q2 (q hi)⟩
      | ok u m' => exact fun ⟨f, i, e⟩ => ⟨care f i, i, e⟩

theorem attended_cared (h : cfg.WellPosed ty rank) (ho : cfg.Delays → OrderedArith K) (hm : Attended cfg ty m) : Cared cfg ty m := by
  induction hm with
  | new w t hw => exact ⟨fun _ => ⟨⟨rfl, rfl, rfl, rfl, rfl, rfl, rfl⟩, hw.fine, hw.done, hw.record⟩, fun e => by cases e⟩
  | call c _ hf he ih =>
    have := runs_call h ho ih c hf
    rw [he] at this
    exact this.1
  | user sig _ hs ih =>
    refine ⟨fun e => ?_, fun e => ?_⟩
    · have u := ih.new e
      exact ⟨⟨u.blank.valueSigs, u.blank.scalarStates, u.blank.arrayStates, u.blank.nState, u.blank.sv, u.blank.po, u.blank.fast⟩,
        ⟨fun s => (hs s).1, fun s => (hs s).2, u.world.members⟩, u.done, u.record⟩
    · have f := ih.fit e
      exact f.setW h ⟨fun s => (hs s).1, fun s => (hs s).2, f.world.members⟩ rfl f.recd

end Pooya
