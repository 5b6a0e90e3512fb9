import Verif.Proof.Twin
import Verif.Proof.Static
import Verif.Spec.Variant

/-! Initialising a simulator again: models without state variables. -/

namespace Pooya

set_option linter.unusedSectionVars false

variable {K : Type} [Arith K] {cfg : Config K}

/-- The members of a simulator of a model without state variables. -/
structure Bare (cfg : Config K) (m : Machine K) : Prop where
  scalar : m.s.scalarStates = []
  array : m.s.arrayStates = []
  nState : m.s.nState = 0
  sv : m.s.sv = some []
  sigs : ∀ s ∈ m.s.valueSigs, s ∈ cfg.hash (linkedSigs cfg.model)

theorem Bare.size {m : Machine K} (h : Bare cfg m) : m.s.svSize = 0 := by unfold Sim.svSize; rw [h.sv]; rfl

/-- The same, but signals may be listed several times. -/
structure Again (cfg : Config K) (m1 m2 : Machine K) : Prop where
  w : m1.w = m2.w
  bare1 : Bare cfg m1
  bare2 : Bare cfg m2
  time : m1.s.tPrev = m2.s.tPrev
  init : m1.s.initialized = m2.s.initialized
  sigs : ∀ s, s ∈ m1.s.valueSigs ↔ s ∈ m2.s.valueSigs

theorem Again.withW {m1 m2 : Machine K} (h : Again cfg m1 m2) (w : World K) : Again cfg { m1 with w := w } { m2 with w := w } :=
  ⟨rfl, ⟨h.bare1.1, h.bare1.2, h.bare1.3, h.bare1.4, h.bare1.5⟩, ⟨h.bare2.1, h.bare2.2, h.bare2.3, h.bare2.4, h.bare2.5⟩, h.time, h.init, h.sigs⟩

theorem again_inW {α : Type} (x : M K α) : Twin false (Again cfg) (inW x) (inW x) := by
  intro m1 m2 h
  unfold inW
  rw [h.w]
  cases x m2.w with
  | ok a w => exact ⟨rfl, h.withW w⟩
  | error e w => exact .inr ⟨rfl, h.withW w⟩

theorem again_process (hst : cfg.strategy = .plain) (t : K) (p q : Bool) : Twin false (Again cfg) (processModel cfg t p q) (processModel cfg t p q) := by
  unfold processModel evalModel
  rw [hst]
  have he := fun (x y : M K Unit) => (again_inW (cfg := cfg) x).bind (fun _ => again_inW y)
  cases p <;> cases q
  · exact (again_inW _).bind (fun _ => (Twin.pure ()).bind (fun _ => (he _ _).bind (fun _ => Twin.pure ())))
  · exact (again_inW _).bind (fun _ => (Twin.pure ()).bind (fun _ => (he _ _).bind (fun _ => again_inW _)))
  · exact (again_inW _).bind (fun _ => (again_inW _).bind (fun _ => (he _ _).bind (fun _ => Twin.pure ())))
  · exact (again_inW _).bind (fun _ => (again_inW _).bind (fun _ => (he _ _).bind (fun _ => again_inW _)))

theorem clearAll_members {ss ss' : List SigId} (h : ∀ s, s ∈ ss ↔ s ∈ ss') (w : World K) : clearAll ss w = clearAll ss' w := by
  rw [clearAll_ok, clearAll_ok]
  congr 2
  funext s
  simp only [h s]

theorem again_finish (hst : cfg.strategy = .plain) (t : K) : Twin false (Again cfg) (finish cfg t) (finish cfg t) := by
  intro m1 m2 h
  unfold finish
  rw [bind_apply, bind_apply]
  simp only [getSim]
  rw [h.bare1.sv, h.bare2.sv]
  have hr : Twin false (Again cfg) (resetWith cfg []) (resetWith cfg []) := by
    intro m1 m2 h
    unfold resetWith
    rw [bind_apply, bind_apply]
    simp only [getSim]
    rw [h.bare1.scalar, h.bare1.array, h.bare2.scalar, h.bare2.array]
    have e : (clearAll m1.s.valueSigs : M K Unit) = clearAll m2.s.valueSigs := funext (clearAll_members h.sigs)
    rw [e]
    exact ((again_inW _).bind (fun _ => (again_inW _).bind (fun _ => again_inW _))) m1 m2 h
  refine (hr.bind (fun _ => (again_process hst t _ true).bind (fun _ => ?_))) m1 m2 h
  intro m1 m2 h
  exact ⟨rfl, h.w, ⟨h.bare1.1, h.bare1.2, h.bare1.3, h.bare1.4, h.bare1.5⟩, ⟨h.bare2.1, h.bare2.2, h.bare2.3, h.bare2.4, h.bare2.5⟩, rfl, h.init, h.sigs⟩

/-- The result of `init`. -/
theorem again_init (hst : cfg.strategy = .plain) (hp : ∀ l, (cfg.hash l).Perm l) (hd : ∀ s, cfg.deriv s = none) (t0 : K) {m1 m2 : Machine K} (hw : m1.w = m2.w)
    (b1 : Bare cfg m1) (b2 : Bare cfg m2) : TwinOut false (Again cfg) (simInit cfg t0 m1) (simInit cfg t0 m2) := by
  have hs : ∀ w : World K, scalarStatesOf cfg w = [] := fun w => by
    unfold scalarStatesOf; rw [List.filter_eq_nil_iff]; intro s _; simp [hd s]
  have ha : ∀ w : World K, arrayStatesOf cfg w = [] := fun w => by
    unfold arrayStatesOf; rw [List.filter_eq_nil_iff]; intro s _; simp [hd s]
  have hz : ∀ w : World K, stateSize cfg w = 0 := fun w => by unfold stateSize; rw [hs, ha]; rfl
  have key : ∃ n1 n2, baseInit cfg t0 m1 = .ok () n1 ∧ baseInit cfg t0 m2 = .ok () n2 ∧ Again cfg n1 n2 := by
    have hh : ∀ m : Machine K, Bare cfg m → ∀ s, s ∈ m.s.valueSigs ++ cfg.hash (linkedSigs cfg.model) ↔ s ∈ cfg.hash (linkedSigs cfg.model) :=
      fun m hb s => by rw [List.mem_append]; exact ⟨fun h => h.elim (hb.sigs s) id, .inr⟩
    have ex : ∀ m : Machine K, Bare cfg m → ∃ n, baseInit cfg t0 m = .ok () n ∧ Bare cfg n ∧ n.s.tPrev = t0 ∧ n.s.initialized = true ∧
        (∀ s, s ∈ n.s.valueSigs ↔ s ∈ cfg.hash (linkedSigs cfg.model)) ∧
        n.w = stateOf ((do (if cfg.stepper.isSome then emit .warnStepper else pure ()); clearAll (cfg.hash (linkedSigs cfg.model))) m.w) := by
      intro m hb
      have h0 : cfg.hash [] = [] := List.perm_nil.1 (hp [])
      have e1 := clearAll_members (K := K) (hh m hb)
      unfold baseInit
      rw [bind_apply]
      simp only [get_apply]
      rw [hz, hs, ha, h0]
      by_cases hc : cfg.stepper.isSome = true
      · simp only [bind_apply, setSim, hc, if_true, inW, emit, getSim, decide_true, Bool.and_true]
        rw [e1]
        simp only [clearAll_ok, hb.size, if_true, List.append_nil]
        exact ⟨_, rfl, ⟨hb.scalar, hb.array, rfl, hb.sv, fun s hs => (hh m hb s).1 hs⟩, rfl, rfl, hh m hb, rfl⟩
      · simp only [bind_apply, setSim, hc, inW, getSim, decide_true, Bool.and_false, Bool.false_eq_true, if_false, pure_apply]
        rw [e1]
        simp only [clearAll_ok, hb.size, if_true, List.append_nil]
        exact ⟨_, rfl, ⟨hb.scalar, hb.array, rfl, hb.sv, fun s hs => (hh m hb s).1 hs⟩, rfl, rfl, hh m hb, rfl⟩
    obtain ⟨n1, e1, c1, a1, i1, v1, w1⟩ := ex m1 b1
    obtain ⟨n2, e2, c2, a2, i2, v2, w2⟩ := ex m2 b2
    exact ⟨n1, n2, e1, e2, ⟨by rw [w1, w2, hw], c1, c2, by rw [a1, a2], by rw [i1, i2], fun s => (v1 s).trans (v2 s).symm⟩⟩
  obtain ⟨n1, n2, e1, e2, hA⟩ := key
  unfold simInit
  rw [hst, bind_of_ok e1, bind_of_ok e2]
  exact again_process hst t0 true true n1 n2 hA

theorem again_run (hst : cfg.strategy = .plain) (hp : ∀ l, (cfg.hash l).Perm l) (hd : ∀ s, cfg.deriv s = none) (n : Nat) (t minH maxH : K) :
    Twin false (Again cfg) (run cfg n t minH maxH) (run cfg n t minH maxH) := by
  intro m1 m2 h
  unfold run
  rw [bind_apply, bind_apply]
  simp only [getSim]
  rw [h.bare1.size, h.bare2.size, h.init]
  cases m2.s.initialized with
  | false => exact again_init hst hp hd t h.w h.bare1 h.bare2
  | true => exact (Twin.bind (Twin.pure ()) (fun _ => again_finish hst t)) m1 m2 h

theorem again_runs (hst : cfg.strategy = .plain) (hp : ∀ l, (cfg.hash l).Perm l) (hd : ∀ s, cfg.deriv s = none) (as : List (RunArgs K)) :
    Twin false (Again cfg) (runs cfg as) (runs cfg as) := by
  induction as with
  | nil => exact Twin.pure ()
  | cons a as ih => exact (again_run hst hp hd _ _ _ _).bind (fun _ => ih)

theorem again_simulate (hst : cfg.strategy = .plain) (hp : ∀ l, (cfg.hash l).Perm l) (hd : ∀ s, cfg.deriv s = none) (t0 : K) (as : List (RunArgs K)) {m1 m2 : Machine K}
    (hw : m1.w = m2.w) (b1 : Bare cfg m1) (b2 : Bare cfg m2) : TwinOut false (Again cfg) (simulate cfg t0 as m1) (simulate cfg t0 as m2) := by
  have h := again_init hst hp hd t0 hw b1 b2
  unfold simulate
  rw [bind_apply, bind_apply]
  cases h1 : simInit cfg t0 m1 with
  | ok _ n1 =>
    cases h2 : simInit cfg t0 m2 with
    | ok _ n2 => rw [h1, h2] at h; exact again_runs hst hp hd as n1 n2 h.2
    | error e n2 => rw [h1, h2] at h; exact h.elim
  | error e n1 =>
    cases h2 : simInit cfg t0 m2 with
    | ok _ n2 => rw [h1, h2] at h; cases h
    | error e n2 => rw [h1, h2] at h; exact h

theorem TwinOut.diag {α : Type} {r : EStateM.Result Err (Machine K) α} (h : TwinOut false (Again cfg) r r) : Again cfg (stateOf r) (stateOf r) := by
  cases r with
  | ok a m => exact h.2
  | error e m => exact (h.resolve_left (by simp)).2

/-- All reachable states of a model without state variables. -/
theorem bare_reach (hst : cfg.strategy = .plain) (hp : ∀ l, (cfg.hash l).Perm l) (hd : ∀ s, cfg.deriv s = none) {m : Machine K} (h : Reach cfg m) : Bare cfg m := by
  induction h with
  | new w t _ _ => exact ⟨rfl, rfl, rfl, rfl, fun s hs => by cases hs⟩
  | user sig _ ih => exact ⟨ih.1, ih.2, ih.3, ih.4, ih.5⟩
  | @call m c _ ih =>
    cases c with
    | init t => exact (TwinOut.diag (again_init hst hp hd t rfl ih ih)).bare1
    | run n t a b => exact (TwinOut.diag (again_run hst hp hd n t a b m m ⟨rfl, ih, ih, rfl, rfl, fun _ => .rfl⟩)).bare1

end Pooya
