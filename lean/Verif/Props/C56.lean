import Verif.Proof.TypedRun
import Verif.Props.C26
import Verif.Spec.Demo

/-! # C56 — a well-typed diagram never runs into undefined behaviour

Debug builds; the types are stated in `Verif/Spec/Typed.lean`. -/

namespace Pooya.C56

set_option linter.unusedSectionVars false

variable {K : Type} [Arith K]

/-- C56: no call, whatever calls came before it and however they ended, has undefined behaviour. -/
theorem C56_no_ub (cfg : Config K) (pol : Policy) (ty : SigId → Ty) (h : cfg.WellTyped pol ty) (hp : pol.overflow = false)
    (hc : cfg.Delays → ∀ a b : K, (a <=. b) = true ∨ (b <=. a) = true)
    (m : Machine K) (hm : Steered pol cfg ty m) (c : Call K) (ha : c.Admissible m) (u : Ub) (m' : Machine K) : c.exec cfg m ≠ .error (.ub u) m' := by
  intro e
  have := (call_fine h hc (steered_fine h hc hm) c ha).1
  rw [e] at this
  exact Bool.noConfusion (hp.symm.trans this.1)

/-- C56 with integer gains, whose product may leave the range of `int`: no other undefined behaviour. -/
theorem C56_overflow_only (cfg : Config K) (pol : Policy) (ty : SigId → Ty) (h : cfg.WellTyped pol ty)
    (hc : cfg.Delays → ∀ a b : K, (a <=. b) = true ∨ (b <=. a) = true)
    (m : Machine K) (hm : Steered pol cfg ty m) (c : Call K) (ha : c.Admissible m) (u : Ub) (m' : Machine K) (he : c.exec cfg m = .error (.ub u) m') :
    u = .intOverflow := by
  have := (call_fine h hc (steered_fine h hc hm) c ha).1
  rw [he] at this
  exact this.2

/-- C56: if the sizes of arrays also agree wherever values are assigned, no call ends with the exception for different sizes. -/
theorem C56_sizes_agree (cfg : Config K) (pol : Policy) (ty : SigId → Ty) (h : cfg.WellTyped pol ty) (hp : pol.sizes = true)
    (hc : cfg.Delays → ∀ a b : K, (a <=. b) = true ∨ (b <=. a) = true)
    (m : Machine K) (hm : Steered pol cfg ty m) (c : Call K) (ha : c.Admissible m) (m' : Machine K) : c.exec cfg m ≠ .error (.exc .sizeMismatch) m' := by
  intro e
  have : Err.Fine pol (.exc .sizeMismatch) := by
    have := (call_fine h hc (steered_fine h hc hm) c ha).1
    rw [e] at this
    exact this
  exact Bool.noConfusion (hp.symm.trans this)

/-- C56: all signals always hold values of their types, arrays of their sizes, and every assigned signal holds a value. -/
theorem C56_values_fit (cfg : Config K) (pol : Policy) (ty : SigId → Ty) (h : cfg.WellTyped pol ty)
    (hc : cfg.Delays → ∀ a b : K, (a <=. b) = true ∨ (b <=. a) = true)
    (m : Machine K) (hm : Steered pol cfg ty m) (s : SigId) :
    ((m.w.sig s).assigned = true → ∃ v, (m.w.sig s).value = some v) ∧ ∀ v, (m.w.sig s).value = some v → v.Fits (ty s) := by
  have := (steered_fine h hc hm).world
  exact ⟨fun e => Option.isSome_iff_exists.1 ((this.cells s).full e), fun v e => this.types s ▸ (this.cells s).fits v e⟩

/-! ## Examples -/

theorem demo_wellTyped (pol : Policy) (st : Strategy) : (Demo.cfg st).WellTyped pol (fun _ => .scalar) where
  dbg := rfl
  proper := Demo.proper st
  hash := fun _ => .refl _
  leaves := by
    show ∀ l ∈ Demo.model.leaves, _
    rw [Demo.leaves_eq]
    intro l hl
    simp only [List.mem_cons, List.not_mem_nil, or_false] at hl
    rcases hl with rfl | rfl | rfl | rfl
    · exact ⟨trivial, .scalar, ⟨rfl, rfl⟩, ⟨trivial, fun _ => rfl⟩, fun _ _ => rfl⟩
    · exact ⟨trivial, trivial, fun _ => rfl⟩
    · exact fun t => ⟨rfl, fun _ => rfl⟩
    · trivial
  inputs := fun f h => by cases h
  modelInput := fun t => ⟨fun p hp => (by cases hp), fun e h => (by cases h)⟩
  deriv := fun _ _ _ => ⟨trivial, rfl⟩
  stepper := fun st h => by cases h; exact C26.dim_provided.1
  states := fun _ w hw => by
    have : stateSize (Demo.cfg st) w = stateSize (Demo.cfg st) Demo.world := stateSize_ty (fun s => hw s)
    rw [this]; cases st <;> decide +kernel

theorem demo_noDelay (st : Strategy) : ¬ (Demo.cfg st).Delays := by
  rintro ⟨l, hl, hd⟩
  have hl : l ∈ Demo.model.leaves := hl
  rw [Demo.leaves_eq] at hl
  simp only [List.mem_cons, List.not_mem_nil, or_false] at hl
  rcases hl with rfl | rfl | rfl | rfl <;> cases hd

theorem demo_fine (pol : Policy) (st : Strategy) : Demo.world.Fine pol (Demo.cfg st) (fun _ => .scalar) where
  types := fun _ => rfl
  cells := fun _ => ⟨fun e => (by cases e), fun v e => (by cases e)⟩
  members := by
    show ∀ l ∈ Demo.model.leaves, _
    rw [Demo.leaves_eq]
    intro l hl
    simp only [List.mem_cons, List.not_mem_nil, or_false] at hl
    rcases hl with rfl | rfl | rfl | rfl <;> first | trivial | exact ⟨rfl, fun _ => rfl⟩

/-- After `init` and a failing call, the hypotheses of the theorems hold for the next call. -/
example (pol : Policy) (st : Strategy) : ∃ m, Steered pol (Demo.cfg st) (fun _ => .scalar) m ∧ m.s.initialized = true ∧ (Call.run 100 1 (1/10) 10).Admissible m ∧
    returns (Call.exec (Demo.cfg st) (.run 100 1 5 2) (stateOf (Call.exec (Demo.cfg st) (.init 0) Demo.start))) = false := by
  have h1 : Steered pol (Demo.cfg st) (fun _ => .scalar) (stateOf (Call.exec (Demo.cfg st) (.init 0) Demo.start)) :=
    .call (.init 0) (.new Demo.world 0 (demo_fine pol st)) rfl (fun h => (demo_noDelay st h).elim)
  have h2 := Steered.call (.run 100 1 5 2) h1 (fun _ => by cases st <;> (unfold Comparable; decide +kernel)) (fun h => (demo_noDelay st h).elim)
  refine ⟨_, h2, ?_, fun _ => ?_, ?_⟩
  · cases st <;> decide +kernel
  · cases st <;> (unfold Comparable; decide +kernel)
  · cases st <;> decide +kernel

/-! ### A `Delay` -/

/-- A delay (block 1) of signal 0, by signal 1, with initial value signal 2; `known` says at which times the delayed signal is assigned. -/
def delayLeaf {K : Type} [Arith K] : Leaf K := { id := 1, links := [(0, Demo.rq), (1, Demo.rq), (2, Demo.rq), (3, Demo.ot)], kind := .delay (Arith.lit 10) 0 1 2 3 }

def delayCfg {K : Type} [Arith K] (st : Strategy) (d : K) (known : K → Bool) : Config K where
  dbg := true
  model := .sub 100 [] [.leaf delayLeaf]
  deriv _ := none
  inputs := none
  modelInput t := ([(1, .scalar d), (2, .scalar (Arith.lit 7))] ++ if known t then [(0, .scalar (Arith.lit 5))] else [], none)
  stepper := none
  strategy := st
  hash := id

def delayStart {K : Type} [Arith K] : Machine K where
  w := { sig := fun _ => { ty := .scalar }, mem := fun _ => { value := .scalar (Arith.lit 0) }, done := fun _ => false, log := [] }
  s := { tPrev := Arith.lit 0 }

theorem delay_wellTyped (pol : Policy) {K : Type} [Arith K] (st : Strategy) (hst : st ≠ .reuse) (d : K) (known : K → Bool) : (delayCfg st d known).WellTyped pol (fun _ => .scalar) where
  dbg := rfl
  proper := by
    have : (delayCfg st d known).model.ids = [100, 1] := by simp [delayCfg, delayLeaf, Block.ids, Block.all, allL, Block.id]
    unfold Block.Proper
    rw [this]
    decide
  hash := fun _ => .refl _
  leaves := by
    intro l hl
    have : l ∈ [delayLeaf (K := K)] := by simpa [delayCfg, Block.leaves, leavesL] using hl
    simp only [List.mem_singleton] at this
    subst this
    exact ⟨trivial, ⟨trivial, fun _ => rfl⟩, rfl, trivial, fun _ => rfl⟩
  inputs := fun f h => by cases h
  modelInput := fun t => ⟨fun p hp => by
    cases hk : known t
    · simp only [delayCfg, hk, Bool.false_eq_true, if_false, List.append_nil, List.mem_cons, List.not_mem_nil, or_false] at hp
      rcases hp with rfl | rfl <;> exact ⟨rfl, fun _ => rfl⟩
    · simp only [delayCfg, hk, if_true, List.cons_append, List.nil_append, List.mem_cons, List.not_mem_nil, or_false] at hp
      rcases hp with rfl | rfl | rfl <;> exact ⟨rfl, fun _ => rfl⟩, fun e h => (by cases h)⟩
  deriv := fun _ _ h => by cases h
  stepper := fun _ h => by cases h
  states := fun e => (hst e).elim

theorem delay_fine (pol : Policy) {K : Type} [Arith K] (st : Strategy) (d : K) (known : K → Bool) : (delayStart (K := K)).w.Fine pol (delayCfg st d known) (fun _ => .scalar) where
  types := fun _ => rfl
  cells := fun _ => ⟨fun e => (by cases e), fun v e => (by cases e)⟩
  members := by
    intro l hl
    have : l ∈ [delayLeaf (K := K)] := by simpa [delayCfg, Block.leaves, leavesL] using hl
    simp only [List.mem_singleton] at this
    subst this
    exact ⟨fun v hv => (by cases hv), rfl⟩

/-- A model with a `Delay` meets the hypotheses after calls that return. -/
example (pol : Policy) : Steered pol (delayCfg .plain (1/2 : ℚ) (fun _ => true)) (fun _ => .scalar) (stateOf (Call.exec (delayCfg .plain (1/2 : ℚ) (fun _ => true)) (.init 0) delayStart)) ∧
    ∀ a b : ℚ, (a <=. b) = true ∨ (b <=. a) = true :=
  ⟨.call (.init 0) (.new _ _ (delay_fine pol .plain (1/2 : ℚ) (fun _ => true))) rfl (fun _ => by decide +kernel), fun a b => by
    show decide (a ≤ b) = true ∨ decide (b ≤ a) = true
    simpa using le_total a b⟩

/-! ## Where the hypotheses are needed -/

/-- The result of a call is this undefined behaviour. -/
def isUb {σ α : Type} (u : Ub) : EStateM.Result Err σ α → Bool
  | .error (.ub u') _ => decide (u' = u)
  | _ => false

/-- C56 is false after a failed call if the model has a `Delay`: `post_step` stores the time, then reads the input, which throws if the input is not
assigned; the next evaluation then takes the last element of an empty vector. -/
theorem C56_delay_after_failure_refuted (pol : Policy) :
    ∃ (cfg : Config ℚ) (ty : SigId → Ty) (m : Machine ℚ) (c1 c2 : Call ℚ), cfg.WellTyped pol ty ∧ m.w.Fine pol cfg ty ∧ m.s.initialized = false ∧
      c1.Admissible m ∧ c2.Admissible (stateOf (c1.exec cfg m)) ∧ (∃ m', c1.exec cfg m = .error (.exc .unassigned) m') ∧
      isUb .outOfBounds (c2.exec cfg (stateOf (c1.exec cfg m))) = true := by
  refine ⟨delayCfg .plain (1/2) (fun t => decide (0 < t)), fun _ => .scalar, delayStart, .init 0, .run 0 1 (1/10) 10, delay_wellTyped pol _ (by simp) _ _, delay_fine pol _ _ _, rfl, rfl,
    fun _ => by unfold Comparable; decide +kernel, ?_, by decide +kernel⟩
  have h : (match Call.exec (delayCfg .plain (1/2 : ℚ) (fun t => decide (0 < t))) (.init 0) delayStart with | .error (.exc .unassigned) _ => true | _ => false) = true := by decide +kernel
  revert h
  cases Call.exec (delayCfg .plain (1/2 : ℚ) (fun t => decide (0 < t))) (.init 0) delayStart with
  | ok _ _ => intro h; cases h
  | error e m' => intro h; split at h <;> rename_i heq <;> first | (cases heq; exact ⟨_, rfl⟩) | cases h

/-- Numbers with a NaN (`none`), for which all comparisons are false. -/
abbrev N := Option ℚ

instance : Arith N where
  add a b := do return (← a) + (← b)
  sub a b := do return (← a) - (← b)
  mul a b := do return (← a) * (← b)
  div a b := do return (← a) / (← b)
  abs a := a.map (fun x => |x|)
  lt a b := match a, b with | some a, some b => decide (a < b) | _, _ => false
  le a b := match a, b with | some a, some b => decide (a ≤ b) | _, _ => false
  eq a b := match a, b with | some a, some b => decide (a = b) | _, _ => false
  lit q := some q

/-- C56 is false for a `Delay` whose delay is NaN: all calls return, then the search for the interval runs past the end. -/
theorem C56_nan_delay_refuted (pol : Policy) :
    ∃ (cfg : Config N) (ty : SigId → Ty) (m : Machine N) (c : Call N), cfg.WellTyped pol ty ∧ Steered pol cfg ty m ∧ c.Admissible m ∧
      isUb .outOfBounds (c.exec cfg m) = true := by
  refine ⟨delayCfg .plain none (fun _ => true), fun _ => .scalar, stateOf (Call.exec (delayCfg .plain (none : N) (fun _ => true)) (.init (some 0)) delayStart), .run 0 (some 1) (some (1/10)) (some 10),
    delay_wellTyped pol _ (by simp) _ _, ?_, fun _ => by unfold Comparable; decide +kernel, by decide +kernel⟩
  exact .call (.init (some 0)) (.new _ _ (delay_fine pol .plain (none : N) (fun _ => true))) rfl (fun _ => by decide +kernel)

/-- An integrator (block 1) of its own output's constant derivative (signal 1). -/
def integCfg : Config N where
  dbg := true
  model := .sub 100 [] [.leaf { id := 1, links := [(1, Demo.inp), (0, Demo.st)], kind := .integrator 1 0 }]
  deriv s := if s = 0 then some 1 else none
  inputs := none
  modelInput _ := ([(1, .scalar (some 1))], none)
  stepper := some euler
  strategy := .plain
  hash := id

/-- C56 is false for `run(NaN)`: no step is made, and the state vector, which is allocated but never written, is read. -/
theorem C56_nan_time_refuted (pol : Policy) :
    ∃ (cfg : Config N) (ty : SigId → Ty) (m : Machine N), cfg.WellTyped pol ty ∧ Steered pol cfg ty m ∧
      isUb .uninitRead (Call.exec cfg (.run 10 none (some (1/10)) (some 10)) m) = true := by
  have hl : ∀ l ∈ integCfg.model.leaves, l = { id := 1, links := [(1, Demo.inp), (0, Demo.st)], kind := .integrator 1 0 } := by
    intro l hl
    simpa [integCfg, Block.leaves, leavesL] using hl
  refine ⟨integCfg, fun _ => .scalar, stateOf (Call.exec integCfg (.init (some 0)) delayStart), ?_, ?_, by decide +kernel⟩
  · refine ⟨rfl, ?_, fun _ => .refl _, fun l h => ?_, fun f h => (by cases h), fun t => ⟨fun p hp => ?_, fun e h => (by cases h)⟩, fun s d _ => ⟨trivial, rfl⟩, fun st h => ?_, fun h => by cases h⟩
    · unfold Block.Proper; decide +kernel
    · rw [hl l h]; trivial
    · simp only [integCfg, List.mem_singleton] at hp
      subst hp; exact ⟨rfl, fun _ => rfl⟩
    · cases h
      exact C26.dim_provided.1
  · refine .call (.init (some 0)) (.new _ _ ⟨fun _ => rfl, fun _ => ⟨fun e => (by cases e), fun v e => (by cases e)⟩, fun l h => ?_⟩) rfl (fun ⟨l, h, hd⟩ => ?_)
    · rw [hl l h]; exact ⟨rfl, fun _ => rfl⟩
    · rw [hl l h] at hd; cases hd

/-- The sum (block 1) of an array of size 2 (signal 0) and an array of size 3 (signal 1). -/
def sizesCfg : Config ℚ where
  dbg := true
  model := .sub 100 [] [.leaf { id := 1, links := [(0, Demo.rq), (1, Demo.rq), (2, Demo.ot)], kind := .add (.array [0, 0]) [0, 1] 2 }]
  deriv _ := none
  inputs := none
  modelInput _ := ([(0, .array [1, 2]), (1, .array [3, 4, 5])], none)
  stepper := none
  strategy := .plain
  hash := id

/-- The sizes of arrays are not checked when blocks are connected, nor before they are used: adding arrays of different sizes, all of them of the sizes
of their signals, is undefined behaviour. -/
theorem C56_sizes_refuted :
    ∃ (cfg : Config ℚ) (m : Machine ℚ) (c : Call ℚ), cfg.dbg = true ∧ (∀ s, (m.w.sig s).Fine) ∧
      (∀ t, ∀ p ∈ (cfg.modelInput t).1, p.2.Fits (m.w.sig p.1).ty) ∧ c.Admissible m ∧ isUb .eigenSize (c.exec cfg m) = true := by
  refine ⟨sizesCfg, { delayStart with w := { (delayStart (K := ℚ)).w with sig := fun s => { ty := .array (if s = 1 then 3 else 2) } } }, .init 0, rfl,
    fun _ => ⟨fun e => (by cases e), fun v e => (by cases e)⟩, fun t p hp => ?_, rfl, by decide +kernel⟩
  simp only [sizesCfg, List.mem_cons, List.not_mem_nil, or_false] at hp
  rcases hp with rfl | rfl <;> exact ⟨rfl, rfl⟩

end Pooya.C56
