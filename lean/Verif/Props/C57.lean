import Verif.Proof.TotalRun
import Verif.Props.C29
import Verif.Props.C56
import Verif.Props.C22

/-! # C57 — with a complete diagram, init and run return

Debug builds; what a complete diagram is, and which calls are meant, is stated in `Verif/Spec/Total.lean`. -/

namespace Pooya.C57

set_option linter.unusedSectionVars false

variable {K : Type} [Arith K]

/-- What a call that returns leaves behind: the time, and values of the right type on all signals that anything drives. -/
structure Left (cfg : Config K) (ty : SigId → Ty) (t : K) (m : Machine K) : Prop where
  init : m.s.initialized = true
  time : m.s.tPrev = t
  values : ∀ s, cfg.Provided s → (m.w.sig s).assigned = true ∧ ∃ v, (m.w.sig s).value = some v ∧ v.Fits (ty s)

theorem left_of {cfg : Config K} {ty : SigId → Ty} {t : K} {m : Machine K} (hm : Cared cfg ty m) (hi : m.s.initialized = true) (ht : m.s.tPrev = t)
    (ha : Has cfg.Provided m.w) : Left cfg ty t m := by
  refine ⟨hi, ht, fun s hs => ⟨ha s hs, ?_⟩⟩
  have hw := (hm.fit hi).world
  obtain ⟨v, hv⟩ := Option.isSome_iff_exists.1 ((hw.cells s).full (ha s hs))
  exact ⟨v, hv, hw.types s ▸ (hw.cells s).fits v hv⟩

/-- C57 for `init`: it returns. -/
theorem C57_init (cfg : Config K) (ty : SigId → Ty) (rank : BlkId → Nat) (h : cfg.WellPosed ty rank) (ho : cfg.Delays → OrderedArith K)
    (m : Machine K) (hm : Attended cfg ty m) (hi : m.s.initialized = false) (t : K) :
    ∃ m', Call.exec cfg (.init t) m = .ok () m' ∧ Left cfg ty t m' := by
  have hr := runs_call h ho (attended_cared h ho hm) (.init t) hi
  revert hr
  cases Call.exec cfg (.init t) m with
  | error e m' => exact fun ⟨_, hn⟩ => (hn trivial).elim
  | ok u m' => exact fun ⟨q1, q2, q3, q4⟩ => ⟨m', rfl, left_of q1 q2 q3 q4⟩

/-- C57 for all calls: the only reason for a call not to return is the bound on the number of attempted steps, which is not in the code. -/
theorem C57_no_failure (cfg : Config K) (ty : SigId → Ty) (rank : BlkId → Nat) (h : cfg.WellPosed ty rank) (ho : cfg.Delays → OrderedArith K)
    (m : Machine K) (hm : Attended cfg ty m) (c : Call K) (hf : c.Fair cfg m) :
    (∃ m', c.exec cfg m = .ok () m' ∧ Left cfg ty c.time m') ∨ ∃ m', c.exec cfg m = .error .fuel m' := by
  have hr := runs_call h ho (attended_cared h ho hm) c hf
  revert hr
  cases c.exec cfg m with
  | error e m' => exact fun ⟨he, _⟩ => .inr ⟨m', by rw [he]⟩
  | ok u m' => exact fun ⟨q1, q2, q3, q4⟩ => .inl ⟨m', rfl, left_of q1 q2 q3 q4⟩

section
variable {F : Type} [_root_.Field F] [LinearOrder F] [IsStrictOrderedRing F]
attribute [local instance] Arith.exact

/-- Exact arithmetic has what `Delay` needs. -/
theorem ordered_exact : OrderedArith F where
  total := fun a b => by
    show decide (a ≤ b) = true ∨ decide (b ≤ a) = true
    simpa using le_total a b
  le_of_lt := fun a b h => decide_eq_true (of_decide_eq_true (p := a < b) h).le
  le_trans_lt := fun a b c h1 h2 => decide_eq_true (lt_of_le_of_lt (of_decide_eq_true (p := a ≤ b) h1) (of_decide_eq_true (p := b < c) h2))
  irrefl := fun a => decide_eq_false (lt_irrefl a)

/-- In exact arithmetic all solver steps go forward. -/
theorem C57_exact (cfg : Config F) (s t minH maxH : F) (h0 : 0 < minH) : cfg.Forward s t minH maxH := by
  refine .inr fun a h _ _ => ?_
  have h1 : minH ≤ fmax minH (fmin h maxH) := by
    unfold fmax
    split
    · rename_i hlt; exact (of_decide_eq_true (p := minH < fmin h maxH) hlt).le
    · exact le_refl _
  exact decide_eq_true (show a < a + fmax minH (fmin h maxH) by linarith)

/-- C57 for `run` with each of the provided steppers, in exact arithmetic: it returns, if the bound allows `a * (B + 1)` attempts, where the time
to simulate is at most `a` and at most `2 ^ B` smallest steps. -/
theorem C57_run_bounded (cfg : Config F) (ty : SigId → Ty) (rank : BlkId → Nat) (h : cfg.WellPosed ty rank)
    (hst : ∀ st, cfg.stepper = some st → st ∈ [euler, rk4, rkf45]) (m : Machine F) (hm : Attended cfg ty m) (fuel : Nat) (t minH maxH : F)
    (hf : (Call.run fuel t minH maxH).Fair cfg m) (h0 : 0 < minH) {a B : Nat} (ha : t - m.s.tPrev ≤ a * minH) (hB : t - m.s.tPrev ≤ 2 ^ B * minH)
    (hfuel : a * (B + 1) < fuel) :
    ∃ m', Call.exec cfg (.run fuel t minH maxH) m = .ok () m' ∧ Left cfg ty t m' := by
  have ho : cfg.Delays → OrderedArith F := fun _ => ordered_exact
  have hen : (Call.run fuel t minH maxH).Enough cfg m := fun _ => by
    refine ⟨Halving, a * (B + 1), fun st' hs t1 x t2 => halving_provided st' (hst st' hs) t1 x t2, ?_, hfuel⟩
    rcases lt_or_ge m.s.tPrev t with hlt | hge
    · exact C29.ends_provided hlt h0 ha hB
    · exact .stop (decide_eq_false (not_lt.2 hge))
  have hr := runs_call h ho (attended_cared h ho hm) _ hf
  revert hr
  cases Call.exec cfg (.run fuel t minH maxH) m with
  | error e m' => exact fun ⟨_, hn⟩ => (hn hen).elim
  | ok u m' => exact fun ⟨q1, q2, q3, q4⟩ => ⟨m', rfl, left_of q1 q2 q3 q4⟩

/-- C57 for `run`: it returns. -/
theorem C57_run [Archimedean F] (cfg : Config F) (ty : SigId → Ty) (rank : BlkId → Nat) (h : cfg.WellPosed ty rank)
    (hst : ∀ st, cfg.stepper = some st → st ∈ [euler, rk4, rkf45]) (m : Machine F) (hm : Attended cfg ty m) (t minH maxH : F)
    (hf : (Call.run 0 t minH maxH).Fair cfg m) (h0 : 0 < minH) :
    ∃ N, ∀ n, N ≤ n → ∃ m', Call.exec cfg (.run n t minH maxH) m = .ok () m' ∧ Left cfg ty t m' := by
  obtain ⟨a, ha⟩ := Archimedean.arch (t - m.s.tPrev) h0
  obtain ⟨B, hB⟩ := pow_unbounded_of_one_lt ((t - m.s.tPrev) / minH) (one_lt_two (α := F))
  have hB' : t - m.s.tPrev ≤ 2 ^ B * minH := ((div_lt_iff₀ h0).1 hB).le
  rw [nsmul_eq_mul] at ha
  exact ⟨a * (B + 1) + 1, fun n hn => C57_run_bounded cfg ty rank h hst m hm n t minH maxH hf h0 ha hB' (by omega)⟩

end

/-! ## Examples -/

/-- The order of the blocks of the demo. -/
def demoRank : BlkId → Nat := fun b => if b = 3 then 0 else if b = 2 then 1 else 2

theorem demo_wellPosed (st : Strategy) : (Demo.cfg st).WellPosed (fun _ => .scalar) demoRank := by
  have e : (Demo.cfg st).model.leaves = [Demo.add, Demo.gain, Demo.source, Demo.integ] := Demo.leaves_eq
  have two : ∀ s, ((Demo.cfg st).deriv s).isSome = true → s = 2 := by
    intro s hs
    by_contra h
    have e : (Demo.cfg st).deriv s = none := if_neg h
    rw [e] at hs; cases hs
  have hlink : (Demo.cfg st).Links 2 := ⟨.leaf Demo.integ, (leaf_mem_all _ _).1 (by rw [e]; simp), Demo.st, by decide +kernel⟩
  have src : (Demo.cfg st).Source 2 := .inr ⟨hlink, rfl⟩
  have out : ∀ l ∈ [Demo.add, Demo.gain, Demo.source, Demo.integ], ∀ s ∈ l.outs, (Demo.cfg st).Provided s := fun l hl s hs => .inr ⟨l, by rw [e]; exact hl, hs⟩
  refine ⟨C56.demo_wellTyped strict st, C22.demo_drivers st, C22.demo_honest st, ?_, ?_, ?_, ?_, fun f hf => (by cases hf), fun t => rfl,
    (Demo.wired st).reads, ?_, ?_, ?_, fun _ _ => Nat.one_pos, fun _ => rfl⟩
  · intro s _ hs
    rw [two s hs]
    exact ⟨Demo.integ, by rw [e]; simp, rfl⟩
  · rw [e]; decide +kernel
  · rw [e]
    intro l hl
    simp only [List.mem_cons, List.not_mem_nil, or_false] at hl
    rcases hl with rfl | rfl | rfl | rfl
    · trivial
    · trivial
    · exact fun t => ⟨_, rfl⟩
    · trivial
  · rw [e]
    intro l hl
    simp only [List.mem_cons, List.not_mem_nil, or_false] at hl
    rcases hl with rfl | rfl | rfl | rfl <;> trivial
  · rw [e]
    rintro l hl s ⟨f, hf, hr⟩
    simp only [List.mem_cons, List.not_mem_nil, or_false] at hl
    rcases hl with rfl | rfl | rfl | rfl
    · simp only [Demo.add, List.mem_cons, Prod.mk.injEq, List.not_mem_nil, or_false] at hf
      rcases hf with ⟨rfl, _⟩ | ⟨rfl, _⟩ | ⟨_, rfl⟩
      · exact .inr ⟨Demo.gain, by simp, by decide +kernel, by decide +kernel⟩
      · exact .inl src
      · exact absurd hr (by decide)
    · simp only [Demo.gain, List.mem_cons, Prod.mk.injEq, List.not_mem_nil, or_false] at hf
      rcases hf with ⟨rfl, _⟩ | ⟨_, rfl⟩
      · exact .inr ⟨Demo.source, by simp, by decide +kernel, by decide +kernel⟩
      · exact absurd hr (by decide)
    · simp only [Demo.source, List.mem_cons, Prod.mk.injEq, List.not_mem_nil, or_false] at hf
      rcases hf with ⟨_, rfl⟩
      exact absurd hr (by decide)
    · simp only [Demo.integ, List.mem_cons, Prod.mk.injEq, List.not_mem_nil, or_false] at hf
      rcases hf with ⟨_, rfl⟩ | ⟨rfl, _⟩
      · exact absurd hr (by decide)
      · exact .inl src
  · rw [e]
    intro l hl s hs
    simp only [List.mem_cons, List.not_mem_nil, or_false] at hl
    rcases hl with rfl | rfl | rfl | rfl
    · cases hs
    · cases hs
    · cases hs
    · have : s = 2 := by simpa [Leaf.postReads, Kind.postReads, Demo.integ] using hs
      rw [this]; exact .inl src
  · intro s d _ hd
    have : s = 2 := two s (by rw [hd]; rfl)
    subst this
    have : d = 3 := by
      have h : some 3 = some d := hd
      exact (Option.some.inj h).symm
    subst this
    exact out Demo.add (by simp) 3 (by decide +kernel)

theorem demo_new (st : Strategy) : Demo.world.New (Demo.cfg st) (fun _ => .scalar) :=
  ⟨C56.demo_fine strict st, fun _ => rfl, fun l hl hd => (C56.demo_noDelay st ⟨l, hl, hd⟩).elim⟩

/-- After `init(0)` and `run(1, 0.1, 10)`, the next `run(2, 0.1, 10)` meets the hypotheses. -/
example (st : Strategy) : Attended (Demo.cfg st) (fun _ => .scalar) (Demo.after st) ∧ (Demo.after st).s.initialized = true ∧ 0 < (Demo.after st).s.nState ∧
    (Call.run 41 2 (1/10) 10).Fair (Demo.cfg st) (Demo.after st) ∧ (2 : ℚ) - (Demo.after st).s.tPrev ≤ (10 : Nat) * (1/10) ∧
    (2 : ℚ) - (Demo.after st).s.tPrev ≤ 2 ^ 3 * (2/10) ∧ (Demo.cfg st).Provided 3 := by
  refine ⟨.call (.run 100 1 (1/10) 10) (.call (.init 0) (.new Demo.world 0 (demo_new st)) rfl (eq_of_returns ?_)) ?_ (eq_of_returns ?_), ?_, ?_, ?_, ?_, ?_, ?_⟩
  · cases st <;> decide +kernel
  · refine fun _ => ⟨fun h => (C56.demo_noDelay st h).elim, fun _ => ?_⟩
    refine ⟨?_, ?_, ?_, ?_, fun h => (C56.demo_noDelay st h).elim⟩ <;> cases st <;> (try unfold Comparable) <;> decide +kernel
  · cases st <;> decide +kernel
  · cases st <;> decide +kernel
  · cases st <;> decide +kernel
  · refine fun _ => ⟨fun h => (C56.demo_noDelay st h).elim, fun _ => ?_⟩
    refine ⟨?_, ?_, ?_, ?_, fun h => (C56.demo_noDelay st h).elim⟩ <;> cases st <;> (try unfold Comparable) <;> decide +kernel
  · cases st <;> decide +kernel
  · cases st <;> decide +kernel
  · exact .inr ⟨Demo.add, by show Demo.add ∈ Demo.model.leaves; rw [Demo.leaves_eq]; simp, by decide +kernel⟩

/-! ### A `Delay` -/

theorem delay_wellPosed (st : Strategy) (hst : st ≠ .reuse) : (C56.delayCfg st (1/2 : ℚ) (fun _ => true)).WellPosed (fun _ => .scalar) (fun _ => 0) := by
  have e : (C56.delayCfg st (1/2 : ℚ) (fun _ => true)).model.leaves = [C56.delayLeaf] := by simp [C56.delayCfg, Block.leaves, leavesL]
  have hk : ∀ t, (C56.delayCfg st (1/2 : ℚ) (fun _ => true)).inputKeys t = [1, 2, 0] := fun t => rfl
  have ha : Block.leaf C56.delayLeaf ∈ (C56.delayCfg st (1/2 : ℚ) (fun _ => true)).model.all := (leaf_mem_all _ _).1 (by rw [e]; simp)
  have src : ∀ s ∈ [1, 2, 0], (C56.delayCfg st (1/2 : ℚ) (fun _ => true)).Source s := fun s hs => .inl (fun t => by rw [hk]; exact hs)
  have hl : ∀ l ∈ (C56.delayCfg st (1/2 : ℚ) (fun _ => true)).model.leaves, l = C56.delayLeaf := by rw [e]; simp
  refine ⟨C56.delay_wellTyped strict st hst _ _, ⟨?_, ?_, ?_, ?_, ?_, ?_, fun _ _ _ _ => rfl, ?_, ?_, fun s hs => (by cases hs), ?_, ?_, ?_⟩,
    ⟨?_, ?_, ?_, fun f hf => (by cases hf), fun t => (by intro h; cases h)⟩, fun s _ hs => (by cases hs), ?_, ?_, ?_, fun f hf => (by cases hf), fun t => rfl, ?_, ?_, ?_,
    fun s d _ hd => (by cases hd), fun s hd => (by cases hd), fun ⟨s, hd⟩ => (by cases hd)⟩
  · rw [e]; decide +kernel
  · rw [e]; decide +kernel
  · intro t; rw [hk]; decide
  · rw [e]; decide +kernel
  · rw [e]; decide +kernel
  · rw [e]; decide +kernel
  · intro l h s hs t; rw [hk]; rw [hl l h] at hs; revert s; decide +kernel
  · intro l h s hs t; rw [hk]; rw [hl l h] at hs; revert s; decide +kernel
  · intro l h s hs
    rw [hl l h] at hs
    have : s = 3 := by simpa [Leaf.outs, Kind.outs, C56.delayLeaf] using hs
    subst this
    exact ⟨_, ha, Demo.ot, by simp [Block.links, C56.delayLeaf]⟩
  · intro l h s hs; rw [hl l h] at hs; cases hs
  · intro t s hs
    rw [hk] at hs
    simp only [List.mem_cons, List.not_mem_nil, or_false] at hs
    rcases hs with rfl | rfl | rfl
    · exact ⟨_, ha, Demo.rq, by simp [Block.links, C56.delayLeaf]⟩
    · exact ⟨_, ha, Demo.rq, by simp [Block.links, C56.delayLeaf]⟩
    · exact ⟨_, ha, Demo.rq, by simp [Block.links, C56.delayLeaf]⟩
  · intro l h; rw [hl l h]; trivial
  · intro l h c hc; rw [hl l h] at hc; cases hc
  · intro l h c hc; rw [hl l h] at hc; cases hc
  · intro l h; rw [hl l h]; decide +kernel
  · intro l h; rw [hl l h]; trivial
  · intro l h; rw [hl l h]; trivial
  · intro l h s hs
    rw [hl l h] at hs ⊢
    have hs : s = 1 ∨ s = 2 := by simpa [Leaf.reads, Kind.reads, C56.delayLeaf] using hs
    rcases hs with rfl | rfl
    · exact ⟨Demo.rq, by simp [C56.delayLeaf], by decide⟩
    · exact ⟨Demo.rq, by simp [C56.delayLeaf], by decide⟩
  · rintro l h s ⟨f, hf, hr⟩
    rw [hl l h] at hf
    simp only [C56.delayLeaf, List.mem_cons, Prod.mk.injEq, List.not_mem_nil, or_false] at hf
    rcases hf with ⟨rfl, _⟩ | ⟨rfl, _⟩ | ⟨rfl, _⟩ | ⟨_, rfl⟩
    · exact .inl (src _ (by simp))
    · exact .inl (src _ (by simp))
    · exact .inl (src _ (by simp))
    · exact absurd hr (by decide)
  · intro l h s hs
    rw [hl l h] at hs
    have : s = 0 := by simpa [Leaf.postReads, Kind.postReads, C56.delayLeaf] using hs
    subst this
    exact .inl (src _ (by simp))

theorem delay_new (st : Strategy) : (C56.delayStart (K := ℚ)).w.New (C56.delayCfg st (1/2) (fun _ => true)) (fun _ => .scalar) :=
  ⟨C56.delay_fine strict st _ _, fun _ => rfl, fun _ _ _ => rfl⟩

theorem delay_attended (st : Strategy) (hst : st ≠ .reuse) :
    Attended (C56.delayCfg st (1/2 : ℚ) (fun _ => true)) (fun _ => .scalar) (stateOf (Call.exec (C56.delayCfg st (1/2 : ℚ) (fun _ => true)) (.init 0) C56.delayStart)) :=
  .call (.init 0) (.new _ _ (delay_new st)) rfl (eq_of_returns (by cases st <;> first | exact (hst rfl).elim | decide +kernel))

/-- A model with a `Delay` meets the hypotheses. -/
example (st : Strategy) (hst : st ≠ .reuse) : (C56.delayCfg st (1/2 : ℚ) (fun _ => true)).Delays ∧
    (Call.run 1 1 (1/10) 10).Fair (C56.delayCfg st (1/2 : ℚ) (fun _ => true)) (stateOf (Call.exec (C56.delayCfg st (1/2 : ℚ) (fun _ => true)) (.init 0) C56.delayStart)) := by
  refine ⟨⟨C56.delayLeaf, by simp [C56.delayCfg, Block.leaves, leavesL], rfl⟩, fun _ => ⟨fun _ => ?_, fun h => ?_⟩⟩
  · cases st <;> first | exact (hst rfl).elim | decide +kernel
  · exact absurd h (by cases st <;> first | exact (hst rfl).elim | decide +kernel)

/-- The result of a call is this exception. -/
def throws {σ α : Type} (x : Exc) : EStateM.Result Err σ α → Bool
  | .error (.exc x') _ => decide (x' = x)
  | _ => false

/-- C57 is false if a model with a `Delay` repeats a step: the simulator prints a warning only, but `Delay::post_step` requires later times. -/
theorem C57_repeated_delay_refuted : ∃ (cfg : Config ℚ) (ty : SigId → Ty) (rank : BlkId → Nat) (m : Machine ℚ), cfg.WellPosed ty rank ∧ Attended cfg ty m ∧
    m.s.initialized = true ∧ throws .debugVerify (Call.exec cfg (.run 1 m.s.tPrev (1/10) 10) m) = true := by
  refine ⟨C56.delayCfg .plain (1/2) (fun _ => true), fun _ => .scalar, fun _ => 0, _, delay_wellPosed _ (by simp), delay_attended .plain (by simp), by decide +kernel, by decide +kernel⟩

end Pooya.C57
