import Verif.Proof.Evolve
import Verif.Props.C36

/-! # C31: `run` integrates the block diagram -/

namespace Pooya

set_option linter.unusedSectionVars false

variable {K : Type} [Arith K]

/-- A call `run(t)` with `t` after the current time, on a diagram whose blocks change their members only at the ends of steps: from the state `x`
of the integrators, every accepted step applies the formula of the stepper to the right-hand side that the equations of the diagram define, and ends
with signals that solve these equations; the next one starts with the state so reached.  At the end the signals solve the diagram at time `t` with
the last state `y`, which the integrators hold from then on. -/
theorem C31_run (cfg : Config K) (hd : cfg.dbg = true) (ho : Owned cfg) (st : Stepper K) (hst : cfg.stepper = some st) (hdim : Stepper.Dim st)
    (hc : ∀ l ∈ cfg.model.leaves, l.Calm) {m m' : Machine K} (hm : Ongoing cfg m) (h0 : 0 < m.s.nState) {fuel : Nat} {t minH maxH : K}
    (hlt : (m.s.tPrev <. t) = true) (hne : (t ==. m.s.tPrev) = false) (hx : run cfg fuel t minH maxH m = .ok () m') :
    ∃ (new : List (Event K)) (x y : List K), m'.w.log = new ++ m.w.log ∧ cfg.Stands m.vars m.w.mem x ∧
      Evolves cfg m.vars st t m.w.mem m.s.tPrev x (acceptsIn new) y m'.w.shown m'.w.mem ∧ cfg.Stands m.vars m'.w.mem y := by
  have hdim' : ∀ st', cfg.stepper = some st' → Stepper.Dim st' := fun st' e => by rw [hst] at e; cases e; exact hdim
  have hco := hm.course ho hd hdim' hc
  obtain ⟨_, hi⟩ := hm.once
  rcases run_ok hi hx with ⟨e, _⟩ | ⟨_, m1, ha, hf⟩
  · rw [hco.ready.sized.1] at e; omega
  cases ha with
  | again _ e _ => rw [hne] at e; cases e
  | steps _ _ hs =>
    have hx0 : ∃ x, cfg.Stands m.vars m.w.mem x := by
      have key : ∀ {t2 : K} {r : List K × K} {m2 : Machine K}, Trial cfg m.s.tPrev t2 m r m2 → ∃ x, cfg.Stands m.vars m.w.mem x := by
        intro t2 r m2 ht
        obtain ⟨orig, ma, _, h1, _, _⟩ := ht.ex
        exact hco.start ho h1
      cases hs with
      | stop e => rw [hlt] at e; cases e
      | reject _ h1 _ _ => exact key h1
      | accept _ h1 _ _ _ => exact key h1
    obtain ⟨x, hx0⟩ := hx0
    obtain ⟨es, y, a1, _, a3⟩ := subrun_evolves ho hd hdim' hst hs hf hco hx0 h0 (After.refl m) hlt
    obtain ⟨new, b1, b2⟩ := a1
    refine ⟨new, x, y, b1, hx0, ?_, a3.stands ho (hco.integrated ho)⟩
    unfold acceptsIn
    rw [b2]; exact a3

/-- A repeated call `run(t)` at the current time applies no step: the signals solve the diagram at time `t` with the state of the integrators. -/
theorem C31_again (cfg : Config K) (hd : cfg.dbg = true) (ho : Owned cfg) (hdim : ∀ st, cfg.stepper = some st → Stepper.Dim st)
    (hc : ∀ l ∈ cfg.model.leaves, l.Calm) {m m' : Machine K} (hm : Ongoing cfg m) (h0 : 0 < m.s.nState) {fuel : Nat} {t minH maxH : K}
    (he : (t ==. m.s.tPrev) = true) (hx : run cfg fuel t minH maxH m = .ok () m') :
    ∃ x, cfg.Stands m.vars m.w.mem x ∧ Committed cfg m.vars m.w.mem t x m'.w.shown m'.w.mem ∧ cfg.Stands m.vars m'.w.mem x := by
  have hco := hm.course ho hd hdim hc
  obtain ⟨_, hi⟩ := hm.once
  rcases run_ok hi hx with ⟨e, _⟩ | ⟨_, m1, ha, hf⟩
  · rw [hco.ready.sized.1] at e; omega
  cases ha with
  | steps _ e _ => rw [he] at e; cases e
  | @again m2 orig _ _ hb =>
    have hco' := hco.record (e := .warnRepeated t)
    obtain ⟨x, hs⟩ := hco'.start ho hb
    obtain ⟨rfl, c1, c2, c3⟩ := hco'.begin ho hs hb
    have c3 : orig.length = m.s.nState := c3
    have c2 : m2.s.nState = m.s.nState := c2
    obtain ⟨x', ma, mb, f1, f2, f3, f4⟩ := hf.ex
    cases f1
    rw [show decide (orig.length = 0) = false from decide_eq_false (by omega)] at f3
    obtain ⟨_, _, k3, k4⟩ := (c1.withSv (x := orig) (by rw [c3, c2])).commit ho hd (by rw [c3, ← c2]; rfl) f2 f3
    subst f4
    exact ⟨orig, hs, k3, k4⟩

/-- The right-hand side is a function of time and state: the equations of a diagram without algebraic loop have at most one solution. -/
theorem C31_function (cfg : Config K) (V : Vars) (he : Explicit cfg V) (hc : ∀ l ∈ cfg.model.leaves, l.Complete) (mem : BlkId → Mem K) :
    ∃ f : K → List K → List K, ∀ t x d, Rhs cfg V mem t x d → d = f t x := by
  classical
  refine ⟨fun t x => if h : ∃ d, Rhs cfg V mem t x d then h.choose else [], fun t x d h => ?_⟩
  have hex : ∃ d, Rhs cfg V mem t x d := ⟨d, h⟩
  show d = dite _ _ _
  rw [dif_pos hex]
  exact Rhs.unique he hc h hex.choose_spec

/-- Diagrams without members other than those of integrators: there is one function `f` of time and state such that the state after any call of
`run` is the state before, advanced by the formula of the stepper applied to `f`, over the accepted steps one after the other. -/
theorem C31_integrates (cfg : Config K) (V : Vars) (he : Explicit cfg V) (hc : ∀ l ∈ cfg.model.leaves, l.Complete)
    (ha : ∀ l ∈ cfg.model.leaves, l.Algebraic) :
    ∃ f : K → List K → List K, (∀ mem t x d, Rhs cfg V mem t x d → d = f t x) ∧
      ∀ (st : Stepper K) (t : K) (mem : BlkId → Mem K) (s : K) (x : List K) (steps : List (K × K)) (y : List K) (val : SigId → Option (Val K))
        (mem' : BlkId → Mem K), Evolves cfg V st t mem s x steps y val mem' →
        y = steps.foldl (fun x p => ((st p.1 x p.2).exec (m := Id) f).1) x := by
  obtain ⟨f, hf⟩ := C31_function cfg V he hc (fun _ => { value := .bool false })
  have hf' : ∀ (mem : BlkId → Mem K) (t : K) (x d : List K), Rhs cfg V mem t x d → d = f t x := by
    rintro mem t x d ⟨val, h1, h2⟩
    exact hf t x d ⟨val, h1.algebraic ha, h2⟩
  refine ⟨f, hf', fun st t mem s x steps y val mem' h => ?_⟩
  induction h with
  | last _ _ h1 _ => exact congrArg Prod.fst (By.exec (hf' _) h1)
  | step _ _ h1 _ _ ih =>
    have := congrArg Prod.fst (By.exec (hf' _) h1)
    have this : _ = _ := this
    rw [ih, List.foldl_cons]
    congr 1

namespace C31

/-- Euler's method that asks for steps of 1/2. -/
def halves : Stepper ℚ := fun t0 v0 t1 => .call t0 v0 fun k => .ret (vadd v0 (vsmul (t1 - t0) k)) (1/2)

theorem halves_dim : Stepper.Dim halves := by
  intro t1 t2 x
  refine ⟨rfl, fun r hr => ?_⟩
  show (vadd x (vsmul (t2 - t1) r)).length = x.length
  simp [vadd, vsmul, hr]

/-- Keeps the derivative (signal 3) of the step before; output 4, which is added to the derivative of `Demo`: `x' = 2 u(t) + x + x'_before`. -/
def store : Leaf ℚ := { id := 5, links := [(3, Demo.inp), (4, Demo.ot)], kind := .memory 3 4 }
def sum3 : Leaf ℚ := { id := 1, links := [(1, Demo.rq), (2, Demo.rq), (4, Demo.rq), (3, Demo.ot)], kind := .add (.scalar 0) [1, 2, 4] 3 }

def model : Block ℚ := .sub 100 [] [.leaf sum3, .sub 101 [] [.leaf Demo.gain], .leaf Demo.source, .leaf Demo.integ, .leaf store]

def cfg (st : Strategy) : Config ℚ := { Demo.cfg st with model := model, stepper := some halves }

def ready (st : Strategy) : Machine ℚ := stateOf (Call.exec (cfg st) (.init 0) Demo.start)
def after (st : Strategy) : Machine ℚ := stateOf (Call.exec (cfg st) (.run 100 1 (1/10) 10) (ready st))

theorem leaves_eq (st : Strategy) : (cfg st).model.leaves = [sum3, Demo.gain, Demo.source, Demo.integ, store] := by
  simp [cfg, model, Block.leaves, leavesL]

theorem drivers (st : Strategy) : (cfg st).SingleDrivers := by
  have e := leaves_eq st
  have hk : ∀ t, (cfg st).inputKeys t = [] := fun t => rfl
  have ha : ∀ l ∈ [sum3, Demo.gain, Demo.source, Demo.integ, store], Block.leaf l ∈ (cfg st).model.all := by
    intro l hl
    exact (leaf_mem_all _ l).1 (by rw [e]; exact hl)
  have hlink : ∀ l ∈ [sum3, Demo.gain, Demo.source, Demo.integ, store], ∀ s ∈ l.outs ++ l.preOuts, ∃ f, (s, f) ∈ l.links := by
    have : ∀ l ∈ [sum3, Demo.gain, Demo.source, Demo.integ, store], ∀ s ∈ l.outs ++ l.preOuts, s ∈ l.links.map Prod.fst := by decide +kernel
    intro l hl s hs
    obtain ⟨⟨s', f⟩, h1, rfl⟩ := List.mem_map.1 (this l hl s hs)
    exact ⟨f, h1⟩
  constructor
  · rw [e]; decide +kernel
  · rw [e]; decide +kernel
  · intro t; rw [hk]; exact List.nodup_nil
  · rw [e]; decide +kernel
  · rw [e]; decide +kernel
  · rw [e]; decide +kernel
  · rw [e]
    show ∀ l ∈ _, ∀ s ∈ _, (if s = 2 then some 3 else none : Option SigId) = none
    decide +kernel
  · intro l _ s _ t; rw [hk]; simp
  · intro l _ s _ t; rw [hk]; simp
  · intro s _ t; rw [hk]; simp
  · rw [e]; exact fun l hl s hs => ⟨.leaf l, ha l hl, hlink l hl s (by simp [hs])⟩
  · rw [e]; exact fun l hl s hs => ⟨.leaf l, ha l hl, hlink l hl s (by simp [hs])⟩
  · intro t s hs; rw [hk] at hs; cases hs

theorem owned (st : Strategy) : Owned (cfg st) where
  proper := by show model.Proper; unfold Block.Proper; decide +kernel
  drivers := drivers st
  integrated := by
    intro s _ hs
    have : s = 2 := by
      by_cases e : s = 2
      · exact e
      · simp [cfg, Demo.cfg, e] at hs
    subst this
    exact ⟨Demo.integ, by rw [leaves_eq]; simp, rfl⟩
  hash := fun _ => .refl _

/-- `C31_run` on `x' = 2 (t + 1) + x + z` with `z` the derivative at the end of the step before, 5 at the beginning (and, after `init`, 12): the
trial step from 0 to 1 is rejected, two steps of 1/2 are accepted, with the slopes 2 + 5 + 12 = 19 and 3 + 29/2 + 59/2 = 47. -/
example (st : Strategy) : (cfg st).dbg = true ∧ Owned (cfg st) ∧ Stepper.Dim halves ∧ (∀ l ∈ (cfg st).model.leaves, l.Calm) ∧
    Ongoing (cfg st) (ready st) ∧ 0 < (ready st).s.nState ∧ ((ready st).s.tPrev <. 1) = true ∧ ((1 : ℚ) ==. (ready st).s.tPrev) = false ∧
    run (cfg st) 100 1 (1/10) 10 (ready st) = .ok () (after st) ∧
    ((ready st).w.mem 4).value = .scalar 5 ∧ ((ready st).w.mem 5).value = .scalar 12 ∧
    acceptsIn (after st).w.log = [(0, 1/2), (1/2, 1)] ∧ trialsIn (after st).w.log = [(0, 1), (0, 1/2), (1/2, 1)] ∧
    ((after st).w.mem 4).value = .scalar 38 := by
  refine ⟨rfl, owned st, halves_dim, ?_, ?_, ?_, ?_, ?_, ?_, ?_, ?_, ?_, ?_, ?_⟩
  · rw [leaves_eq]; simp [Leaf.Calm, sum3, Demo.gain, Demo.source, Demo.integ, store]
  · exact .init Demo.world 0 0 (fun _ => rfl) rfl (eq_of_returns (by cases st <;> decide +kernel))
  · cases st <;> decide +kernel
  · cases st <;> decide +kernel
  · cases st <;> decide +kernel
  · exact eq_of_returns (by cases st <;> decide +kernel)
  all_goals cases st <;> decide +kernel

/-- `C31_integrates` on `x' = 2 (t + 1) + x`: the hypotheses are met, with the state signal 2; the state goes from 5 to 12 to 28. -/
example (st : Strategy) : (C36.ready st).vars.scalars = [2] ∧ (C36.ready st).vars.arrays = [] ∧ Explicit (Demo.cfg st) (C36.ready st).vars ∧
    (∀ l ∈ (Demo.cfg st).model.leaves, l.Complete) ∧ (∀ l ∈ (Demo.cfg st).model.leaves, l.Algebraic) ∧
    ((Demo.after st).w.mem 4).value = .scalar 12 ∧
    ((stateOf (Call.exec (Demo.cfg st) (.run 100 2 (1/10) 10) (Demo.after st))).w.mem 4).value = .scalar 28 := by
  have hlv : (Demo.cfg st).model.leaves = [Demo.add, Demo.gain, Demo.source, Demo.integ] := Demo.leaves_eq
  have h1 : (C36.ready st).vars.scalars = [2] := by cases st <;> decide +kernel
  have h2 : (C36.ready st).vars.arrays = [] := by cases st <;> decide +kernel
  refine ⟨h1, h2, ⟨⟨fun b => 4 - b, ?_⟩, ?_, ?_⟩, ?_, ?_, by cases st <;> decide +kernel, by cases st <;> decide +kernel⟩
  · rw [hlv, h1, h2]
    intro l hl s f hs hf
    have key : ∀ l ∈ [Demo.add, Demo.gain, Demo.source, Demo.integ], ∀ p ∈ l.links, p.2.isRequired = true →
        p.1 ∈ [2] ++ [] ∨ ∃ l' ∈ [Demo.add, Demo.gain, Demo.source, Demo.integ], p.1 ∈ l'.outs ∧ 4 - l'.id < 4 - l.id := by decide +kernel
    exact .inr (key l hl (s, f) hs hf)
  · rw [hlv, h1, h2]
    intro s hs d hd
    have : s = 2 := by simpa using hs
    subst this
    cases (show (some 3 : Option SigId) = some d from hd)
    exact .inr (.inr ⟨Demo.add, by simp, by decide +kernel⟩)
  · rw [hlv]
    have key : ∀ l ∈ [Demo.add, Demo.gain, Demo.source, Demo.integ], ∀ s ∈ l.reads, ∃ p ∈ l.links, p.1 = s ∧ p.2.isRequired = true := by decide +kernel
    intro l hl s hs
    obtain ⟨p, g1, rfl, g3⟩ := key l hl s hs
    exact ⟨p.2, g1, g3⟩
  · rw [hlv]; simp [Leaf.Complete, Demo.add, Demo.gain, Demo.source, Demo.integ]
  · rw [hlv]; simp [Leaf.Algebraic, Demo.add, Demo.gain, Demo.source, Demo.integ]

/-- `C31_again`: `run(1)` again. -/
example (st : Strategy) : Ongoing (cfg st) (after st) ∧ ((1 : ℚ) ==. (after st).s.tPrev) = true ∧
    run (cfg st) 100 1 (1/10) 10 (after st) = .ok () (stateOf (run (cfg st) 100 1 (1/10) 10 (after st))) ∧
    ((stateOf (run (cfg st) 100 1 (1/10) 10 (after st))).w.mem 4).value = .scalar 38 := by
  refine ⟨.run 100 1 (1/10) 10 (.init Demo.world 0 0 (m := ready st) (fun _ => rfl) rfl (eq_of_returns (by cases st <;> decide +kernel)))
    (eq_of_returns (by cases st <;> decide +kernel)), ?_, eq_of_returns (by cases st <;> decide +kernel), ?_⟩
  all_goals cases st <;> decide +kernel

end C31

end Pooya
