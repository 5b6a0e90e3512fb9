import Verif.Proof.EvalEquiv
import Verif.Proof.TiedInit
import Verif.Proof.StepRel
import Verif.Spec.Demo
import Verif.Props.C22

/-! # C18 — evaluation results do not depend on block order or nesting -/

namespace Pooya.C18

variable {K : Type} [Arith K]

/-- Two models made of the same leaf blocks, in any order and grouped in any way.  Every signal that leaf
blocks assign has one driver and is unassigned at the start (inputs and states are other signals), and
blocks read only signals they require (`Wired`).  Then both evaluations throw, or both return and leave
the same signals assigned to the same values, the same block members, the same leaves processed, and they
have run the same leaves. -/
theorem C18_order_and_nesting (cfg1 cfg2 : Config K) (hs1 : cfg1.strategy = .plain) (hs2 : cfg2.strategy = .plain)
    (hdbg : cfg1.dbg = cfg2.dbg) (hp1 : cfg1.model.Proper) (hp2 : cfg2.model.Proper)
    (hperm : cfg1.model.leaves.Perm cfg2.model.leaves) (hW : Wired cfg1.model.leaves)
    (m1 m2 : Machine K) (hw : SameView m1.w m2.w)
    (hfree : ∀ l ∈ cfg1.model.leaves, ∀ s ∈ l.outs, (m1.w.sig s).assigned = false) (t : K) :
    match evalModel cfg1 t m1, evalModel cfg2 t m2 with
    | .ok _ m1', .ok _ m2' => Same cfg1.model.leaves m1'.w m2'.w ∧
        ∃ ev1 ev2, m1'.w.log = ev1 ++ m1.w.log ∧ m2'.w.log = ev2 ++ m2.w.log ∧ ev1.Perm ev2
    | .error _ _, .error _ _ => True
    | _, _ => False := by
  exact eval_equiv cfg1 cfg2 (by rw [hs1]; simp) (by rw [hs2]; simp) hdbg hp1 hp2 hperm hW m1 m2 hw hfree
    (fun e => by rw [hs1] at e; cases e) (fun e => by rw [hs2] at e; cases e) t

/-- The example model without submodels and with another order of the blocks. -/
def flat (st : Strategy) : Config ℚ :=
  { Demo.cfg st with model := .sub 100 [] [.leaf Demo.integ, .leaf Demo.gain, .leaf Demo.add, .leaf Demo.source] }

theorem flat_leaves (st : Strategy) : (flat st).model.leaves = [Demo.integ, Demo.gain, Demo.add, Demo.source] := by
  simp [flat, Block.leaves, leavesL]

theorem flat_perm (st1 st2 : Strategy) : (Demo.cfg st1).model.leaves.Perm (flat st2).model.leaves := by
  have e1 : (Demo.cfg st1).model.leaves = [Demo.add, Demo.gain, Demo.source, Demo.integ] := Demo.leaves_eq
  rw [e1, flat_leaves]
  refine List.Perm.trans (List.Perm.trans ?_ (List.perm_append_comm (l₁ := [Demo.gain, Demo.add, Demo.source]) (l₂ := [Demo.integ]))) (List.Perm.refl _)
  exact List.Perm.swap _ _ _

example : (Demo.cfg .plain).model.Proper ∧ (flat .plain).model.Proper ∧ (Demo.cfg .plain).model.leaves.Perm (flat .plain).model.leaves ∧
    Wired (Demo.cfg .plain).model.leaves ∧ SameView Demo.start.w Demo.start.w ∧
    (∀ l ∈ (Demo.cfg .plain).model.leaves, ∀ s ∈ l.outs, (Demo.start.w.sig s).assigned = false) ∧
    returns (evalModel (Demo.cfg .plain) 1 Demo.start) = true ∧ returns (evalModel (flat .plain) 1 Demo.start) = true := by
  refine ⟨Demo.proper _, by show (flat .plain).model.ids.Nodup; decide +kernel, flat_perm _ _, Demo.wired _, Same.refl _ _, fun _ _ _ _ => rfl,
    by decide +kernel, by decide +kernel⟩

/-- Whole simulations: for two well-formed models made of the same leaf blocks, in any order and grouped in any way, and any sequence of calls
`init`, `run`, …, `run`, both simulations throw, or both return and agree on all signals, block members, the time and the state variables. -/
theorem C18_runs (c1 c2 : Config K) (h : Coupled c1 c2) (hs1 : c1.strategy = .plain) (hs2 : c2.strategy = .plain)
    (w : World K) (hd : ∀ b, w.done b = false) (hty : c1.Typed w) (t t0 : K) (as : List (RunArgs K)) :
    SameOutcome (simulate c1 t0 as (fresh w t)) (simulate c2 t0 as (fresh w t)) :=
  simulate_same h ⟨hd, hty, (by rw [hs1, hs2]; simp), (by rw [hs1, hs2]; simp)⟩ (fun e => (by rw [hs1] at e; cases e))
    (fun e => (by rw [hs2] at e; cases e)) as

theorem demo_typed (st : Strategy) : (Demo.cfg st).Typed Demo.world := ⟨fun _ _ => .inl rfl, fun _ _ _ => rfl⟩

theorem demo_sound (st : Strategy) : (Demo.cfg st).Sound := by
  refine ⟨rfl, Demo.proper st, Demo.wired st, C22.demo_drivers st, fun _ => .refl _, ?_, ?_⟩
  · have e : (Demo.cfg st).model.leaves = [Demo.add, Demo.gain, Demo.source, Demo.integ] := Demo.leaves_eq
    rw [e]
    intro l hl
    simp only [List.mem_cons, List.not_mem_nil, or_false] at hl
    rcases hl with rfl | rfl | rfl | rfl <;> simp [Demo.add, Demo.gain, Demo.source, Demo.integ]
  · rintro _ ⟨⟩ idx _ t0 t1 v v' h
    exact euler_rel t0 t1 h

theorem demo_steady (st : Strategy) : (Demo.cfg st).Steady := by
  have e : (Demo.cfg st).model.leaves = [Demo.add, Demo.gain, Demo.source, Demo.integ] := Demo.leaves_eq
  refine ⟨fun _ _ => rfl, ?_, ?_⟩
  · rw [e]
    intro l hl
    simp only [List.mem_cons, List.not_mem_nil, or_false] at hl
    rcases hl with rfl | rfl | rfl | rfl <;> exact assigns_library _ (by simp [Demo.add, Demo.gain, Demo.source, Demo.integ])
  · rw [e]
    show ∀ l ∈ _, ∀ s ∈ _, _ ∧ ((if s = 2 then some 3 else none : Option SigId).isSome = true)
    decide +kernel

theorem flat_links (st1 st2 : Strategy) (s : SigId) : (Demo.cfg st1).Links s ↔ (flat st2).Links s := by
  unfold Config.Links
  simp [Demo.cfg, flat, Demo.model, Block.all, allL, Block.links]
  tauto

/-- The hypotheses of `C18_runs`, and results. -/
theorem flat_coupled (st1 st2 : Strategy) : Coupled (Demo.cfg st1) (flat st2) := by
  have hv : (Demo.cfg st1).Variant (flat st2) := ⟨rfl, flat_perm _ _, flat_links _ _, rfl, rfl, rfl, rfl⟩
  exact ⟨hv, demo_sound st1, hv.sound (demo_sound st1) (by show (flat .plain).model.ids.Nodup; decide +kernel) (fun _ => .refl _), fun _ => demo_steady st1⟩

example : Coupled (Demo.cfg .plain) (flat .plain) ∧ (∀ b, Demo.world.done b = false) ∧ (Demo.cfg .plain).Typed Demo.world ∧
    returns (simulate (Demo.cfg .plain) 0 [⟨100, 1, 1/10, 10⟩, ⟨100, 2, 1/10, 10⟩] (fresh Demo.world 0)) = true ∧
    (stateOf (simulate (Demo.cfg .plain) 0 [⟨100, 1, 1/10, 10⟩, ⟨100, 2, 1/10, 10⟩] (fresh Demo.world 0))).s.sv = some [28] :=
  ⟨flat_coupled _ _, fun _ => rfl, demo_typed _, by decide +kernel, by decide +kernel⟩

end Pooya.C18
