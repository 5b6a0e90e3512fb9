import Verif.Proof.LeafRun
import Verif.Spec.Demo

/-! C35: `Memory` is a one-step delay. -/

namespace Pooya

set_option linter.unusedSectionVars false

variable {K : Type} [Arith K]

/-- In any simulation of a model without state variables, the values of the output of a `Memory` block after the calls are the initial value
followed by the values its input had after the calls before the last (newest first). -/
theorem C35_memory (cfg : Config K) (hp : cfg.model.Proper) (hs : Stateless cfg) {l : Leaf K} {x out : SigId} (hl : l ∈ cfg.model.leaves)
    (hk : l.kind = .memory x out) (hq : ∀ s, ¬ l.Requires s) (hd : ∀ l' ∈ cfg.model.leaves, out ∈ l'.outs → l'.id = l.id)
    {m0 : Machine K} (hr : Reach cfg m0) {ms : List (Machine K)} (h : Simulated cfg m0 ms) :
    ms.map (fun m => m.value out) = ms.tail.map (fun m => m.value x) ++ [some (m0.w.mem l.id).value] := by
  have hmem : ∀ {t : K} {w w' : World K}, cfg.model.preStep cfg.dbg t w = .ok () w' → w'.mem l.id = w.mem l.id := by
    intro t w w' h2
    obtain ⟨wa, wb, l2, g1, g2, g3, _⟩ := preStep_leaf hp h2 hl
    rw [g3, ← g2]
    have : wb = { wa with log := .pre l.id t :: wa.log } := by
      rw [pre_apply] at g1
      unfold Leaf.preBody at g1
      rw [hk] at g1
      cases g1; rfl
    rw [this]
  have key : Reach cfg (ms.headD m0) ∧ Full cfg (ms.headD m0) ∧ (ms.headD m0).s.initialized = true ∧ (ms.headD m0).s.svSize = 0 ∧
      (ms.headD m0).value x = some ((ms.headD m0).w.mem l.id).value ∧
      ms.map (fun m => m.value out) = ms.tail.map (fun m => m.value x) ++ [some (m0.w.mem l.id).value] := by
    induction h with
    | @init m t h =>
      have hreach : Reach cfg m := by have := Reach.call (.init t) hr; rw [h] at this; exact this
      obtain ⟨m1, h1, h2, h3, h4, h5, h6, h7, h8, h9⟩ := init_last hp (reach_mid cfg hr) h
      obtain ⟨g1, g2⟩ := memory_process hp hl hk hq hd h1 h2 h3
      have hsim := processModel_sim cfg t true true m1
      rw [h3] at hsim
      have hsim : m.s = { m1.s with po := m.s.po } := hsim
      have hm1 : m1.w.mem l.id = m0.w.mem l.id := by
        by_cases hst : cfg.strategy = .fast
        · obtain ⟨w1, w2, w3, ls, k1, k2, k3, k4, k5, k6⟩ := h9 hst
          rw [k4, ← k1, ← hmem k2]
          by_cases hin : l.id ∈ ls.map Leaf.id
          · obtain ⟨l', hl', e⟩ := List.mem_map.1 hin
            have e' := List.inj_on_of_nodup_map hp.leafNodup (k6 l' hl') hl e
            subst e'
            obtain ⟨l1, l2, wa, wb, e, b1, b2, b3⟩ := k3.split hl'
            rw [e] at k5
            simp only [List.map_append, List.map_cons] at k5
            rw [List.nodup_append] at k5
            have n1 : l'.id ∉ l1.map Leaf.id := fun hx => k5.2.2 _ hx _ (by simp) rfl
            have n2 : l'.id ∉ l2.map Leaf.id := (List.nodup_cons.1 k5.2.1).1
            rw [b3.mem n2, ← b1.mem n1]
            rw [act_apply] at b2
            unfold Leaf.actBody at b2
            rw [hk] at b2
            obtain ⟨mm, wc, q1, q2⟩ := ok_bind b2
            cases q1
            rw [setv_ok q2]
          · exact k3.mem hin
        · rw [h8 hst]
      refine ⟨hreach, full_process h2 h3, ?_, ?_, g2, ?_⟩
      · show m.s.initialized = true
        rw [hsim]; exact h4
      · show m.s.svSize = 0
        rw [hsim]
        rw [stateSize_stateless hs] at h7
        exact h7
      · simp only [List.map_cons, List.map_nil, List.tail_cons, List.nil_append]
        rw [g1, hm1]
    | @run m m' ms sig fuel t minH maxH _ h ih =>
      obtain ⟨i1, i2, i3, i4, i5, i6⟩ := ih
      have i1 : Reach cfg m := i1
      have i2 : Full cfg m := i2
      have i3 : m.s.initialized = true := i3
      have i4 : m.s.svSize = 0 := i4
      have i5 : m.value x = some (m.w.mem l.id).value := i5
      have hu : Reach cfg { m with w := { m.w with sig := sig } } := .user sig i1
      have hreach : Reach cfg m' := by have := Reach.call (.run fuel t minH maxH) hu; rw [h] at this; exact this
      have h : run cfg fuel t minH maxH { m with w := { m.w with sig := sig } } = .ok () m' := h
      have hfull := full_run (m := { m with w := { m.w with sig := sig } }) i3 i2 h
      rcases run_ok (m := { m with w := { m.w with sig := sig } }) i3 h with ⟨_, hfin⟩ | ⟨h0, _⟩
      · obtain ⟨xs, m1, m2, f1, f2, f3, f4⟩ := hfin.ex
        have hm1 : Mid cfg m1 := mid_of ((covers_mid cfg).reset xs) (reach_mid cfg hu) f2
        have hs1 := resetWith_sim cfg xs { m with w := { m.w with sig := sig } }
        rw [f2] at hs1
        have hs1 : m1.s = m.s := hs1
        have hf1 : Full cfg m1 := by intro hst l hl; rw [hs1]; exact i2 hst l hl
        obtain ⟨g1, g2⟩ := memory_process hp hl hk hq hd hm1 hf1 f3
        have hs2 := processModel_sim cfg t (decide (xs.length = 0)) true m1
        rw [f3] at hs2
        have hs2 : m2.s = { m1.s with po := m2.s.po } := hs2
        have hmm : m1.w.mem l.id = m.w.mem l.id := congrFun (reset_mem f2) l.id
        subst f4
        refine ⟨hreach, hfull, ?_, ?_, g2, ?_⟩
        · show m2.s.initialized = true
          rw [hs2, hs1]; exact i3
        · show ({ m2.s with tPrev := t } : Sim K).svSize = 0
          rw [hs2, hs1]; exact i4
        · simp only [List.map_cons, List.tail_cons] at i6 ⊢
          rw [i6, List.cons_append]
          congr 1
          exact (g1.trans (by rw [hmm])).trans i5.symm
      · have : m.s.svSize = 0 := i4
        have h0 : 0 < m.s.svSize := h0
        omega
  exact key.2.2.2.2.2

namespace C35

/-- A `Memory` from signal 0 to signal 1. -/
def memory : Leaf ℚ := { id := 1, links := [(0, Demo.inp), (1, Demo.ot)], kind := .memory 0 1 }

/-- A loop: signal 0 is twice the output of the `Memory` (signal 1), and the gain comes first. -/
def model : Block ℚ := .sub 100 [] [.leaf { id := 2, links := [(1, Demo.rq), (0, Demo.ot)], kind := .gain (.scalar 2) 1 0 }, .leaf memory]

def cfg (st : Strategy) : Config ℚ := { Demo.cfg st with model := model, deriv := fun _ => none, stepper := none }

def m0 (st : Strategy) : Machine ℚ := stateOf (Call.exec (cfg st) (.init 0) Demo.start)
def m1 (st : Strategy) : Machine ℚ := stateOf (Call.exec (cfg st) (.run 1 1 1 1) (m0 st))
def m2 (st : Strategy) : Machine ℚ := stateOf (Call.exec (cfg st) (.run 1 2 1 1) (m1 st))

/-- The hypotheses are met, and from 5 the output doubles at each call. -/
example (st : Strategy) (hst : st ≠ .reuse) : (cfg st).model.Proper ∧ Stateless (cfg st) ∧ memory ∈ (cfg st).model.leaves ∧
    (∀ s, ¬ memory.Requires s) ∧ (∀ l' ∈ (cfg st).model.leaves, 1 ∈ l'.outs → l'.id = memory.id) ∧ Reach (cfg st) Demo.start ∧
    Simulated (cfg st) Demo.start [m2 st, m1 st, m0 st] ∧
    [m2 st, m1 st, m0 st].map (fun m => m.value 1) = [some (.scalar 20), some (.scalar 10), some (.scalar 5)] := by
  have hlv : (cfg st).model.leaves = [{ id := 2, links := [(1, Demo.rq), (0, Demo.ot)], kind := .gain (.scalar 2) 1 0 }, memory] := by
    simp [cfg, model, Block.leaves, leavesL]
  refine ⟨by show model.ids.Nodup; decide +kernel, fun _ _ => rfl, by rw [hlv]; simp, ?_, ?_, .new _ _ (fun _ => rfl) rfl, ?_, ?_⟩
  · rintro s ⟨f, hf, hr⟩
    simp only [memory, List.mem_cons, Prod.mk.injEq, List.not_mem_nil, or_false] at hf
    rcases hf with ⟨_, rfl⟩ | ⟨_, rfl⟩
    · revert hr; decide
    · revert hr; decide
  · rw [hlv]; decide +kernel
  · refine .run (m := m1 st) (m' := m2 st) (m1 st).w.sig 1 2 1 1 (.run (m := m0 st) (m' := m1 st) (m0 st).w.sig 1 1 1 1 (.init 0 ?_) ?_) ?_
    · exact eq_of_returns (by cases st <;> first | exact (hst rfl).elim | decide +kernel)
    · exact eq_of_returns (by cases st <;> first | exact (hst rfl).elim | decide +kernel)
    · exact eq_of_returns (by cases st <;> first | exact (hst rfl).elim | decide +kernel)
  · cases st <;> first | exact (hst rfl).elim | decide +kernel

end C35
end Pooya
