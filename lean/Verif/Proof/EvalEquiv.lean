import Verif.Proof.Eval

/-! Evaluations of the same leaves in different hierarchies and with different strategies. -/

namespace Pooya

set_option linter.unusedSectionVars false

variable {K : Type} [Arith K]

/-- The state of a simulator with `reuse_order` in which it evaluates without complaint: an order is
remembered, and in debug builds there is no `BusBlockBuilder`. -/
def Orderly (cfg : Config K) (m : Machine K) : Prop :=
  OrderInv cfg m ∧ m.s.po ≠ none ∧ (cfg.dbg = true → ∀ b ∈ cfg.model.all, b.isBuilder = false)

theorem eval_equiv (cfg1 cfg2 : Config K) (hs1 : cfg1.strategy ≠ .fast) (hs2 : cfg2.strategy ≠ .fast)
    (hdbg : cfg1.dbg = cfg2.dbg) (hp1 : cfg1.model.Proper) (hp2 : cfg2.model.Proper)
    (hperm : cfg1.model.leaves.Perm cfg2.model.leaves) (hW : Wired cfg1.model.leaves)
    (m1 m2 : Machine K) (hw : SameView m1.w m2.w)
    (hfree : ∀ l ∈ cfg1.model.leaves, ∀ s ∈ l.outs, (m1.w.sig s).assigned = false)
    (ho1 : cfg1.strategy = .reuse → Orderly cfg1 m1) (ho2 : cfg2.strategy = .reuse → Orderly cfg2 m2) (t : K) :
    match evalModel cfg1 t m1, evalModel cfg2 t m2 with
    | .ok _ m1', .ok _ m2' => Same cfg1.model.leaves m1'.w m2'.w ∧
        ∃ ev1 ev2, m1'.w.log = ev1 ++ m1.w.log ∧ m2'.w.log = ev2 ++ m2.w.log ∧ ev1.Perm ev2
    | .error _ _, .error _ _ => True
    | _, _ => False := by
  have e1 := eval_spec cfg1 hs1 hp1 (m := m1) (fun e => (ho1 e).1) t
  have e2 := eval_spec cfg2 hs2 hp2 (m := m2) (fun e => (ho2 e).1) t
  have hI1 : ∀ l ∈ cfg1.model.leaves, cfg1.model.leafId l.id := fun l hl => List.mem_map_of_mem hl
  have hI2 : ∀ l ∈ cfg2.model.leaves, cfg1.model.leafId l.id := fun l hl => hI1 l (hperm.mem_iff.2 hl)
  have hII : cfg2.model.leafId = cfg1.model.leafId := by
    funext x; exact propext (hperm.map Leaf.id).mem_iff.symm
  have hfreeU : ∀ w1, Marked cfg1.model.all m1.w w1 → Undriven cfg1.model.leaves w1 := by
    intro w1 hm l hl _ s hs
    rw [hm.sig]; exact hfree l hl s hs
  have hsame : ∀ w1 w2, Marked cfg1.model.all m1.w w1 → Marked cfg2.model.all m2.w w2 → Same cfg1.model.leaves w1 w2 := by
    intro w1 w2 h1 h2
    refine ⟨?_, ?_, ?_, ?_, ?_⟩
    · intro s; rw [h1.sig, h2.sig]; exact hw.ty s
    · intro s; rw [h1.sig, h2.sig]; exact hw.assigned s
    · intro s; rw [h1.sig, h2.sig]; exact hw.value s
    · intro b; rw [h1.mem, h2.mem]; exact hw.mem b
    · intro l hl
      have a1 := h1.done _ ((leaf_mem_all _ l).1 hl)
      have a2 := h2.done _ ((leaf_mem_all _ l).1 (hperm.mem_iff.1 hl))
      exact a1.trans a2.symm
  cases hx1 : evalModel cfg1 t m1 with
  | ok u1 m1' =>
    rw [hx1] at e1
    obtain ⟨w1, ls1, k1⟩ := e1
    cases hx2 : evalModel cfg2 t m2 with
    | ok u2 m2' =>
      rw [hx2] at e2
      obtain ⟨w2, ls2, k2⟩ := e2
      have hst2 := k2.steps
      rw [← hdbg, hII] at hst2
      obtain ⟨hS, hP⟩ := complete_unique hW hI1 (hfreeU w1 k1.marked) (hsame w1 w2 k1.marked k2.marked) k1.steps k1.sub
        k1.stuck hst2 (fun l hl => hperm.mem_iff.2 (k2.sub l hl)) (fun l hl => k2.stuck l (hperm.mem_iff.1 hl))
      refine ⟨hS, (ls1.map (fun l => Event.act l.id t)).reverse, (ls2.map (fun l => Event.act l.id t)).reverse, ?_, ?_, ?_⟩
      · rw [(k1.steps.basic (fun l hl => hI1 l (k1.sub l hl))).log, k1.marked.log]
      · rw [(hst2.basic (fun l hl => hI2 l (k2.sub l hl))).log, k2.marked.log]
      · exact (List.reverse_perm _).trans ((hP.map _).trans (List.reverse_perm _).symm)
    | error e m2' =>
      rw [hx2] at e2
      obtain ⟨w2, hm2, hf⟩ := e2
      cases hf with
      | act ls wm g1 g2 g3 _ =>
        rw [← hdbg, hII] at g2
        obtain ⟨l, hl, hen, ha⟩ := g3
        exact complete_no_failure hW hI1 (hfreeU w1 k1.marked) (hsame w1 w2 k1.marked hm2) k1.steps k1.sub
          k1.stuck g2 (fun l hl => hperm.mem_iff.2 (g1 l hl)) ⟨l, hperm.mem_iff.2 hl, hen, by rw [hdbg]; exact ha⟩
      | null h h' _ _ => exact (ho2 h).2.1 h'
      | check po _ h hpo hd hb =>
        obtain ⟨b, hb, hbb⟩ := hb
        have := (ho2 h).2.2 hd b ((ho2 h).1.poSub po hpo b hb)
        rw [this] at hbb; cases hbb
  | error e m1' =>
    rw [hx1] at e1
    obtain ⟨w1, hm1, hf⟩ := e1
    cases hx2 : evalModel cfg2 t m2 with
    | error e m2' => trivial
    | ok u2 m2' =>
      rw [hx2] at e2
      obtain ⟨w2, ls2, k2⟩ := e2
      have hst2 := k2.steps
      rw [← hdbg, hII] at hst2
      have hS := hsame w1 w2 hm1 k2.marked
      cases hf with
      | act ls wm g1 g2 g3 _ =>
        exact complete_no_failure hW hI1 (undriven_same hS (hfreeU w1 hm1)) hS.symm hst2
          (fun l hl => hperm.mem_iff.2 (k2.sub l hl)) (fun l hl => k2.stuck l (hperm.mem_iff.1 hl)) g2 g1 g3
      | null h h' _ _ => exact (ho1 h).2.1 h'
      | check po _ h hpo hd hb =>
        obtain ⟨b, hb, hbb⟩ := hb
        have := (ho1 h).2.2 hd b ((ho1 h).1.poSub po hpo b hb)
        rw [this] at hbb; cases hbb

end Pooya
