import Verif.Proof.Eval
import Verif.Spec.Demo

/-! # C23 — processed() of a submodel is the conjunction of its blocks -/

namespace Pooya.C23

set_option linter.unusedSectionVars false

variable {K : Type} [Arith K]

/-- `Inside b c`: `c` is in the submodel `b`, at any depth. -/
inductive Inside : Block K → Block K → Prop
  | kid {i : BlkId} {ls : List (SigId × Flags)} {kids : List (Block K)} {c : Block K} : c ∈ kids → Inside (.sub i ls kids) c
  | deep {i : BlkId} {ls : List (SigId × Flags)} {kids : List (Block K)} {b c : Block K} : b ∈ kids → Inside b c →
      Inside (.sub i ls kids) c

private theorem leavesL_iff (bs : List (Block K)) (l : Leaf K) : l ∈ leavesL bs ↔ ∃ b ∈ bs, l ∈ b.leaves := by
  induction bs with
  | nil => simp [leavesL]
  | cons b bs ih => simp [leavesL, ih]

private theorem inside_leaves {b : Block K} {l : Leaf K} (h : Inside b (.leaf l)) : l ∈ b.leaves := by
  generalize hc : Block.leaf l = c at h
  induction h with
  | @kid i ls kids c hk =>
    subst hc
    simp only [Block.leaves]
    exact (leavesL_iff kids l).2 ⟨_, hk, by simp [Block.leaves]⟩
  | deep hk _ ih =>
    simp only [Block.leaves]
    exact (leavesL_iff _ l).2 ⟨_, hk, ih hc⟩

mutual
private theorem leaves_inside (i : BlkId) (ls : List (SigId × Flags)) (kids : List (Block K)) (l : Leaf K)
    (h : l ∈ leavesL kids) : Inside (.sub i ls kids) (.leaf l) := by
  obtain ⟨b, hb, hl⟩ := leavesL_inside kids l h
  rcases hl with rfl | hl
  · exact .kid hb
  · exact .deep hb hl
private theorem leavesL_inside (bs : List (Block K)) (l : Leaf K) (h : l ∈ leavesL bs) :
    ∃ b ∈ bs, b = .leaf l ∨ Inside b (.leaf l) := by
  cases bs with
  | nil => simp [leavesL] at h
  | cons b bs =>
    simp only [leavesL, List.mem_append] at h
    rcases h with h | h
    · refine ⟨b, by simp, ?_⟩
      cases b with
      | leaf l' => simp only [Block.leaves, List.mem_singleton] at h; subst h; exact Or.inl rfl
      | sub j ls kids => simp only [Block.leaves] at h; exact Or.inr (leaves_inside j ls kids l h)
    · obtain ⟨c, hc, hl⟩ := leavesL_inside bs l h
      exact ⟨c, by simp [hc], hl⟩
end

/-- After an evaluation by `Simulator` without `reuse_order`, a submodel anywhere in the model (including
the model itself) is processed exactly if all leaf blocks in it are. -/
theorem C23_conjunction (cfg : Config K) (hs : cfg.strategy = .plain) (hp : cfg.model.Proper) {m m' : Machine K}
    (t : K) (he : evalModel cfg t m = .ok () m') (i : BlkId) (ls : List (SigId × Flags)) (kids : List (Block K))
    (hb : Block.sub i ls kids = cfg.model ∨ Inside cfg.model (.sub i ls kids)) :
    m'.w.done i = true ↔ ∀ l, Inside (.sub i ls kids) (.leaf l) → m'.w.done l.id = true := by
  have hmem : Block.sub i ls kids ∈ cfg.model.all := by
    rcases hb with h | h
    · rw [← h]; exact self_mem_all _
    · generalize cfg.model = c at h
      clear he
      generalize hd : Block.sub i ls kids = d at h ⊢
      induction h with
      | kid hk => simp only [Block.all, List.mem_cons]; exact Or.inr (mem_allL hk _ (self_mem_all _))
      | deep hk _ ih => simp only [Block.all, List.mem_cons]; exact Or.inr (mem_allL hk _ (ih hd))
  have hex : Exact cfg.model.all m'.w := by
    obtain ⟨w1, hw, hm⟩ := mark_ok cfg.model hp m.w
    have h := plainLoop_completes (dbg := cfg.dbg) (t := t) hp (Nat.lt_succ_self _) w1 (marked_closed hm)
    unfold Completes Evals at h
    unfold evalModel at he
    rw [hs] at he
    simp only [bind_apply, inW, hw] at he
    cases hx : plainLoop cfg.dbg t cfg.model (cfg.model.leaves.length + 1) w1 with
    | ok u w' =>
      rw [Nat.succ_eq_add_one, hx] at h
      rw [hx] at he
      obtain ⟨_, _, _, _, h4⟩ := h
      cases he
      exact h4
    | error e w' => rw [hx] at he; cases he
  have := hex _ hmem
  simp only [Block.id] at this
  rw [this]
  constructor
  · intro h l hl; exact h l (inside_leaves hl)
  · intro h l hl
    simp only [Block.leaves] at hl
    exact h l (leaves_inside i ls kids l hl)

/-- In the example without a set state the nested submodel 101 is processed and the model is not. -/
example : (Demo.cfg .plain).model.Proper ∧
    (∃ m', evalModel (Demo.cfg .plain) 3 Demo.start = .ok () m' ∧ m'.w.done 101 = true ∧ m'.w.done 100 = false) :=
  ⟨Demo.proper _, _, eq_of_returns (by decide +kernel), by decide +kernel, by decide +kernel⟩

end Pooya.C23
