import Verif.Proof.Eval
import Verif.Proof.EvalLog
import Verif.Spec.Demo

/-! # C16 — a block executes only when its required signals are assigned -/

namespace Pooya.C16

variable {K : Type} [Arith K]

/-- The recorded calls of an evaluation that ran `ls` one after the other. -/
def acts (t : K) (ls : List (Leaf K)) : List (Event K) := (ls.map (fun l => Event.act l.id t)).reverse

/-- `ls` are the leaves that ran, each of them successfully and at a moment when it had not run yet and all
signals it requires were assigned (`Steps`), starting from `w` with the flags `d`. -/
def RanWhenReady (cfg : Config K) (t : K) (w : World K) (ls : List (Leaf K)) (w' : World K) : Prop :=
  (∀ l ∈ ls, l ∈ cfg.model.leaves) ∧
  ∃ d : BlkId → Bool, Steps cfg.dbg t (fun i => i ∈ cfg.model.leaves.map Leaf.id) { w with done := d } ls w'

/-- `Simulator`, whatever the outcome: the activations recorded during an evaluation are those of leaves
that ran when ready; if the evaluation fails in a block, that block was ready, too. -/
theorem C16_only_when_ready (cfg : Config K) (hs : cfg.strategy ≠ .fast) (hp : cfg.model.Proper) {m : Machine K}
    (h : Mid cfg m) (t : K) :
    match evalModel cfg t m with
    | .ok _ m' => ∃ ls, RanWhenReady cfg t m.w ls m'.w ∧ m'.w.log = acts t ls ++ m.w.log
    | .error _ m' =>
        (∃ ls, RanWhenReady cfg t m.w ls m'.w ∧ m'.w.log = acts t ls ++ m.w.log) ∨
        (∃ ls wm, ∃ l ∈ cfg.model.leaves, RanWhenReady cfg t m.w ls wm ∧
          (∀ s, l.Requires s → (wm.sig s).assigned = true) ∧ m'.w.log = acts t (ls ++ [l]) ++ m.w.log) := by
  have hsp := eval_spec cfg hs hp (fun _ => mid_inv cfg hp h) t
  have hI : ∀ l ∈ cfg.model.leaves, cfg.model.leafId l.id := fun l hl => List.mem_map_of_mem hl
  have hw : ∀ w1, Marked cfg.model.all m.w w1 → w1 = { m.w with done := w1.done } := by
    intro w1 hm
    obtain ⟨h1, h2, h3, _, _⟩ := hm
    cases w1; simp only at h1 h2 h3; subst h1 h2 h3; rfl
  cases hx : evalModel cfg t m with
  | ok u m' =>
    rw [hx] at hsp
    obtain ⟨w1, ls, h1⟩ := hsp
    refine ⟨ls, ⟨h1.sub, w1.done, ?_⟩, ?_⟩
    · rw [← hw w1 h1.marked]; exact h1.steps
    · rw [(h1.steps.basic (fun l hl => hI l (h1.sub l hl))).log, h1.marked.log]; rfl
  | error e m' =>
    rw [hx] at hsp
    obtain ⟨w1, hm, hf⟩ := hsp
    cases hf with
    | act ls wm h1 h2 h3 _ =>
      obtain ⟨l, hl, hen, ha⟩ := h3
      refine Or.inr ⟨ls, wm, l, hl, ⟨h1, w1.done, by rw [← hw w1 hm]; exact h2⟩, hen.2, ?_⟩
      have := (act_within_error ha).log
      rw [this, (h2.basic (fun l hl => hI l (h1 l hl))).log, hm.log]
      simp [acts]
    | null _ _ _ hm' =>
      subst hm'
      exact Or.inl ⟨[], ⟨by simp, w1.done, by rw [← hw w1 hm]; exact .nil _⟩, hm.log⟩
    | check po ls _ _ _ _ _ _ h1 h2 =>
      exact Or.inl ⟨ls, ⟨h1, w1.done, by rw [← hw w1 hm]; exact h2⟩, by
        rw [(h2.basic (fun l hl => hI l (h1 l hl))).log, hm.log]; rfl⟩

/-- The example with its state signal set. -/
private def ready : Machine ℚ := { Demo.start with w := { Demo.world with sig := fun s =>
  if s = 2 then { ty := .scalar, assigned := true, value := some (.scalar 1) } else { ty := .scalar } } }

/-- A case with four activations, in data-flow order although the blocks were added in another order. -/
example : (Demo.cfg .plain).strategy ≠ .fast ∧ (Demo.cfg .plain).model.Proper ∧ Mid (Demo.cfg .plain) ready ∧
    ∃ m', evalModel (Demo.cfg .plain) 3 ready = .ok () m' ∧ m'.w.log = [.act 1 3, .act 2 3, .act 4 3, .act 3 3] :=
  ⟨by decide, Demo.proper _, reach_mid _ (.user _ (.new Demo.world 0 (fun _ => rfl) rfl)), _,
    eq_of_returns (by decide +kernel), by decide +kernel⟩

end Pooya.C16
