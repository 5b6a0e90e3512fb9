import Verif.Proof.Eval
import Verif.Spec.Demo

/-! # C17 — model evaluation terminates and is maximal -/

namespace Pooya.C17

set_option linter.unusedSectionVars false

variable {K : Type} [Arith K]

/-- The loop `while (_model.process(t)) {}` has stopped after at most (number of leaves + 1) sweeps: from
the flags the evaluation starts with, any larger number of permitted sweeps has the same outcome. -/
theorem C17_plain_sweeps (b : Block K) (hp : b.Proper) (dbg : Bool) (t : K) (w w1 : World K)
    (hm : b.mark w = .ok () w1) (n : Nat) (hn : b.leaves.length + 1 ≤ n) :
    plainLoop dbg t b n w1 = plainLoop dbg t b (b.leaves.length + 1) w1 := by
  obtain ⟨w1', h1, h2⟩ := mark_ok b hp w
  rw [h1] at hm
  cases hm
  exact plainLoop_stops hp w1 (marked_closed h2) hn

/-- With `reuse_order` the loop over the remembered order has stopped after (number of blocks + 1)
sweeps. -/
theorem C17_reuse_sweeps (cfg : Config K) (hp : cfg.model.Proper) {m : Machine K} (h : Mid cfg m) (t : K)
    (po : List (Block K)) (hpo : m.s.po = some po) (w : World K) (n : Nat) (hn : po.length + 1 ≤ n) :
    reuseLoop cfg.dbg t po n w = reuseLoop cfg.dbg t po (po.length + 1) w :=
  have hi := mid_inv cfg hp h
  reuseLoop_stops po (hi.poNodup po hpo) (sorted_of_sub hp (hi.poSub po hpo)) w hn

/-- The ordering pass of `FastSimulator::init` has stopped after (number of leaves + 1) levels. -/
theorem C17_fast_levels (b : Block K) (hp : b.Proper) (dbg : Bool) (t : K) (w : World K) (n : Nat)
    (hn : b.leaves.length + 1 ≤ n) :
    fastOrder dbg t b.leaves n w = fastOrder dbg t b.leaves (b.leaves.length + 1) w :=
  fastOrder_stops b.leaves hp.leafNodup w hn

/-- When the evaluation returns, every leaf that is not processed has a required signal that is not
assigned. -/
theorem C17_maximal (cfg : Config K) (hs : cfg.strategy ≠ .fast) (hp : cfg.model.Proper) {m m' : Machine K}
    (h : Mid cfg m) (t : K) (he : evalModel cfg t m = .ok () m') :
    ∀ l ∈ cfg.model.leaves, m'.w.done l.id = false →
      ∃ s f, (s, f) ∈ l.links ∧ f.isRequired = true ∧ (m'.w.sig s).assigned = false := by
  have hsp := eval_spec cfg hs hp (fun _ => mid_inv cfg hp h) t
  rw [he] at hsp
  obtain ⟨w1, ls, h1⟩ := hsp
  intro l hl hd
  by_contra hno
  refine h1.stuck l hl ⟨hd, ?_⟩
  rintro s ⟨f, hf, hr⟩
  cases ha : (m'.w.sig s).assigned with
  | true => rfl
  | false => exact (hno ⟨s, f, hf, hr, ha⟩).elim

/-- Processed leaves are those whose activation function ran, and `BusBlockBuilder`s. -/
theorem C17_processed (cfg : Config K) (hs : cfg.strategy ≠ .fast) (hp : cfg.model.Proper) {m m' : Machine K}
    (h : Mid cfg m) (t : K) (he : evalModel cfg t m = .ok () m') :
    ∃ evs : List (Event K), m'.w.log = evs ++ m.w.log ∧ ∀ l ∈ cfg.model.leaves,
      (m'.w.done l.id = true ↔ .act l.id t ∈ evs ∨ l.kind matches .builder) := by
  have hsp := eval_spec cfg hs hp (fun _ => mid_inv cfg hp h) t
  rw [he] at hsp
  obtain ⟨w1, ls, h1⟩ := hsp
  have hI : ∀ l ∈ cfg.model.leaves, cfg.model.leafId l.id := fun l hl => List.mem_map_of_mem hl
  have hb := h1.steps.basic (fun l hl => hI l (h1.sub l hl))
  refine ⟨_, by rw [hb.log, h1.marked.log], ?_⟩
  intro l hl
  have hk : w1.done l.id = true ↔ (l.kind matches .builder) = true := by
    have := h1.marked.done _ ((leaf_mem_all _ l).1 hl)
    simp only [Block.id, Block.isBuilder] at this
    rw [this]
    cases l.kind <;> simp
  rw [hb.done l.id (hI l hl), hk, or_comm]
  simp only [List.mem_reverse, List.mem_map, Event.act.injEq, and_true]

/-- Four leaves; no state is set, so that the evaluation of the example leaves the sum waiting. -/
example : (Demo.cfg .plain).model.Proper ∧ Mid (Demo.cfg .plain) Demo.start ∧
    (∃ m', evalModel (Demo.cfg .plain) 3 Demo.start = .ok () m' ∧ m'.w.done 1 = false ∧ m'.w.done 2 = true) :=
  ⟨Demo.proper _, .new _ _ (fun _ => rfl), _, eq_of_returns (by decide +kernel), by decide +kernel, by decide +kernel⟩

end Pooya.C17
