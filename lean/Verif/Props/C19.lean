import Verif.Proof.EvalEquiv
import Verif.Proof.TiedInit
import Verif.Spec.Demo
import Verif.Props.C18

/-! # C19 — reuse_order does not change results

Full claim: in every evaluation a `Simulator` with `reuse_order = true` gives the same signal values and block
states as one with `reuse_order = false`, and its remembered order always consists of the blocks of the
model, each once.  The claim is false of the code for models without state variables and for models with
`BusBlockBuilder`s (`C19_refuted_*`); the `_partial` theorems prove it for the others. -/

namespace Pooya.C19

variable {K : Type} [Arith K]

/-- In all reachable states the remembered order consists of blocks of the model, each at most once, and
lacks at most `BusBlockBuilder`s. -/
theorem C19_order_partial (cfg : Config K) (hp : cfg.model.Proper) {m : Machine K} (h : Mid cfg m)
    (po : List (Block K)) (hpo : m.s.po = some po) :
    po.Nodup ∧ (∀ b ∈ po, b ∈ cfg.model.all) ∧
      (∀ b ∈ cfg.model.all, (∀ l, b = .leaf l → ¬ l.kind matches .builder) → b ∈ po) := by
  have hi := mid_inv cfg hp h
  refine ⟨List.Nodup.of_map _ (hi.poNodup po hpo), hi.poSub po hpo, ?_⟩
  intro b hb hn
  refine hi.poAll po hpo b hb ?_
  cases b with
  | leaf l =>
    have := hn l rfl
    simp only [Block.isBuilder]
    cases hk : l.kind <;> simp [hk] at this ⊢
  | sub _ _ _ => rfl

/-- Without `BusBlockBuilder`s the remembered order is a permutation of the blocks of the model. -/
theorem C19_permutation_partial (cfg : Config K) (hp : cfg.model.Proper) {m : Machine K} (h : Mid cfg m)
    (hb : ∀ l ∈ cfg.model.leaves, ¬ l.kind matches .builder)
    (po : List (Block K)) (hpo : m.s.po = some po) : po.Perm cfg.model.all := by
  obtain ⟨h1, h2, h3⟩ := C19_order_partial cfg hp h po hpo
  rw [List.perm_ext_iff_of_nodup h1 (List.Nodup.of_map _ hp)]
  intro b
  refine ⟨h2 b, fun hm => h3 b hm ?_⟩
  rintro l rfl
  exact hb l ((leaf_mem_all _ l).2 hm)

/-- One evaluation, from any reachable state in which an order is remembered: with and without
`reuse_order` both throw, or both return with the same visible state and the same activations. -/
theorem C19_same_results_partial (cfg : Config K) (hs : cfg.strategy = .reuse) (hp : cfg.model.Proper)
    (hW : Wired cfg.model.leaves) (hb : ∀ l ∈ cfg.model.leaves, ¬ l.kind matches .builder)
    {m : Machine K} (h : Mid cfg m) (hpo : m.s.po ≠ none)
    (hfree : ∀ l ∈ cfg.model.leaves, ∀ s ∈ l.outs, (m.w.sig s).assigned = false) (t : K) :
    match evalModel cfg t m, evalModel { cfg with strategy := .plain } t m with
    | .ok _ m1, .ok _ m2 => Same cfg.model.leaves m1.w m2.w ∧
        ∃ ev1 ev2, m1.w.log = ev1 ++ m.w.log ∧ m2.w.log = ev2 ++ m.w.log ∧ ev1.Perm ev2
    | .error _ _, .error _ _ => True
    | _, _ => False := by
  refine eval_equiv cfg { cfg with strategy := .plain } (by rw [hs]; simp) (by simp) rfl hp hp (List.Perm.refl _) hW m m
    (Same.refl _ _) hfree (fun _ => ⟨mid_inv cfg hp h, hpo, fun _ b hm => ?_⟩) (fun e => by cases e) t
  cases b with
  | leaf l =>
    have := hb l ((leaf_mem_all _ l).2 hm)
    simp only [Block.isBuilder]
    cases hk : l.kind <;> simp [hk] at this ⊢
  | sub _ _ _ => rfl

/-- An order is remembered after every initialisation that found state variables. -/
example : Mid (Demo.cfg .reuse) (Demo.after .reuse) ∧ (Demo.cfg .reuse).model.Proper ∧
    Wired (Demo.cfg .reuse).model.leaves ∧ (∀ l ∈ (Demo.cfg .reuse).model.leaves, ¬ l.kind matches .builder) ∧
    (Demo.after .reuse).s.po.map (·.map Block.id) = some [100, 101, 3, 4, 2, 1] := by
  refine ⟨reach_mid _ (Demo.reach _), Demo.proper _, Demo.wired _, ?_, by decide +kernel⟩
  have e : (Demo.cfg .reuse).model.leaves = [Demo.add, Demo.gain, Demo.source, Demo.integ] := Demo.leaves_eq
  rw [e]
  intro l hl
  simp only [List.mem_cons, List.not_mem_nil, or_false] at hl
  rcases hl with rfl | rfl | rfl | rfl <;> simp [Demo.add, Demo.gain, Demo.source, Demo.integ]

/-- Whole simulations of well-formed models with state variables: for any sequence of calls `init`, `run`, …, `run`, with and without `reuse_order`
both simulations throw, or both return and agree on all signals, block members, the time and the state variables. -/
theorem C19_same_runs_partial (cfg : Config K) (hs : cfg.Sound) (w : World K) (hd : ∀ b, w.done b = false) (hty : cfg.Typed w)
    (hst : 0 < stateSize cfg w) (t t0 : K) (as : List (RunArgs K)) :
    SameOutcome (simulate { cfg with strategy := .reuse } t0 as (fresh w t)) (simulate { cfg with strategy := .plain } t0 as (fresh w t)) :=
  simulate_same (c1 := { cfg with strategy := .reuse }) (c2 := { cfg with strategy := .plain }) ⟨⟨rfl, .refl _, fun _ => .rfl, rfl, rfl, rfl, rfl⟩,
      hs.with _ hs.hash,
      hs.with _ hs.hash, fun e => (by rcases e with e | e <;> cases e)⟩
    ⟨hd, ⟨hty.float, hty.deriv⟩, fun _ => hst, fun e => (by rcases e with e | e <;> cases e)⟩ (fun e => by cases e) (fun e => by cases e) as

example : (Demo.cfg .reuse).Sound ∧ (∀ b, Demo.world.done b = false) ∧ (Demo.cfg .reuse).Typed Demo.world ∧
    0 < stateSize (Demo.cfg .reuse) Demo.world ∧
    (stateOf (simulate (Demo.cfg .reuse) 0 [⟨100, 1, 1/10, 10⟩, ⟨100, 2, 1/10, 10⟩] (fresh Demo.world 0))).s.sv = some [28] :=
  ⟨C18.demo_sound _, fun _ => rfl, C18.demo_typed _, by decide +kernel, by decide +kernel⟩

/-! ### Refutations -/

/-- A model with one constant, without state variables. -/
private def noState (st : Strategy) : Config ℚ :=
  { Demo.cfg st with model := .sub 100 [] [.leaf { id := 1, links := [(0, Demo.ot)], kind := .const (.scalar 7) 0 }],
                     deriv := fun _ => none, stepper := none }

/-- Without state variables `init` of a `Simulator` with `reuse_order` dereferences a null pointer, while
one without `reuse_order` works. -/
theorem C19_refuted_nostate :
    (match simInit (noState .reuse) 0 Demo.start with | .error (.ub .nullDeref) _ => true | _ => false) = true ∧
    returns (simInit (noState .plain) 0 Demo.start) = true := by
  constructor <;> decide +kernel

/-- The example with a `BusBlockBuilder` (5). -/
private def withBuilder (st : Strategy) : Config ℚ :=
  { Demo.cfg st with model := .sub 100 [] [.leaf Demo.add, .leaf Demo.gain, .leaf Demo.source, .leaf Demo.integ,
      .leaf { id := 5, links := [], kind := .builder }] }

/-- With a `BusBlockBuilder` in the model the check of the remembered order fails in debug builds. -/
theorem C19_refuted_builder :
    (match simInit (withBuilder .reuse) 0 Demo.start with | .error (.exc .debugVerify) _ => true | _ => false) = true ∧
    returns (simInit (withBuilder .plain) 0 Demo.start) = true ∧
    (stateOf (simInit { withBuilder .reuse with dbg := false } 0 Demo.start)).s.po.map (·.map Block.id) =
      some [100, 3, 4, 2, 1] := by
  refine ⟨?_, ?_, ?_⟩ <;> decide +kernel

end Pooya.C19
