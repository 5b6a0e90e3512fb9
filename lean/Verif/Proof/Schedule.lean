import Verif.Proof.Acts
import Verif.Proof.EvalEquiv
import Verif.Proof.Twin
import Verif.Spec.FastOrder

/-! Evaluations by all three strategies are complete schedules. -/

namespace Pooya

set_option linter.unusedSectionVars false

variable {K : Type} [Arith K] {dbg : Bool} {t : K} {cfg : Config K}

/-! ### Activation functions do not see `_processed` -/

omit [Arith K] in
theorem flag_core (d : Bool) : TwinCore (K := K) false Flagged d d where
  mode := Or.inl rfl
  tys w1 w2 h := fun s => by rw [h.sig]
  asgs w1 w2 h := fun s => by rw [h.sig]
  getv s := by
    intro w1 w2 h
    unfold getv
    rw [h.sig]
    split
    · exact Or.inr ⟨rfl, h⟩
    · split
      · exact Or.inr ⟨rfl, h⟩
      · exact ⟨rfl, h⟩
  setv s v := by
    intro w1 w2 h
    unfold setv
    rw [h.sig]
    split
    · exact Or.inr ⟨rfl, h⟩
    · split
      · exact Or.inr ⟨rfl, h⟩
      · split
        · exact Or.inr ⟨rfl, h⟩
        · exact ⟨rfl, rfl, h.mem, h.log⟩
  clearv s := fun w1 w2 h => ⟨rfl, by show upd _ _ _ = upd _ _ _; rw [h.sig], h.mem, h.log⟩
  getMem b := fun w1 w2 h => ⟨congrFun h.mem.symm b, h⟩
  setMem b m := fun w1 w2 h => ⟨rfl, h.sig, by show upd _ _ _ = upd _ _ _; rw [h.mem], h.log⟩
  emit e := fun w1 w2 h => ⟨rfl, h.sig, h.mem, by show _ :: _ = _ :: _; rw [h.log]⟩

theorem act_flag {l : Leaf K} {w w0 : World K} (hf : Flagged w w0) :
    match l.act dbg t w with
    | .ok _ w1 => ∃ w1', l.act dbg t w0 = .ok () w1' ∧ Flagged w1 w1'
    | .error e w1 => ∃ w1', l.act dbg t w0 = .error e w1' ∧ Flagged w1 w1' := by
  have h := (flag_core dbg).act l t w w0 hf
  cases hx : l.act dbg t w with
  | ok u w1 =>
    rw [hx] at h
    cases hy : l.act dbg t w0 with
    | ok u' w2 => rw [hy] at h; exact ⟨w2, rfl, h.2⟩
    | error e w2 => rw [hy] at h; exact h.elim
  | error e w1 =>
    rw [hx] at h
    cases hy : l.act dbg t w0 with
    | ok u' w2 => rw [hy] at h; cases h
    | error e' w2 =>
      rw [hy] at h
      rcases h with h | ⟨rfl, h⟩
      · cases h
      · exact ⟨w2, rfl, h⟩

theorem Flagged.symm {w w' : World K} (h : Flagged w w') : Flagged w' w := ⟨h.sig.symm, h.mem.symm, h.log.symm⟩

/-! ### FastSimulator -/

theorem FollowsFrom.mono {A B : SigId → Prop} {ls : List (Leaf K)} (h : FollowsFrom A ls) (hAB : ∀ l ∈ ls, ∀ s, l.Requires s → A s → B s) :
    FollowsFrom B ls := by
  induction ls generalizing A B with
  | nil => trivial
  | cons l ls ih =>
    refine ⟨fun s hs => hAB l (by simp) s hs (h.1 s hs), ih h.2 ?_⟩
    rintro l' hl' s hs (ha | ho)
    · exact .inl (hAB l' (by simp [hl']) s hs ha)
    · exact .inr ho

/-- A schedule follows from what is assigned at its start. -/
theorem Steps.follows {I : BlkId → Prop} {w w' : World K} {ls : List (Leaf K)} (h : Steps dbg t I w ls w') :
    FollowsFrom (fun s => (w.sig s).assigned = true) ls := by
  induction h with
  | nil w => trivial
  | @act l w w1 w' ls hen hact _ ih =>
    refine ⟨hen.2, ih.mono (fun l' _ s _ ha => ?_)⟩
    by_cases ho : s ∈ l.outs
    · exact .inr ho
    · left
      have := (act_within hact).sig s ho
      have ha : (w1.sig s).assigned = true := ha
      rw [this] at ha
      exact ha
  | flag _ _ ih => exact ih

/-- Running a list of blocks that follows from what is assigned. -/
theorem actAll_steps {I : BlkId → Prop} {L : List (Leaf K)} {ls : List (Leaf K)} {w w1 : World K} (hf : Flagged w w1)
    (hd : ∀ l ∈ ls, w1.done l.id = false) (hn : (ls.map Leaf.id).Nodup) (hfol : FollowsFrom (fun s => (w.sig s).assigned = true) ls)
    (has : ∀ l ∈ ls, l.Assigns) (hL : ∀ l ∈ ls, l ∈ L) :
    match actAll dbg t ls w with
    | .ok _ w' => ∃ w2, Steps dbg t I w1 ls w2 ∧ Flagged w' w2 ∧ ∀ b, w2.done b = true ↔ w1.done b = true ∨ b ∈ ls.map Leaf.id
    | .error e w' => ∃ l1 wm w2, (∀ l ∈ l1, l ∈ ls) ∧ Steps dbg t I w1 l1 wm ∧ FailsAt dbg t L wm e w2 ∧ Flagged w' w2 := by
  induction ls generalizing w w1 with
  | nil => exact ⟨w1, .nil w1, hf, fun b => by simp⟩
  | cons l ls ih =>
    unfold actAll
    rw [bind_apply]
    have hen : Enabled l w1 := ⟨hd l (by simp), fun s hs => by rw [hf.sig]; exact hfol.1 s hs⟩
    have ha := act_flag (dbg := dbg) (t := t) (l := l) hf
    simp only [List.map_cons, List.nodup_cons] at hn
    cases hx : l.act dbg t w with
    | error e w' =>
      rw [hx] at ha
      obtain ⟨w2, h1, h2⟩ := ha
      exact ⟨[], w1, w2, by simp, .nil w1, ⟨l, hL l (by simp), hen, h1⟩, h2⟩
    | ok u w' =>
      rw [hx] at ha
      obtain ⟨w2, h1, h2⟩ := ha
      have hdn : w2.done = w1.done := (act_within h1).done
      have hf' : Flagged w' { w2 with done := upd w2.done l.id true } := ⟨h2.sig, h2.mem, h2.log⟩
      have hd' : ∀ l' ∈ ls, upd w2.done l.id true l'.id = false := by
        intro l' hl'
        have hne : l'.id ≠ l.id := fun e => hn.1 (e ▸ List.mem_map_of_mem hl')
        rw [hdn]
        simp only [upd, hne, if_false]
        exact hd l' (by simp [hl'])
      have hfol' : FollowsFrom (fun s => (w'.sig s).assigned = true) ls := hfol.2.mono (fun _ _ s _ h => by
        rcases h with h | h
        · exact (act_within hx).mono s h
        · exact has l (by simp) dbg t w w' hx s h)
      have ih := ih (w1 := { w2 with done := upd w2.done l.id true }) hf' hd' hn.2 hfol' (fun l' hl' => has l' (by simp [hl'])) (fun l' hl' => hL l' (by simp [hl']))
      dsimp only
      cases hy : actAll dbg t ls w' with
      | ok u' w'' =>
        rw [hy] at ih
        obtain ⟨w3, g1, g2, g3⟩ := ih
        refine ⟨w3, .act hen h1 g1, g2, fun b => ?_⟩
        rw [g3 b, hdn]
        by_cases e : b = l.id <;> simp [upd, e]
      | error e w'' =>
        rw [hy] at ih
        obtain ⟨l1, wm, w3, g1, g2, g3, g4⟩ := ih
        refine ⟨l :: l1, wm, w3, ?_, .act hen h1 g2, g3, g4⟩
        intro l' hl'
        rcases List.mem_cons.1 hl' with rfl | hl'
        · simp
        · simp [g1 l' hl']

/-! ### All strategies -/

/-- The simulator is in a state in which it can evaluate the whole model: there are no `BusBlockBuilder`s; with `reuse_order` a complete
order is remembered; and `FastSimulator` has got a valid order, of blocks that always assign all their outputs. -/
structure Evaluable (cfg : Config K) (m : Machine K) : Prop where
  proper : cfg.model.Proper
  builder : ∀ b ∈ cfg.model.all, b.isBuilder = false
  reuse : cfg.strategy = .reuse → OrderInv cfg m ∧ m.s.po ≠ none
  fast : cfg.strategy = .fast → cfg.FastOrder m.s.fast.flatten ∧ ∀ l ∈ cfg.model.leaves, l.Assigns

/-- The signals that blocks require and that are assigned from outside have been assigned. -/
def Supplied (cfg : Config K) (w : World K) : Prop :=
  ∀ s, cfg.External s → (∃ l ∈ cfg.model.leaves, l.Requires s) → (w.sig s).assigned = true

/-- One evaluation is a complete schedule, or ends with the failure of an enabled leaf. -/
def Scheduled (cfg : Config K) (t : K) (w : World K) : EStateM.Result Err (Machine K) Unit → Prop
  | .ok _ m' => ∃ w1 ls w2, Flagged w w1 ∧ (∀ l ∈ cfg.model.leaves, w1.done l.id = false) ∧ (∀ l ∈ ls, l ∈ cfg.model.leaves) ∧
      Steps cfg.dbg t cfg.model.leafId w1 ls w2 ∧ Stuck cfg.model.leaves w2 ∧ Flagged w2 m'.w
  | .error e m' => ∃ w1 ls wm w2, Flagged w w1 ∧ (∀ l ∈ cfg.model.leaves, w1.done l.id = false) ∧ (∀ l ∈ ls, l ∈ cfg.model.leaves) ∧
      Steps cfg.dbg t cfg.model.leafId w1 ls wm ∧ FailsAt cfg.dbg t cfg.model.leaves wm e w2 ∧ Flagged w2 m'.w

theorem eval_sched {m : Machine K} (h : Evaluable cfg m) (hs : cfg.strategy = .fast → Supplied cfg m.w) (t : K) :
    Scheduled cfg t m.w (evalModel cfg t m) := by
  have hbl : ∀ l ∈ cfg.model.leaves, (Block.leaf l).isBuilder = false := fun l hl => h.builder _ ((leaf_mem_all _ l).1 hl)
  by_cases hst : cfg.strategy = .fast
  · obtain ⟨hF, hA⟩ := h.fast hst
    have hn : (m.s.fast.flatten.map Leaf.id).Nodup := (hF.perm.map Leaf.id).nodup_iff.2 h.proper.leafNodup
    have hfol : FollowsFrom (fun s => (m.w.sig s).assigned = true) m.s.fast.flatten :=
      hF.follows.mono (fun l hl s hr he => hs hst s he ⟨l, hF.perm.mem_iff.1 hl, hr⟩)
    have key := actAll_steps (dbg := cfg.dbg) (t := t) (I := cfg.model.leafId) (L := cfg.model.leaves) (w := m.w)
      (w1 := { m.w with done := fun _ => false }) ⟨rfl, rfl, rfl⟩ (fun _ _ => rfl) hn hfol
      (fun l hl => hA l (hF.perm.mem_iff.1 hl)) (fun l hl => hF.perm.mem_iff.1 hl)
    have e : evalModel cfg t m = inW (actAll cfg.dbg t m.s.fast.flatten) m := by
      unfold evalModel; rw [hst]; rfl
    rw [e]
    unfold inW
    cases hx : actAll cfg.dbg t m.s.fast.flatten m.w with
    | ok u w' =>
      rw [hx] at key
      obtain ⟨w2, k1, k2, k3⟩ := key
      refine ⟨{ m.w with done := fun _ => false }, _, w2, ⟨rfl, rfl, rfl⟩, fun _ _ => rfl, fun l hl => hF.perm.mem_iff.1 hl, k1, ?_, k2.symm⟩
      rintro l hl ⟨hd, _⟩
      rw [(k3 l.id).2 (.inr (List.mem_map_of_mem (hF.perm.mem_iff.2 hl)))] at hd
      cases hd
    | error e w' =>
      rw [hx] at key
      obtain ⟨l1, wm, w2, k1, k2, k3, k4⟩ := key
      exact ⟨{ m.w with done := fun _ => false }, l1, wm, w2, ⟨rfl, rfl, rfl⟩, fun _ _ => rfl, fun l hl => hF.perm.mem_iff.1 (k1 l hl), k2, k3, k4.symm⟩
  · have hsp := eval_spec cfg hst h.proper (m := m) (fun e => (h.reuse e).1) t
    have hmk : ∀ w1, Marked cfg.model.all m.w w1 → Flagged m.w w1 ∧ ∀ l ∈ cfg.model.leaves, w1.done l.id = false := fun w1 hm =>
      ⟨⟨hm.sig, hm.mem, hm.log⟩, fun l hl => (hm.done _ ((leaf_mem_all _ l).1 hl)).trans (hbl l hl)⟩
    cases hx : evalModel cfg t m with
    | ok u m' =>
      rw [hx] at hsp
      obtain ⟨w1, ls, hk⟩ := hsp
      exact ⟨w1, ls, m'.w, (hmk w1 hk.marked).1, (hmk w1 hk.marked).2, hk.sub, hk.steps, hk.stuck, .refl _⟩
    | error e m' =>
      rw [hx] at hsp
      obtain ⟨w1, hm1, hf⟩ := hsp
      cases hf with
      | act ls wm g1 g2 g3 _ => exact ⟨w1, ls, wm, m'.w, (hmk w1 hm1).1, (hmk w1 hm1).2, g1, g2, g3, .refl _⟩
      | null hr hn _ _ => exact ((h.reuse hr).2 hn).elim
      | check po _ hr hpo hd hb =>
        obtain ⟨b, hb, hbb⟩ := hb
        have := h.builder b ((h.reuse hr).1.poSub po hpo b hb)
        rw [this] at hbb; cases hbb

/-- Two evaluations of the same leaves from the same visible state, whatever the hierarchies and the strategies: both throw, or both return
with the same visible state. -/
theorem eval_any (c1 c2 : Config K) (hdbg : c1.dbg = c2.dbg) (hperm : c1.model.leaves.Perm c2.model.leaves) (hW : Wired c1.model.leaves)
    {m1 m2 : Machine K} (h1 : Evaluable c1 m1) (h2 : Evaluable c2 m2) (hw : SameView m1.w m2.w)
    (hfree : ∀ l ∈ c1.model.leaves, ∀ s ∈ l.outs, (m1.w.sig s).assigned = false)
    (hs1 : c1.strategy = .fast → Supplied c1 m1.w) (hs2 : c2.strategy = .fast → Supplied c2 m2.w) (t : K) :
    match evalModel c1 t m1, evalModel c2 t m2 with
    | .ok _ m1', .ok _ m2' => SameView m1'.w m2'.w
    | .error _ _, .error _ _ => True
    | _, _ => False := by
  have e1 := eval_sched h1 hs1 t
  have e2 := eval_sched h2 hs2 t
  have hI1 : ∀ l ∈ c1.model.leaves, c1.model.leafId l.id := fun l hl => List.mem_map_of_mem hl
  have hII : c2.model.leafId = c1.model.leafId := by
    funext x; exact propext (hperm.map Leaf.id).mem_iff.symm
  have hU : ∀ w1, Flagged m1.w w1 → Undriven c1.model.leaves w1 := by
    intro w1 hm l hl _ s hs
    rw [hm.sig]; exact hfree l hl s hs
  have hsame : ∀ w1 w2, Flagged m1.w w1 → (∀ l ∈ c1.model.leaves, w1.done l.id = false) → Flagged m2.w w2 →
      (∀ l ∈ c2.model.leaves, w2.done l.id = false) → Same c1.model.leaves w1 w2 := by
    intro w1 w2 g1 d1 g2 d2
    refine ⟨?_, ?_, ?_, ?_, ?_⟩
    · intro s; rw [g1.sig, g2.sig]; exact hw.ty s
    · intro s; rw [g1.sig, g2.sig]; exact hw.assigned s
    · intro s; rw [g1.sig, g2.sig]; exact hw.value s
    · intro b; rw [g1.mem, g2.mem]; exact hw.mem b
    · intro l hl; rw [d1 l hl, d2 l (hperm.mem_iff.1 hl)]
  cases hx1 : evalModel c1 t m1 with
  | ok u1 m1' =>
    rw [hx1] at e1
    obtain ⟨wa, ls1, wb, f1, d1, s1, st1, k1, f1'⟩ := e1
    cases hx2 : evalModel c2 t m2 with
    | ok u2 m2' =>
      rw [hx2] at e2
      obtain ⟨wc, ls2, wd, f2, d2, s2, st2, k2, f2'⟩ := e2
      rw [← hdbg, hII] at st2
      obtain ⟨hS, _⟩ := complete_unique hW hI1 (hU wa f1) (hsame wa wc f1 d1 f2 d2) st1 s1 k1 st2 (fun l hl => hperm.mem_iff.2 (s2 l hl))
        (fun l hl => k2 l (hperm.mem_iff.1 hl))
      dsimp only
      refine ⟨fun s => ?_, fun s => ?_, fun s => ?_, fun b => ?_, by simp⟩
      · rw [f1'.sig, f2'.sig]; exact hS.ty s
      · rw [f1'.sig, f2'.sig]; exact hS.assigned s
      · rw [f1'.sig, f2'.sig]; exact hS.value s
      · rw [f1'.mem, f2'.mem]; exact hS.mem b
    | error e m2' =>
      rw [hx2] at e2
      obtain ⟨wc, ls2, wm, w2, f2, d2, s2, st2, ⟨l, hl, hen, ha⟩, f2'⟩ := e2
      rw [← hdbg, hII] at st2
      exact complete_no_failure hW hI1 (hU wa f1) (hsame wa wc f1 d1 f2 d2) st1 s1 k1 st2 (fun l hl => hperm.mem_iff.2 (s2 l hl))
        ⟨l, hperm.mem_iff.2 hl, hen, by rw [hdbg]; exact ha⟩
  | error e m1' =>
    rw [hx1] at e1
    obtain ⟨wa, ls1, wm, wb, f1, d1, s1, st1, k1, f1'⟩ := e1
    cases hx2 : evalModel c2 t m2 with
    | error e m2' => trivial
    | ok u2 m2' =>
      rw [hx2] at e2
      obtain ⟨wc, ls2, wd, f2, d2, s2, st2, k2, f2'⟩ := e2
      rw [← hdbg, hII] at st2
      have hS := hsame wa wc f1 d1 f2 d2
      exact complete_no_failure hW hI1 (undriven_same hS (hU wa f1)) hS.symm st2 (fun l hl => hperm.mem_iff.2 (s2 l hl))
        (fun l hl => k2 l (hperm.mem_iff.1 hl)) st1 s1 k1

end Pooya
