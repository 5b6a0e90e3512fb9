import Verif.Proof.NoReCall
import Verif.Spec.Demo

/-! # C22 — single drivers imply no re-assignment -/

namespace Pooya.C22

set_option linter.unusedSectionVars false

variable {K : Type} [Arith K]

/-- If every signal has at most one driver then no call of a simulator that is initialised once — whatever the calls
before, whether they returned or threw, and whatever the user assigned in between — fails with the re-assignment
exception.  State signals must have a positive size (see `C22_empty_array`). -/
theorem C22_no_reassignment (cfg : Config K) (hp : cfg.model.Proper) (hd : cfg.SingleDrivers) (hh : cfg.Honest)
    (hash : ∀ l, (cfg.hash l).Perm l) {m : Machine K} (hm : Once cfg m)
    (hsz : ∀ s, (cfg.deriv s).isSome → 0 < (m.w.sig s).ty.size) (c : Call K)
    (hc : ∀ t, c = .init t → m.s.initialized = false) (m' : Machine K) :
    c.exec cfg m ≠ .error (.exc .reassigned) m' := by
  have h : DriveOk cfg := ⟨hp, hd, hh, hash⟩
  have ho := reach_inv cfg hp hm.reach
  intro he
  have hinit : ∀ t, m.s.initialized = false → simInit cfg t m ≠ .error (.exc .reassigned) m' := by
    intro t hi hx
    have := simInit_noRe h t m ⟨(once_layout hm).1 hi, ho, hsz⟩
    rw [hx] at this; exact this rfl
  cases c with
  | init t => exact hinit t (hc t rfl) he
  | run f t a b =>
    cases hi : m.s.initialized with
    | false => exact hinit t hi (by rw [← run_init cfg f t a b m hi]; exact he)
    | true =>
      have := (phases_noRe h).run f t a b m ⟨⟨ho, (once_layout hm).2 hi, hsz⟩, hi⟩
      have he' : run cfg f t a b m = .error (.exc .reassigned) m' := he
      rw [he'] at this; exact this rfl

theorem sigOnly_act (cfg : Config K) (t : K) (l : Leaf K) (hl : l ∈ cfg.model.leaves) :
    Moves (SigOnly (fun s => ∃ l ∈ cfg.model.leaves, s ∈ l.outs)) (l.act cfg.dbg t) :=
  moves_act cfg.dbg t l (fun w w' h s hs => h.sig s (fun h' => hs ⟨l, hl, h'⟩))

/-- What is assigned when the activation functions start keeps its value until the evaluation ends, whether it returns or
throws. -/
theorem C22_before_kept (cfg : Config K) (hp : cfg.model.Proper) {m : Machine K} (hm : Mid cfg m)
    (hfree : Free (fun s => ∃ l ∈ cfg.model.leaves, s ∈ l.outs) m.w) (t : K) (s : SigId)
    (hs : (m.w.sig s).assigned = true) : (stateOf (evalModel cfg t m)).w.sig s = m.w.sig s := by
  have ho := mid_inv cfg hp hm
  have hns : ¬ ∃ l ∈ cfg.model.leaves, s ∈ l.outs := fun h' => by rw [hfree s h'] at hs; cases hs
  by_cases hst : cfg.strategy = .fast
  · unfold evalModel
    simp only [hst, bind_apply, getSim, inW]
    have := moves_actAll (T := SigOnly (K := K) (fun s => ∃ l ∈ cfg.model.leaves, s ∈ l.outs)) (dbg := cfg.dbg) (t := t) m.s.fast.flatten
      (fun l hl => sigOnly_act cfg t l (ho.fastSub l hl)) m.w
    cases hx : actAll cfg.dbg t m.s.fast.flatten m.w with
    | ok a w => rw [hx] at this; exact this s hns
    | error e w => rw [hx] at this; exact this s hns
  · have h := eval_spec cfg hst hp (m := m) (fun _ => ho) t
    have hI : ∀ l ∈ cfg.model.leaves, cfg.model.leafId l.id := fun l hl => List.mem_map_of_mem hl
    cases hx : evalModel cfg t m with
    | ok a m' =>
      rw [hx] at h
      obtain ⟨w1, ls, h1⟩ := h
      show m'.w.sig s = _
      rw [(h1.steps.basic (fun l hl => hI l (h1.sub l hl))).other s (fun l hl h' => hns ⟨l, h1.sub l hl, h'⟩), h1.marked.sig]
    | error e m' =>
      rw [hx] at h
      obtain ⟨w1, hmk, hf⟩ := h
      show m'.w.sig s = _
      cases hf with
      | null _ _ _ he => subst he; exact congrFun hmk.sig s
      | check po ls _ _ _ _ _ _ h1 h2 =>
        rw [(h2.basic (fun l hl => hI l (h1 l hl))).other s (fun l hl h' => hns ⟨l, h1 l hl, h'⟩), hmk.sig]
      | act ls wm h1 h2 h3 _ =>
        obtain ⟨l, hl, _, ha⟩ := h3
        rw [(act_within_error ha).sig s (fun h' => hns ⟨l, hl, h'⟩)]
        show wm.sig s = _
        rw [(h2.basic (fun l hl => hI l (h1 l hl))).other s (fun l hl h' => hns ⟨l, h1 l hl, h'⟩), hmk.sig]

/-- The value in `w'` of every output of `l` is the one that its activation function assigned. -/
def KeptFrom (dbg : Bool) (t : K) (l : Leaf K) (w' : World K) : Prop :=
  ∃ w1 w2, l.act dbg t w1 = .ok () w2 ∧ ∀ s ∈ l.outs, w'.sig s = w2.sig s

theorem steps_kept {L : List (Leaf K)} {dbg : Bool} {t : K} {I : BlkId → Prop} (hI : ∀ l ∈ L, I l.id)
    (hd : ∀ l ∈ L, ∀ l' ∈ L, ∀ s, s ∈ l.outs → s ∈ l'.outs → l.id = l'.id) {w w' : World K}
    {ls : List (Leaf K)} (h : Steps dbg t I w ls w') (hls : ∀ l ∈ ls, l ∈ L) : ∀ l ∈ ls, KeptFrom dbg t l w' := by
  have hnd := (h.basic (fun l hl => hI l (hls l hl))).nodup
  induction h with
  | nil w => simp
  | @act l w w1 w' ls hen hact hst ih =>
    rw [List.map_cons, List.nodup_cons] at hnd
    intro l' hl'
    rcases List.mem_cons.1 hl' with rfl | hl'
    · refine ⟨w, w1, hact, fun s hs => ?_⟩
      exact (hst.basic (fun l hl => hI l (hls l (by simp [hl])))).other s (fun l2 hl2 h2 =>
        hnd.1 (List.mem_map.2 ⟨l2, hl2, hd l2 (hls l2 (by simp [hl2])) l' (hls l' (by simp)) s h2 hs⟩))
    · exact ih (fun l hl => hls l (by simp [hl])) hnd.2 l' hl'
  | flag hi _ ih => exact ih hls hnd

theorem actAll_kept {dbg : Bool} {t : K} {ls : List (Leaf K)} (hid : (ls.map Leaf.id).Nodup)
    (hd : ∀ l ∈ ls, ∀ l' ∈ ls, ∀ s, s ∈ l.outs → s ∈ l'.outs → l.id = l'.id) {w w' : World K}
    (h : actAll dbg t ls w = .ok () w') :
    (∀ l ∈ ls, KeptFrom dbg t l w') ∧ w'.log = (ls.map (fun l => Event.act l.id t)).reverse ++ w.log := by
  induction ls generalizing w with
  | nil => cases h; exact ⟨by simp, rfl⟩
  | cons l ls ih =>
    rw [List.map_cons, List.nodup_cons] at hid
    unfold actAll at h
    rw [bind_apply] at h
    cases hx : l.act dbg t w with
    | error e w1 => rw [hx] at h; cases h
    | ok a w1 =>
      rw [hx] at h
      have ih := ih hid.2 (fun l hl l' hl' => hd l (by simp [hl]) l' (by simp [hl'])) h
      refine ⟨?_, ?_⟩
      · intro l' hl'
        rcases List.mem_cons.1 hl' with rfl | hl'
        · refine ⟨w, w1, hx, fun s hs => ?_⟩
          have := moves_actAll (T := SigOnly (K := K) (fun s => ∃ l ∈ ls, s ∈ l.outs)) dbg t ls
            (fun l hl => moves_act dbg t l (fun w w' h s hs => h.sig s (fun h' => hs ⟨l, hl, h'⟩))) w1
          have h' : actAll dbg t ls w1 = .ok () w' := h
          rw [h'] at this
          exact this s (fun ⟨l2, hl2, h2⟩ => hid.1 (List.mem_map.2 ⟨l2, hl2, hd l2 (by simp [hl2]) l' (by simp) s h2 hs⟩))
        · exact ih.1 l' hl'
      · rw [ih.2, (act_within hx).log]; simp

/-- When an evaluation returns, the outputs of every block that ran during it have the values that its activation
function assigned. -/
theorem C22_outputs_kept (cfg : Config K) (hp : cfg.model.Proper)
    (hd : ∀ l ∈ cfg.model.leaves, ∀ l' ∈ cfg.model.leaves, ∀ s, s ∈ l.outs → s ∈ l'.outs → l.id = l'.id)
    {m m' : Machine K} (hm : Mid cfg m) (t : K) (he : evalModel cfg t m = .ok () m') :
    ∃ ls : List (Leaf K), (∀ l ∈ ls, l ∈ cfg.model.leaves) ∧ m'.w.log = (ls.map (fun l => Event.act l.id t)).reverse ++ m.w.log ∧
      ∀ l ∈ ls, KeptFrom cfg.dbg t l m'.w := by
  have ho := mid_inv cfg hp hm
  by_cases hst : cfg.strategy = .fast
  · unfold evalModel at he
    simp only [hst, bind_apply, getSim, inW] at he
    cases hx : actAll cfg.dbg t m.s.fast.flatten m.w with
    | error e w => rw [hx] at he; cases he
    | ok a w =>
      rw [hx] at he
      cases he
      have := actAll_kept ho.fastNodup (fun l hl l' hl' => hd l (ho.fastSub l hl) l' (ho.fastSub l' hl')) hx
      exact ⟨_, ho.fastSub, this.2, this.1⟩
  · have h := eval_spec cfg hst hp (m := m) (fun _ => ho) t
    rw [he] at h
    obtain ⟨w1, ls, h1⟩ := h
    have hI : ∀ l ∈ cfg.model.leaves, cfg.model.leafId l.id := fun l hl => List.mem_map_of_mem hl
    refine ⟨ls, h1.sub, ?_, steps_kept hI hd h1.steps h1.sub⟩
    rw [(h1.steps.basic (fun l hl => hI l (h1.sub l hl))).log, h1.marked.log]

/-! ## Example -/

theorem demo_drivers (st : Strategy) : (Demo.cfg st).SingleDrivers := by
  have e : (Demo.cfg st).model.leaves = [Demo.add, Demo.gain, Demo.source, Demo.integ] := Demo.leaves_eq
  have hk : ∀ t, (Demo.cfg st).inputKeys t = [] := fun t => rfl
  have ha : ∀ l ∈ [Demo.add, Demo.gain, Demo.source, Demo.integ], Block.leaf l ∈ (Demo.cfg st).model.all := by
    intro l hl
    exact (leaf_mem_all _ l).1 (by rw [e]; exact hl)
  have hlink : ∀ l ∈ [Demo.add, Demo.gain, Demo.source, Demo.integ], ∀ s ∈ l.outs ++ l.preOuts, ∃ f, (s, f) ∈ l.links := by
    have : ∀ l ∈ [Demo.add, Demo.gain, Demo.source, Demo.integ], ∀ s ∈ l.outs ++ l.preOuts, s ∈ l.links.map Prod.fst := by decide +kernel
    intro l hl s hs
    obtain ⟨⟨s', f⟩, h1, rfl⟩ := List.mem_map.1 (this l hl s hs)
    exact ⟨f, h1⟩
  constructor
  · rw [e]; decide +kernel
  · rw [e]; decide +kernel
  · intro t; rw [hk]; exact List.nodup_nil
  · rw [e]; decide +kernel
  · rw [e]; decide +kernel
  · rw [e]; decide +kernel
  · rw [e]
    show ∀ l ∈ _, ∀ s ∈ _, (if s = 2 then some 3 else none : Option SigId) = none
    decide +kernel
  · intro l _ s _ t; rw [hk]; simp
  · intro l _ s _ t; rw [hk]; simp
  · intro s _ t; rw [hk]; simp
  · rw [e]; exact fun l hl s hs => ⟨.leaf l, ha l hl, hlink l hl s (by simp [hs])⟩
  · rw [e]; exact fun l hl s hs => ⟨.leaf l, ha l hl, hlink l hl s (by simp [hs])⟩
  · intro t s hs; rw [hk] at hs; cases hs

theorem demo_honest (st : Strategy) : (Demo.cfg st).Honest := by
  have e : (Demo.cfg st).model.leaves = [Demo.add, Demo.gain, Demo.source, Demo.integ] := Demo.leaves_eq
  constructor
  · rw [e]
    intro l hl
    simp only [List.mem_cons, List.not_mem_nil, or_false] at hl
    rcases hl with rfl | rfl | rfl | rfl <;> simp [Leaf.Honest, Demo.add, Demo.gain, Demo.source, Demo.integ]
  · rw [e]
    intro l hl c hc
    simp only [List.mem_cons, List.not_mem_nil, or_false] at hl
    rcases hl with rfl | rfl | rfl | rfl <;> cases hc
  · rw [e]
    intro l hl c hc
    simp only [List.mem_cons, List.not_mem_nil, or_false] at hl
    rcases hl with rfl | rfl | rfl | rfl <;> cases hc
  · intro f hf; cases hf
  · intro t; exact fun h => by cases h

theorem demo_once (st : Strategy) : Once (Demo.cfg st) (Demo.after st) := by
  refine .call _ (.call _ (.new Demo.world 0 (fun _ => rfl) rfl) (fun _ _ => rfl)) (fun t h => by cases h)

/-- The example meets the hypotheses. -/
example (st : Strategy) (c : Call ℚ) (hc : ∀ t, c ≠ .init t) (m' : Machine ℚ) :
    c.exec (Demo.cfg st) (Demo.after st) ≠ .error (.exc .reassigned) m' := by
  refine C22_no_reassignment _ (Demo.proper st) (demo_drivers st) (demo_honest st) (fun _ => List.Perm.refl _) (demo_once st)
    (fun s hs => ?_) c (fun t h => (hc t h).elim) m'
  have : s = 2 := by
    by_cases h : s = 2
    · exact h
    · have e : (Demo.cfg st).deriv s = none := if_neg h
      rw [e] at hs; cases hs
  subst this
  cases st <;> decide +kernel

/-! ## Empty state arrays -/

/-- A constant, in: none, out 3. -/
private def zc : Leaf ℚ := { id := 1, links := [(3, Demo.ot)], kind := .const (.array []) 3 }
/-- An integrator of an array of size 0, in 3, out 2. -/
private def zi : Leaf ℚ := { id := 2, links := [(3, Demo.inp), (2, Demo.st)], kind := .integrator 3 2 }
private def zworld : World ℚ where
  sig _ := { ty := .array 0, value := some (.array []) }
  mem _ := { value := .array [] }
  done _ := false
  log := []
private def zcfg : Config ℚ := { Demo.cfg .plain with model := .sub 100 [] [.leaf zc, .leaf zi] }

/-- With an integrator of arrays of size zero `init` returns and `run` throws because `pre_step` finds its output assigned: there are
state signals, which `reset_with_state_variables` assigns, but no state variables, so that `pre_step` is called, too. -/
theorem C22_empty_array :
    returns (simInit zcfg 0 { w := zworld, s := { tPrev := 0 } }) = true ∧
    ∃ m', run zcfg 100 1 (1/10) 10 (stateOf (simInit zcfg 0 { w := zworld, s := { tPrev := 0 } })) = .error (.exc .debugVerify) m' := by
  refine ⟨by decide +kernel, ?_⟩
  have h : ∀ r : EStateM.Result Err (Machine ℚ) Unit, (match r with | .error (.exc .debugVerify) _ => true | _ => false) = true →
      ∃ m', r = .error (.exc .debugVerify) m' := by
    intro r hr
    split at hr
    · exact ⟨_, rfl⟩
    · cases hr
  exact h _ (by decide +kernel)

end Pooya.C22
