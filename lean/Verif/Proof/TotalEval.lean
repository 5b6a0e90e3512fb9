import Verif.Proof.Total
import Verif.Proof.TypedRun
import Verif.Proof.Evolve
import Verif.Proof.Delay
import Verif.Proof.Quiet
import Verif.Props.C21

/-! Evaluations of complete diagrams return. -/

namespace Pooya

set_option linter.unusedSectionVars false

variable {K : Type} [Arith K] {cfg : Config K} {ty : SigId → Ty} {rank : BlkId → Nat}

/-- The three kinds of errors are excluded in three ways. -/
theorem sure {α : Type} {P : World K → Prop} {x : M K α} {Q : α → Prop} (hk : Keeps strict cfg ty x Q) (hl : Lax P x)
    (hn : Tri P x (fun _ _ => True) NotRe) {w : World K} (hw : w.Fine strict cfg ty) (hp : P w) :
    ∃ a w', x w = .ok a w' ∧ w'.Fine strict cfg ty ∧ Q a := by
  have h1 := hk w hw
  have h2 := hl w hp
  have h3 := hn w hp
  cases hx : x w with
  | ok a w' => rw [hx] at h1; exact ⟨a, w', rfl, h1⟩
  | error e w' =>
    rw [hx] at h1 h2 h3
    rcases h2 with rfl | rfl | ⟨u, rfl⟩
    · exact (h3 rfl).elim
    · exact Bool.noConfusion (show true = false from h1.1)
    · exact Bool.noConfusion (show false = true from h1.1.1)

/-- The signals in `A` are assigned. -/
def Has (A : SigId → Prop) (w : World K) : Prop := ∀ s, A s → (w.sig s).assigned = true

/-- The times recorded by `Delay`s. -/
def Recorded (cfg : Config K) (p : K → Prop) (w : World K) : Prop := ∀ l ∈ cfg.model.leaves, l.isDelay = true → ∀ s ∈ (w.mem l.id).ts, p s

theorem World.Fine.sound {pol : Policy} {w : World K} (h : w.Fine pol cfg ty) : Pooya.Sound ty w.sig := fun s => ⟨h.types s, h.cells s⟩

theorem Recorded.mem {p : K → Prop} {w w' : World K} (h : Recorded cfg p w) (hm : w'.mem = w.mem) : Recorded cfg p w' := by
  intro l hl hd s hs
  rw [hm] at hs
  exact h l hl hd s hs

/-! ### Effects on the diagram -/

theorem runs_inputs (h : cfg.WellPosed ty rank) {w : World K} (hw : w.Fine strict cfg ty) (t : K) (hf : Free (· ∈ cfg.inputKeys t) w) :
    ∃ w', callInputs cfg t w = .ok () w' ∧ w'.Fine strict cfg ty ∧ w'.done = w.done ∧ w'.mem = w.mem ∧
      (∀ s, s ∉ cfg.inputKeys t → w'.sig s = w.sig s) ∧ Has (· ∈ cfg.inputKeys t) w' := by
  obtain ⟨_, w', h1, h2, _⟩ := sure (keeps_inputs h.typed t) (inputs_lax h.typed.dbg h.inputs h.modelInput t) (inputs_noRe h.honest t (h.drivers.inputs t)) hw hf
  have hd := done_inputs cfg t w
  rw [h1] at hd
  refine ⟨w', h1, h2, hd, inputs_mem h1, fun s hs => inputs_sig h1 hs, fun s hs => ?_⟩
  obtain ⟨g, _⟩ := inputs_shown h.typed.dbg h1
  have : ∃ v, (s, v) ∈ cfg.inputVals t := by
    unfold Config.inputKeys at hs
    unfold Config.inputVals
    rcases List.mem_append.1 hs with hs | hs
    · cases hi : cfg.inputs with
      | none => rw [hi] at hs; cases hs
      | some f =>
        rw [hi] at hs
        obtain ⟨q, hq, rfl⟩ := List.mem_map.1 hs
        exact ⟨q.2, List.mem_append_left _ hq⟩
    · obtain ⟨q, hq, rfl⟩ := List.mem_map.1 hs
      exact ⟨q.2, List.mem_append_right _ hq⟩
  obtain ⟨v, hv⟩ := this
  exact shown_some (g _ hv)

theorem pre_delay {l : Leaf K} {t : K} (hd : l.isDelay = true) {w w' : World K} (h : l.pre true t w = .ok () w') : w'.mem = w.mem := by
  rw [pre_apply] at h
  unfold Leaf.isDelay at hd
  unfold Leaf.preBody at h
  cases hk : l.kind <;> rw [hk] at h hd <;> first | (cases hd; done) | skip
  cases h; rfl

theorem act_delay {l : Leaf K} {t : K} (hd : l.isDelay = true) {w w' : World K} (h : l.act true t w = .ok () w') : w'.mem = w.mem := by
  rw [act_apply] at h
  unfold Leaf.isDelay at hd
  unfold Leaf.actBody at h
  cases hk : l.kind with
  | delay ls x d i o =>
    rw [hk] at h
    have h : delayAct true l.id t d i o { w with log := .act l.id t :: w.log } = .ok () w' := h
    have := mem_delayAct true l.id t d i o { w with log := .act l.id t :: w.log }
    rw [h] at this
    exact this
  | _ => rw [hk] at hd; cases hd

theorem post_delay {l : Leaf K} {t : K} (hd : l.isDelay = true) {w w' : World K} (h : l.post true t w = .ok () w') :
    ∀ s ∈ (w'.mem l.id).ts, s ∈ (w.mem l.id).ts ∨ s = t := by
  rw [post_apply] at h
  unfold Leaf.isDelay at hd
  unfold Leaf.postBody at h
  cases hk : l.kind with
  | delay ls x d i o =>
    rw [hk] at h
    obtain ⟨v, _, _, _, _, rfl⟩ := delayPost_ok h
    intro s hs
    have hs : s ∈ (upd w.mem l.id _ l.id).ts := hs
    rw [upd_self] at hs
    simp only [List.mem_append, List.mem_singleton] at hs
    rcases hs with hs | hs
    · exact .inl (List.mem_of_mem_drop hs)
    · exact .inr hs
  | _ => rw [hk] at hd; cases hd

theorem runs_pre (h : cfg.WellPosed ty rank) {w : World K} (hw : w.Fine strict cfg ty) (t : K)
    (hf : Free (fun s => ∃ l ∈ cfg.model.leaves, s ∈ l.preOuts) w) :
    ∃ w', cfg.model.preStep cfg.dbg t w = .ok () w' ∧ w'.Fine strict cfg ty ∧ w'.done = w.done ∧
      (∀ s, (∀ l ∈ cfg.model.leaves, s ∉ l.preOuts) → w'.sig s = w.sig s) ∧ (∀ p, Recorded cfg p w → Recorded cfg p w') ∧
      Has (fun s => cfg.Links s ∧ (cfg.deriv s).isSome = true) w' := by
  have hd := h.typed.dbg
  have hk := keeps_preStep h.typed t cfg.model (fun _ h => h)
  rw [hd] at hk ⊢
  have hl : Lax (Free (fun s => ∃ l ∈ cfg.model.leaves, s ∈ l.preOuts)) (cfg.model.preStep true t) := by
    rw [preStep_eq]; exact preAll_lax t _ h.total h.typed.proper.leafNodup h.drivers.prePre
  have hn : Tri (Free (fun s => ∃ l ∈ cfg.model.leaves, s ∈ l.preOuts)) (cfg.model.preStep true t) (fun _ _ => True) NotRe := by
    rw [preStep_eq]; exact preAll_noRe true t _ h.honest.pre h.drivers.preOuts h.typed.proper.leafNodup h.drivers.prePre
  obtain ⟨_, w', h1, h2, _⟩ := sure hk hl hn hw hf
  have hdn := done_pre true t cfg.model w
  rw [h1] at hdn
  refine ⟨w', h1, h2, hdn, fun s hs => ?_, fun p hp l hl hld => ?_, fun s hs => ?_⟩
  · rw [preStep_eq] at h1; exact preAll_sig h1 hs
  · obtain ⟨wa, wb, _, g1, g2, g3, _, _⟩ := preStep_leaf h.typed.proper h1 hl
    rw [g3, pre_delay hld g1, g2]
    exact hp l hl hld
  · obtain ⟨l, hl, hls⟩ := h.integrated s hs.1 hs.2
    exact (preStep_integ h.typed.proper hl hls (fun l' hl' hs' => h.drivers.prePre l' hl' l hl s hs' (state_preOuts hls)) h1).1

theorem runs_post (h : cfg.WellPosed ty rank) {w : World K} (hw : w.Fine strict cfg ty) (t : K) (ha : Has cfg.Provided w) {p : K → Prop}
    (hr : Recorded cfg p w) (hp : cfg.Delays → ∀ s, p s → (s <. t) = true) :
    ∃ w', cfg.model.postStep cfg.dbg t w = .ok () w' ∧ w'.Fine strict cfg ty ∧ w'.done = w.done ∧ w'.sig = w.sig ∧
      Recorded cfg (fun s => p s ∨ s = t) w' := by
  have hd := h.typed.dbg
  have hk := keeps_postStep h.typed t cfg.model (fun _ h => h)
  rw [hd] at hk ⊢
  have hl : Lax (fun w' => w'.sig = w.sig ∧ ∀ l ∈ cfg.model.leaves, l.Late t w') (cfg.model.postStep true t) := by
    rw [postStep_eq]
    exact postAll_lax hw.sound t _ h.total h.typed.proper.leafNodup (fun l hl s hs => ha s (h.postReads l hl s hs))
  have hn : Tri (fun w' => w'.sig = w.sig ∧ ∀ l ∈ cfg.model.leaves, l.Late t w') (cfg.model.postStep true t) (fun _ _ => True) NotRe := by
    rw [postStep_eq]; exact Tri.weaken (postAll_noRe true t _ h.honest.post) (fun _ _ => trivial) (fun _ _ h => h) (fun _ _ h => h)
  obtain ⟨_, w', h1, h2, _⟩ := sure hk hl hn hw ⟨rfl, fun l hl hld s hs => hp ⟨l, hl, hld⟩ s (hr l hl hld s hs)⟩
  have hdn := done_post true t cfg.model w
  rw [h1] at hdn
  refine ⟨w', h1, h2, hdn, postStep_sig h1, fun l hl hld s hs => ?_⟩
  obtain ⟨wa, wb, g1, g2, _, g4⟩ := postStep_leaf h.typed.proper h1 hl
  rw [g4] at hs
  rcases post_delay hld g1 s hs with hs | hs
  · rw [g2] at hs; exact .inl (hr l hl hld s hs)
  · exact .inr hs

/-! ### Blocks assign all their outputs -/

theorem setAll_full {dbg : Bool} {ss : List SigId} {vs : List (Option (Val K))} {w w' : World K} (h : setAll dbg ss vs w = .ok () w')
    (hl : ss.length ≤ vs.length) (hn : none ∉ vs) : ∀ s, s ∈ ss ∨ (w.sig s).assigned = true → (w'.sig s).assigned = true := by
  induction ss generalizing vs w with
  | nil =>
    cases h
    rintro s (hs | hs)
    · cases hs
    · exact hs
  | cons s ss ih =>
    match vs with
    | [] => simp at hl
    | none :: vs => simp at hn
    | some v :: vs =>
      rw [show setAll dbg (s :: ss) (some v :: vs) = (do setv dbg s v; setAll dbg ss vs) from rfl, bind_ok] at h
      obtain ⟨_, w1, h1, h2⟩ := h
      have e := setv_ok h1
      intro x hx
      refine ih h2 (by simpa using hl) (fun hh => hn (by simp [hh])) x ?_
      by_cases hxs : x = s
      · right; rw [e, hxs]; simp [upd]
      · rcases hx with hx | hx
        · rcases List.mem_cons.1 hx with hx | hx
          · exact (hxs hx).elim
          · exact .inl hx
        · right; rw [e]; simpa [upd, hxs] using hx

theorem Leaf.Complete.assigns {l : Leaf K} (h : l.Complete) : l.Assigns := by
  unfold Leaf.Complete at h
  cases hk : l.kind with
  | sources f os =>
    rw [hk] at h
    intro dbg t w w' e s hs
    rw [act_apply] at e
    unfold Leaf.actBody at e
    rw [hk] at e
    rw [bind_ok] at e
    obtain ⟨_, w1, e1, e2⟩ := e
    have : w' = w1 := by
      cases hx : (f t).2 with
      | none => rw [hx] at e2; cases e2; rfl
      | some x => rw [hx] at e2; cases e2
    rw [this]
    exact setAll_full e1 (h t).1 (h t).2 s (.inl (by rw [Leaf.outs, hk] at hs; exact hs))
  | func f rs os =>
    rw [hk] at h
    intro dbg t w w' e s hs
    rw [act_apply] at e
    unfold Leaf.actBody at e
    rw [hk] at e
    rw [bind_ok] at e
    obtain ⟨vs, w0, e0, e⟩ := e
    rw [bind_ok] at e
    obtain ⟨_, w1, e1, e2⟩ := e
    cases hx : (f t vs).2 with
    | some x => rw [hx] at e2; cases e2
    | none =>
      rw [hx] at e2; cases e2
      obtain ⟨g1, g2⟩ := h t vs hx
      exact setAll_full e1 g1 g2 s (.inl (by rw [Leaf.outs, hk] at hs; exact hs))
  | custom c =>
    rw [hk] at h
    intro dbg t w w' e s hs
    rw [act_apply] at e
    unfold Leaf.actBody at e
    rw [hk] at e
    rw [bind_ok] at e
    obtain ⟨m, w0, e0, e⟩ := e
    rw [bind_ok] at e
    obtain ⟨vs, w1, e1, e⟩ := e
    rw [bind_ok] at e
    obtain ⟨r, w2, e2, e⟩ := e
    rw [bind_ok] at e
    obtain ⟨_, w3, e3, e⟩ := e
    have hr : c.act t m.user vs = .ok r := by
      cases hx : c.act t m.user vs with
      | error x => rw [hx] at e2; cases e2
      | ok y => rw [hx] at e2; cases e2; rfl
    obtain ⟨g1, g2⟩ := h t m.user vs r hr
    exact setAll_full e g1 g2 s (.inl (by rw [Leaf.outs, hk] at hs; exact hs))
  | _ => exact assigns_library l (by simp [hk])

/-! ### Evaluations -/

theorem Steps.fine (h : cfg.WellPosed ty rank) (hc : CanCompare cfg) {t : K} {I : BlkId → Prop} {w w' : World K} {ls : List (Leaf K)}
    (hs : Steps cfg.dbg t I w ls w') (hls : ∀ l ∈ ls, l ∈ cfg.model.leaves) {p : K → Prop} (hw : w.Fine strict cfg ty) (hr : Recorded cfg p w) :
    w'.Fine strict cfg ty ∧ Recorded cfg p w' := by
  induction hs with
  | nil w => exact ⟨hw, hr⟩
  | @act l w w1 w' ls he ha _ ih =>
    have hl := hls l (by simp)
    have h1 := keeps_act h.typed hc hl t w hw
    rw [ha] at h1
    refine ih (fun l hl => hls l (by simp [hl])) ⟨h1.1.types, h1.1.cells, h1.1.members⟩ (fun l' hl' hld s hs => ?_)
    refine hr l' hl' hld s ?_
    have hs : s ∈ (w1.mem l'.id).ts := hs
    by_cases e : l'.id = l.id
    · have : l' = l := List.inj_on_of_nodup_map h.typed.proper.leafNodup hl' hl e
      subst this
      rw [h.typed.dbg] at ha
      rw [act_delay hld ha] at hs
      exact hs
    · rw [(act_within ha).mem _ e] at hs; exact hs
  | flag _ _ ih => exact ih hls ⟨hw.types, hw.cells, hw.members⟩ hr

/-- A simulator after `init` and before or after one of its steps; `p` holds for the times recorded by `Delay`s. -/
structure Fit (cfg : Config K) (ty : SigId → Ty) (p : K → Prop) (m : Machine K) : Prop where
  world : m.w.Fine strict cfg ty
  sim : m.s.Fine cfg ty false
  call : CallInv cfg m
  fast : cfg.strategy = .fast → cfg.FastOrder m.s.fast.flatten
  recd : Recorded cfg p m.w

theorem Config.WellPosed.drive (h : cfg.WellPosed ty rank) : DriveOk cfg := ⟨h.typed.proper, h.drivers, h.honest, h.typed.hash⟩

theorem Fit.next (h : cfg.WellPosed ty rank) {p q : K → Prop} {m m' : Machine K} (hf : Fit cfg ty p m) (hw : m'.w.Fine strict cfg ty)
    (hs : m'.s.Fine cfg ty false) (ho : OrderInv cfg m') (he : m'.s = { m.s with po := m'.s.po, sv := m'.s.sv, tPrev := m'.s.tPrev })
    (hr : Recorded cfg q m'.w) : Fit cfg ty q m' :=
  ⟨hw, hs, ⟨ho, hf.call.layout.fixed ⟨by rw [he], by rw [he], by rw [he], by rw [he], by rw [he], fun s => by rw [hw.types, hf.world.types]⟩,
    fun s hd => by rw [hw.types]; exact h.sizes s hd⟩, fun e => by rw [he]; exact hf.fast e, hr⟩

theorem Fit.setW (h : cfg.WellPosed ty rank) {p q : K → Prop} {m : Machine K} (hf : Fit cfg ty p m) {w : World K} (hw : w.Fine strict cfg ty)
    (hd : w.done = m.w.done) (hr : Recorded cfg q w) : Fit cfg ty q { m with w := w } :=
  hf.next h hw hf.sim (hf.call.order.keep ⟨hd, rfl, rfl⟩) rfl hr

theorem Config.WellPosed.source {w : World K} (h : cfg.WellPosed ty rank) (ha : Has cfg.Source w) : Supplied cfg w := by
  rintro s he ⟨l, hl, hq⟩
  rcases h.ranked l hl s hq with hs | ⟨l', hl', hs, _⟩
  · exact ha s hs
  · rcases he with ⟨t, ht⟩ | ⟨l2, hl2, hs2⟩
    · exact (h.drivers.outInput l' hl' s hs t ht).elim
    · exact (h.drivers.outPre l' hl' l2 hl2 s hs hs2).elim

theorem Config.WellPosed.builders (h : cfg.WellPosed ty rank) : ∀ b ∈ cfg.model.all, b.isBuilder = false := by
  intro b hb
  cases b with
  | leaf l =>
    have := h.builder l ((leaf_mem_all _ l).2 hb)
    simp only [Block.isBuilder]
    cases hk : l.kind <;> simp [hk] at this ⊢
  | sub _ _ _ => rfl

/-- The signals of blocks that ran when no block can run any more. -/
theorem steps_provided (h : cfg.WellPosed ty rank) {t : K} {w1 w2 : World K} {ls : List (Leaf K)} (h0 : ∀ l ∈ cfg.model.leaves, w1.done l.id = false)
    (hls : ∀ l ∈ ls, l ∈ cfg.model.leaves) (hs : Steps cfg.dbg t cfg.model.leafId w1 ls w2) (hst : Stuck cfg.model.leaves w2) (ha : Has cfg.Source w1) :
    (∀ l ∈ cfg.model.leaves, l ∈ ls) ∧ Has cfg.Provided w2 := by
  have hI : ∀ l ∈ cfg.model.leaves, cfg.model.leafId l.id := fun l hl => List.mem_map_of_mem hl
  have hI' : ∀ l ∈ ls, cfg.model.leafId l.id := fun l hl => hI l (hls l hl)
  have hd := ranked_done (rank := rank) hI hs hls hst h.typed.proper.leafNodup (fun l hl e => by rw [h0 l hl] at e; cases e)
    (fun l hl s hq => (h.ranked l hl s hq).imp (ha s) (fun ⟨l', hl', g1, g2⟩ => ⟨l', hl', g1, (h.complete l' hl').assigns, g2⟩))
  have hb := hs.basic hI'
  have hall : ∀ l ∈ cfg.model.leaves, l ∈ ls := by
    intro l hl
    rcases (hb.done l.id (hI l hl)).1 (hd l hl) with e | e
    · rw [h0 l hl] at e; cases e
    · obtain ⟨l', hl', e⟩ := List.mem_map.1 e
      have : l' = l := List.inj_on_of_nodup_map h.typed.proper.leafNodup (hls l' hl') hl e
      exact this ▸ hl'
  refine ⟨hall, fun s hp => ?_⟩
  rcases hp with hp | ⟨l, hl, hp⟩
  · exact hb.mono s (ha s hp)
  · exact hs.assigned hI' (hall l hl) (h.complete l hl).assigns hp

/-- An activation function that is called does not fail. -/
theorem fails_excused (h : cfg.WellPosed ty rank) {t : K} {w w' : World K} (hw : w.Fine strict cfg ty) {e : Err}
    (hf : FailsAt cfg.dbg t cfg.model.leaves w e w') : Excused e := by
  obtain ⟨l, hl, he, hx⟩ := hf
  rw [h.typed.dbg] at hx
  have := act_lax hw.sound (h.total l hl) (fun s hs => he.2 s (h.reads l hl s hs)) t w rfl
  rw [hx] at this
  exact this

theorem not_excused {e : Err} (h1 : Excused e) (h2 : e ≠ .exc .reassigned) (h3 : e.Fine strict) : False := by
  rcases h1 with rfl | rfl | ⟨u, rfl⟩
  · exact h2 rfl
  · exact Bool.noConfusion (show true = false from h3)
  · exact Bool.noConfusion (show false = true from h3.1)

theorem runs_eval (h : cfg.WellPosed ty rank) (hc : CanCompare cfg) {p : K → Prop} {m : Machine K} (hf : Fit cfg ty p m) (t : K)
    (hfree : Free (fun s => ∃ l ∈ cfg.model.leaves, s ∈ l.outs) m.w) (ha : Has cfg.Source m.w) :
    ∃ m', evalModel cfg t m = .ok () m' ∧ Fit cfg ty p m' ∧ m'.s = { m.s with po := m'.s.po } ∧ Has cfg.Provided m'.w := by
  have hev : Evaluable cfg m := ⟨h.typed.proper, h.builders, fun hs => ⟨hf.call.order, fun e => by
      obtain ⟨po, hpo, _⟩ := hf.sim.order hs
      rw [hpo] at e; cases e⟩, fun hs => ⟨hf.fast hs, fun l hl => (h.complete l hl).assigns⟩⟩
  have hsch := eval_sched hev (fun _ => h.source ha) t
  have hk := keeps_eval h.typed hc t false m ⟨hf.world, hf.sim⟩
  have hn := eval_noRe h.typed.proper h.honest.act h.drivers.outs h.drivers.outOut t m ⟨hf.call.order, hfree⟩
  cases hx : evalModel cfg t m with
  | error e m' =>
    rw [hx] at hsch hk hn
    obtain ⟨w1, ls, wm, w2, g1, g2, g3, g4, g5, g6⟩ := hsch
    have hw1 : w1.Fine strict cfg ty := ⟨by rw [g1.sig]; exact hf.world.types, by rw [g1.sig]; exact hf.world.cells, by rw [g1.mem]; exact hf.world.members⟩
    obtain ⟨hm, _⟩ := Steps.fine h hc g4 g3 hw1 (hf.recd.mem g1.mem)
    exact (not_excused (fails_excused h hm g5) hn hk.1.1).elim
  | ok u m' =>
    rw [hx] at hsch hk
    obtain ⟨w1, ls, w2, g1, g2, g3, g4, g5, g6⟩ := hsch
    have hw1 : w1.Fine strict cfg ty := ⟨by rw [g1.sig]; exact hf.world.types, by rw [g1.sig]; exact hf.world.cells, by rw [g1.mem]; exact hf.world.members⟩
    obtain ⟨_, hr2⟩ := Steps.fine h hc g4 g3 hw1 (hf.recd.mem g1.mem)
    obtain ⟨_, hp⟩ := steps_provided h g2 g3 g4 g5 (fun s hs => by rw [g1.sig]; exact ha s hs)
    have he := moves_eval (T := SameTy) cfg hf.call.order t (fun l hl => moves_act cfg.dbg t l (fun _ _ h => h.ty)) (fun _ _ _ _ _ => rfl)
    have hi := inv_eval cfg h.typed.proper t m hf.call.order
    rw [hx] at he hi
    have he : m'.s = { m.s with po := m'.s.po } := he.2
    refine ⟨m', rfl, hf.next h hk.1.1 hk.1.2 hi (by rw [he]) (hr2.mem g6.mem), he, fun s hs => by rw [g6.sig]; exact hp s hs⟩

theorem runs_process (h : cfg.WellPosed ty rank) (hc : CanCompare cfg) {p : K → Prop} {m : Machine K} (hf : Fit cfg ty p m) (t : K) (pre post : Bool)
    (hfree : Free (Targets cfg t pre) m.w) (hs : pre = false → Has (fun s => cfg.Links s ∧ (cfg.deriv s).isSome = true) m.w)
    (hp : post = true → cfg.Delays → ∀ s, p s → (s <. t) = true) :
    ∃ m', processModel cfg t pre post m = .ok () m' ∧ Fit cfg ty (fun s => p s ∨ (post = true ∧ s = t)) m' ∧ m'.s = { m.s with po := m'.s.po } ∧
      Has cfg.Provided m'.w := by
  obtain ⟨w1, h1, f1, d1, me1, s1, a1⟩ := runs_inputs h hf.world t (fun s hs => hfree s (.inl hs))
  have hf1 : Fit cfg ty p { m with w := w1 } := hf.setW h f1 d1 (hf.recd.mem me1)
  have hstates : ∀ s, cfg.Links s ∧ (cfg.deriv s).isSome = true → w1.sig s = m.w.sig s := fun s hs => s1 s (h.drivers.stateInput s hs.2 t)
  have step : ∃ w2, (if pre then inW (cfg.model.preStep cfg.dbg t) else pure () : MM K Unit) { m with w := w1 } = .ok () { m with w := w2 } ∧
      Fit cfg ty p { m with w := w2 } ∧ Free (fun s => ∃ l ∈ cfg.model.leaves, s ∈ l.outs) w2 ∧ Has cfg.Source w2 := by
    cases pre with
    | false =>
      refine ⟨w1, rfl, hf1, fun s ⟨l, hl, hs⟩ => ?_, fun s hs' => ?_⟩
      · rw [s1 s (h.drivers.outInput l hl s hs t)]; exact hfree s (.inr (.inr ⟨l, hl, hs⟩))
      · rcases hs' with hs' | hs'
        · exact a1 s (hs' t)
        · rw [hstates s hs']; exact hs rfl s hs'
    | true =>
      obtain ⟨w2, h2, f2, d2, s2, r2, a2⟩ := runs_pre h f1 t (fun s ⟨l, hl, hs⟩ => by
        rw [s1 s (h.drivers.preInput l hl s hs t)]; exact hfree s (.inr (.inl ⟨rfl, l, hl, hs⟩)))
      refine ⟨w2, ?_, hf1.setW h f2 d2 (r2 p hf1.recd), fun s ⟨l, hl, hs⟩ => ?_, fun s hs' => ?_⟩
      · simp only [if_true]; unfold inW; simp only [h2]
      · rw [s2 s (fun l' hl' => h.drivers.outPre l hl l' hl' s hs), s1 s (h.drivers.outInput l hl s hs t)]; exact hfree s (.inr (.inr ⟨l, hl, hs⟩))
      · rcases hs' with hs' | hs'
        · rw [s2 s (fun l hl hs => h.drivers.preInput l hl s hs t (hs' t))]; exact a1 s (hs' t)
        · exact a2 s hs'
  obtain ⟨w2, h2, f2, free2, a2⟩ := step
  obtain ⟨m3, h3, f3, e3, a3⟩ := runs_eval h hc f2 t free2 a2
  have e3 : m3.s = { m.s with po := m3.s.po } := e3
  have last : ∃ m', (if post then inW (cfg.model.postStep cfg.dbg t) else pure () : MM K Unit) m3 = .ok () m' ∧
      Fit cfg ty (fun s => p s ∨ (post = true ∧ s = t)) m' ∧ m'.s = m3.s ∧ Has cfg.Provided m'.w := by
    cases post with
    | false => exact ⟨m3, rfl, f3.setW h f3.world rfl (fun l hl hd s hs => .inl (f3.recd l hl hd s hs)), rfl, a3⟩
    | true =>
      obtain ⟨w4, h4, f4, d4, s4, r4⟩ := runs_post h f3.world t a3 f3.recd (hp rfl)
      refine ⟨{ m3 with w := w4 }, ?_, f3.setW h f4 d4 (fun l hl hd s hs => (r4 l hl hd s hs).imp id (fun e => ⟨rfl, e⟩)), rfl,
        fun s hs => by show (w4.sig s).assigned = true; rw [s4]; exact a3 s hs⟩
      simp only [if_true]; unfold inW; simp only [h4]
  obtain ⟨m', h4, f4, e4, a4⟩ := last
  refine ⟨m', ?_, f4, by rw [e4]; exact e3, a4⟩
  have hin : inW (callInputs cfg t) m = .ok () { m with w := w1 } := by unfold inW; simp only [h1]
  unfold processModel
  rw [bind_of_ok hin]
  cases pre with
  | false =>
    cases h2
    refine (bind_of_ok h3).trans ?_
    exact h4
  | true =>
    refine (bind_of_ok h2).trans ((bind_of_ok h3).trans ?_)
    exact h4

end Pooya
