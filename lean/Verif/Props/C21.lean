import Verif.Proof.Loop
import Verif.Proof.Eval
import Verif.Proof.Clear
import Verif.Spec.Demo

/-! # C21 — exactly the computable blocks run -/

namespace Pooya.C21

set_option linter.unusedSectionVars false

variable {K : Type} [Arith K]

/-- Every signal required by a block is assigned already, or one of the blocks of lower rank drives it. -/
def Ranked (L : List (Leaf K)) (w : World K) (rank : BlkId → Nat) : Prop :=
  ∀ l ∈ L, ∀ s, l.Requires s → (w.sig s).assigned = true ∨
    ∃ l' ∈ L, s ∈ l'.outs ∧ l'.Assigns ∧ rank l'.id < rank l.id

/-- The blocks in `C` wait for each other: each of them requires a signal that is not assigned and that no block
outside `C` drives. -/
def Waiting (L : List (Leaf K)) (w : World K) (C : Leaf K → Prop) : Prop :=
  ∀ l ∈ L, C l → ∃ s, l.Requires s ∧ (w.sig s).assigned = false ∧ ∀ l' ∈ L, s ∈ l'.outs → C l'

/-- The same in terms of the diagram only: each block in `C` requires a signal that is not a state, that neither the
inputs nor a `pre_step` sets, and that no block outside `C` drives. -/
def Loop (cfg : Config K) (C : Leaf K → Prop) : Prop :=
  ∀ l ∈ cfg.model.leaves, C l → ∃ s, l.Requires s ∧ cfg.deriv s = none ∧ ¬ cfg.inputSigs s ∧
    ∀ l' ∈ cfg.model.leaves, s ∉ l'.preOuts ∧ (s ∈ l'.outs → C l')

/-- Ranked blocks: an evaluation that returns has processed all of them. -/
theorem C21_ranked_run (cfg : Config K) (hs : cfg.strategy ≠ .fast) (hp : cfg.model.Proper) {m m' : Machine K}
    (h : Mid cfg m) (t : K) (rank : BlkId → Nat) (hr : Ranked cfg.model.leaves m.w rank)
    (he : evalModel cfg t m = .ok () m') :
    (∀ l ∈ cfg.model.leaves, m'.w.done l.id = true) ∧
      ∃ evs : List (Event K), m'.w.log = evs ++ m.w.log ∧
        ∀ l ∈ cfg.model.leaves, .act l.id t ∈ evs ∨ l.kind matches .builder := by
  have hsp := eval_spec cfg hs hp (fun _ => mid_inv cfg hp h) t
  rw [he] at hsp
  obtain ⟨w1, ls, h1⟩ := hsp
  have hI : ∀ l ∈ cfg.model.leaves, cfg.model.leafId l.id := fun l hl => List.mem_map_of_mem hl
  have hk : ∀ l ∈ cfg.model.leaves, w1.done l.id = true → (l.kind matches .builder) = true := by
    intro l hl h2
    have := h1.marked.done _ ((leaf_mem_all _ l).1 hl)
    simp only [Block.id, Block.isBuilder] at this
    rw [this] at h2
    cases hk : l.kind <;> simp_all
  have hd := ranked_done hI h1.steps h1.sub h1.stuck hp.leafNodup (by
    intro l hl h2
    have := hk l hl h2
    unfold Leaf.outs
    cases hk : l.kind <;> simp_all [Kind.outs]) (by
    intro l hl s hsr
    rw [h1.marked.sig]
    exact hr l hl s hsr)
  have hb := h1.steps.basic (fun l hl => hI l (h1.sub l hl))
  refine ⟨hd, _, by rw [hb.log, h1.marked.log], ?_⟩
  intro l hl
  rcases (hb.done l.id (hI l hl)).1 (hd l hl) with h2 | h2
  · exact Or.inr (hk l hl h2)
  · refine Or.inl ?_
    simp only [List.mem_reverse, List.mem_map, Event.act.injEq, and_true]
    exact List.mem_map.1 h2

/-- Ranked blocks: an ordering pass of `FastSimulator::init` that returns has ordered all of them, so that the model
is accepted. -/
theorem C21_ranked_fast (b : Block K) (hp : b.Proper) (dbg : Bool) (t : K) (w w' : World K) (rank : BlkId → Nat)
    (hr : Ranked b.leaves w rank) (h0 : ∀ l ∈ b.leaves, w.done l.id = false)
    (r : List (List (Leaf K)) × Nat) (he : fastOrder dbg t b.leaves (b.leaves.length + 1) w = .ok r w') :
    r.1.flatten.Perm b.leaves ∧ r.2 = b.leaves.length := by
  have hI : ∀ l ∈ b.leaves, b.leafId l.id := fun l hl => List.mem_map_of_mem hl
  have h := fastOrder_completes (dbg := dbg) (t := t) (I := b.leafId) b.leaves hp.leafNodup hI (Nat.lt_succ_self _) w
  unfold Completes Evals at h
  rw [Nat.succ_eq_add_one, he] at h
  obtain ⟨ls, h1, h2, h3, h4, h5⟩ := h
  have hd := ranked_done hI h2 h1 h3 hp.leafNodup (fun l hl e => by rw [h0 l hl] at e; cases e) hr
  have hb := h2.basic (fun l hl => hI l (h1 l hl))
  have hperm : ls.Perm b.leaves := by
    rw [List.perm_ext_iff_of_nodup (List.Nodup.of_map _ hb.nodup) (List.Nodup.of_map _ hp.leafNodup)]
    intro l
    refine ⟨h1 l, fun hl => ?_⟩
    rcases (hb.done l.id (hI l hl)).1 (hd l hl) with h6 | h6
    · rw [h0 l hl] at h6; cases h6
    · obtain ⟨l2, hl2, e⟩ := List.mem_map.1 h6
      have : l2 = l := List.inj_on_of_nodup_map hp.leafNodup (h1 l2 hl2) hl e
      exact this ▸ hl2
  exact ⟨h4 ▸ hperm, by rw [h5, hperm.length_eq]⟩

/-- What an evaluation does to waiting blocks and signals only they drive. -/
private theorem eval_waiting (cfg : Config K) (hs : cfg.strategy ≠ .fast) (hp : cfg.model.Proper) {m : Machine K}
    (hi : OrderInv cfg m) (t : K) (C : Leaf K → Prop) (hC : Waiting cfg.model.leaves m.w C) :
    ∃ ls : List (Leaf K), (∀ l ∈ ls, l ∈ cfg.model.leaves ∧ ¬ C l) ∧
      (stateOf (evalModel cfg t m)).w.log = (ls.map (fun l => Event.act l.id t)).reverse ++ m.w.log ∧
      ∀ s, (∀ l ∈ cfg.model.leaves, s ∈ l.outs → C l) → (stateOf (evalModel cfg t m)).w.sig s = m.w.sig s := by
  have hsp := eval_spec cfg hs hp (fun _ => hi) t
  have hI : ∀ l ∈ cfg.model.leaves, cfg.model.leafId l.id := fun l hl => List.mem_map_of_mem hl
  have base : ∀ w1 wm ls, Marked cfg.model.all m.w w1 → (∀ l ∈ ls, l ∈ cfg.model.leaves) →
      Steps cfg.dbg t cfg.model.leafId w1 ls wm → (∀ l ∈ ls, l ∈ cfg.model.leaves ∧ ¬ C l) ∧
        wm.log = (ls.map (fun l => Event.act l.id t)).reverse ++ m.w.log ∧ Waiting cfg.model.leaves wm C ∧
        ∀ s, (∀ l ∈ cfg.model.leaves, s ∈ l.outs → C l) → wm.sig s = m.w.sig s := by
    intro w1 wm ls hm hsub hst
    have hl := loop_steps hst hsub (C := C) (by intro l hl hc; rw [hm.sig]; exact hC l hl hc)
    have hb := hst.basic (fun l hl => hI l (hsub l hl))
    refine ⟨fun l h => ⟨hsub l h, hl.1 l h⟩, by rw [hb.log, hm.log], hl.2, fun s h => ?_⟩
    rw [hb.other s (fun l h1 h2 => hl.1 l h1 (h l (hsub l h1) h2)), hm.sig]
  cases hx : evalModel cfg t m with
  | ok u m' =>
    rw [hx] at hsp
    obtain ⟨w1, ls, h1⟩ := hsp
    obtain ⟨g1, g2, _, g3⟩ := base w1 m'.w ls h1.marked h1.sub h1.steps
    exact ⟨ls, g1, g2, g3⟩
  | error e m' =>
    rw [hx] at hsp
    obtain ⟨w1, hm, hf⟩ := hsp
    cases hf with
    | act ls wm h1 h2 h3 _ =>
      obtain ⟨l, hl, hen, ha⟩ := h3
      obtain ⟨g1, g2, g4, g3⟩ := base w1 wm ls hm h1 h2
      have hn : ¬ C l := by
        intro hc
        obtain ⟨s, a1, a2, _⟩ := g4 l hl hc
        rw [hen.2 s a1] at a2; cases a2
      have hw := act_within_error ha
      refine ⟨ls ++ [l], ?_, ?_, ?_⟩
      · intro l' hl'
        rcases List.mem_append.1 hl' with hl' | hl'
        · exact g1 l' hl'
        · rw [List.mem_singleton] at hl'; subst hl'; exact ⟨hl, hn⟩
      · simp only [stateOf, hw.log, g2]; simp
      · intro s hs'
        rw [← g3 s hs']
        exact hw.sig s (fun h' => hn (hs' l hl h'))
    | null _ _ _ h2 =>
      subst h2
      exact ⟨[], by simp, by simp [stateOf, hm.log], fun s _ => by simp [stateOf, hm.sig]⟩
    | check po ls _ _ _ _ _ h2 h3 h4 =>
      obtain ⟨g1, g2, _, g3⟩ := base w1 m'.w ls hm h3 h4
      exact ⟨ls, g1, g2, g3⟩

/-- Waiting blocks do not run during an evaluation, whether it returns or throws, and signals driven only by them
stay as they are. -/
theorem C21_waiting_idle (cfg : Config K) (hs : cfg.strategy ≠ .fast) (hp : cfg.model.Proper) {m : Machine K}
    (h : Mid cfg m) (t : K) (C : Leaf K → Prop) (hC : Waiting cfg.model.leaves m.w C) :
    (∃ evs : List (Event K), (stateOf (evalModel cfg t m)).w.log = evs ++ m.w.log ∧
      ∀ l ∈ cfg.model.leaves, C l → ∀ t', .act l.id t' ∉ evs) ∧
    ∀ s, (∀ l ∈ cfg.model.leaves, s ∈ l.outs → C l) → (stateOf (evalModel cfg t m)).w.sig s = m.w.sig s := by
  obtain ⟨ls, h1, h2, h3⟩ := eval_waiting cfg hs hp (mid_inv cfg hp h) t C hC
  refine ⟨⟨_, h2, ?_⟩, h3⟩
  intro l hl hc t' hmem
  simp only [List.mem_reverse, List.mem_map, Event.act.injEq] at hmem
  obtain ⟨l', hl', e, _⟩ := hmem
  have : l' = l := List.inj_on_of_nodup_map hp.leafNodup (h1 l' hl').1 hl e
  exact (h1 l' hl').2 (this ▸ hc)

/-! ## Whole simulations -/

section
variable (cfg : Config K) (C : Leaf K → Prop)

/-- Signals nothing but the loop can assign. -/
private def Inner (s : SigId) : Prop :=
  cfg.deriv s = none ∧ ¬ cfg.inputSigs s ∧ (∀ l' ∈ cfg.model.leaves, s ∉ l'.preOuts ∧ (s ∈ l'.outs → C l')) ∧ Linked cfg s

private def Empty (w : World K) : Prop := ∀ s, Inner cfg C s → (w.sig s).assigned = false

private def NoAct (e : Event K) : Prop := ∀ l ∈ cfg.model.leaves, C l → e.actOf ≠ some l.id

private structure Inv (m : Machine K) : Prop where
  order : OrderInv cfg m
  scalar : ∀ s, Inner cfg C s → s ∉ m.s.scalarStates
  array : ∀ s, Inner cfg C s → s ∉ m.s.arrayStates
  fast : ∀ l ∈ m.s.fast.flatten, ¬ C l

private def T (w w' : World K) : Prop := Empty cfg C w → Empty cfg C w' ∧ Logs (NoAct cfg C) w w'

private instance : PreO (T cfg C) where
  refl w h := ⟨h, PreO.refl (T := Logs _) w⟩
  trans h h' he := ⟨(h' (h he).1).1, PreO.trans (h he).2 (h' (h he).1).2⟩

private def Tm (m m' : Machine K) : Prop :=
  Inv cfg C m → Empty cfg C m.w → Inv cfg C m' ∧ Empty cfg C m'.w ∧ Logs (NoAct cfg C) m.w m'.w

private instance : PreO (Tm cfg C) where
  refl m h h' := ⟨h, h', PreO.refl (T := Logs _) m.w⟩
  trans h h' hi he := by
    obtain ⟨a, b, c⟩ := h hi he
    obtain ⟨a', b', c'⟩ := h' a b
    exact ⟨a', b', PreO.trans c c'⟩

variable {cfg C}

private theorem t_set {s : SigId} (hs : ¬ Inner cfg C s) (v : Val K) (w : World K) :
    T cfg C w { w with sig := upd w.sig s { w.sig s with assigned := true, value := some v } } := by
  intro he
  refine ⟨fun x hx => ?_, [], rfl, by simp⟩
  have : x ≠ s := fun e => hs (e ▸ hx)
  simp only [upd, this, if_false]
  exact he x hx

private theorem t_clear (s : SigId) (w : World K) :
    T cfg C w { w with sig := upd w.sig s { w.sig s with assigned := false } } := by
  intro he
  refine ⟨fun x hx => ?_, [], rfl, by simp⟩
  by_cases e : x = s
  · simp [upd, e]
  · simp only [upd, e, if_false]; exact he x hx

private theorem t_log {e : Event K} (h : e.actOf = none) (w : World K) : T cfg C w { w with log := e :: w.log } := by
  intro he
  refine ⟨he, [e], rfl, ?_⟩
  intro e' h'
  rw [List.mem_singleton] at h'
  subst h'
  intro l _ _; rw [h]; simp

private theorem t_within {O : SigId → Prop} {b : BlkId} {w w' : World K} {ev : Event K}
    (hO : ∀ s, O s → ¬ Inner cfg C s) (he : NoAct cfg C ev)
    (h : Within O b { w with log := ev :: w.log } w') : T cfg C w w' := by
  intro h0
  refine ⟨fun s hs => ?_, [ev], h.log, by simpa using he⟩
  rw [h.sig s (fun h' => hO s h' hs)]
  exact h0 s hs

private theorem t_inputs (t : K) : Moves (T cfg C) (callInputs cfg t : M K Unit) :=
  moves_callInputs cfg t (t_log rfl) (fun s h v w => t_set (fun h' => h'.2.1 h) v w)

private theorem t_pre (t : K) : Moves (T cfg C) (cfg.model.preStep cfg.dbg t) :=
  moves_preStep _ _ _ (fun l hl => moves_pre _ t l (fun _ _ h =>
    t_within (fun s hs h' => (h'.2.2.1 l hl).1 hs) (fun _ _ _ => by simp [Event.actOf]) h))

private theorem t_post (t : K) : Moves (T cfg C) (cfg.model.postStep cfg.dbg t) :=
  moves_postStep _ _ _ (fun l hl => moves_post _ t l (fun _ _ h =>
    t_within (fun s hs h' => hs) (fun _ _ _ => by simp [Event.actOf]) h))

/-- Combine the parts. -/
private theorem tm_of {α : Type} {x : MM K α} (h1 : Moves KeepOrder x) (h2 : Moves Fixed x)
    (h3 : ∀ m, Inv cfg C m → T cfg C m.w (stateOf (x m)).w) : Moves (Tm cfg C) x := by
  intro m hi he
  obtain ⟨a, b⟩ := h3 m hi he
  have f := h2 m
  exact ⟨⟨hi.order.keep (h1 m), by rw [f.scalarStates]; exact hi.scalar, by rw [f.arrayStates]; exact hi.array,
    by rw [(h1 m).2.2]; exact hi.fast⟩, a, b⟩

private theorem tm_inW {α : Type} {x : M K α} (h1 : Moves SameDone x) (h2 : Moves SameTy x) (h3 : Moves (T cfg C) x) :
    Moves (Tm cfg C) (inW x) :=
  tm_of (keep_inW h1) (fixed_inW h2) (fun m _ => (h3.inW m).1)

private theorem waiting_of_empty (hl : Loop cfg C) {w : World K} (he : Empty cfg C w) : Waiting cfg.model.leaves w C := by
  intro l hlm hc
  obtain ⟨s, h1, h2, h3, h4⟩ := hl l hlm hc
  refine ⟨s, h1, he s ⟨h2, h3, h4, ?_⟩, fun l' hl' => (h4 l' hl').2⟩
  obtain ⟨f, hf, _⟩ := h1
  exact ⟨.leaf l, (leaf_mem_all _ l).1 hlm, f, hf⟩

private theorem noAct_of {ls : List (Leaf K)} {t : K} (hp : cfg.model.Proper) (h : ∀ l ∈ ls, l ∈ cfg.model.leaves ∧ ¬ C l) :
    ∀ e ∈ (ls.map (fun l => Event.act l.id t)).reverse, NoAct cfg C e := by
  intro e he l hl hc
  simp only [List.mem_reverse, List.mem_map] at he
  obtain ⟨l', hl', rfl⟩ := he
  simp only [Event.actOf, ne_eq, Option.some.injEq]
  intro e
  have : l' = l := List.inj_on_of_nodup_map hp.leafNodup (h l' hl').1 hl e
  exact (h l' hl').2 (this ▸ hc)

private theorem evalFields (t : K) (m : Machine K) :
    (stateOf (evalModel cfg t m)).s.scalarStates = m.s.scalarStates ∧
    (stateOf (evalModel cfg t m)).s.arrayStates = m.s.arrayStates ∧ (stateOf (evalModel cfg t m)).s.fast = m.s.fast := by
  have : onEval (fun _ _ => True) m (stateOf (evalModel cfg t m)) := by
    have i : PreO (fun (_ _ : World K) => True) := ⟨fun _ => trivial, fun _ _ => trivial⟩
    exact moves_eval_any (T := fun _ _ => True) cfg t (fun l w => trivial) (fun _ _ _ _ => trivial) m
  rw [this.2]
  exact ⟨rfl, rfl, rfl⟩

private theorem tm_eval (hp : cfg.model.Proper) (hl : Loop cfg C) (t : K) : Moves (Tm cfg C) (evalModel cfg t) := by
  intro m hi he
  have hf := evalFields (cfg := cfg) t m
  have hinv : Inv cfg C (stateOf (evalModel cfg t m)) := ⟨inv_eval cfg hp t m hi.order, by rw [hf.1]; exact hi.scalar,
    by rw [hf.2.1]; exact hi.array, by rw [hf.2.2]; exact hi.fast⟩
  refine ⟨hinv, ?_⟩
  by_cases hs : cfg.strategy = .fast
  · have key : Moves (T cfg C) (actAll cfg.dbg t m.s.fast.flatten) :=
      moves_actAll _ _ _ (fun l hlm => moves_act _ t l (fun _ _ h => t_within
        (fun s hs h' => hi.fast l hlm ((h'.2.2.1 l (hi.order.fastSub l hlm)).2 hs))
        (fun l' hl' hc e => by
          simp only [Event.actOf, Option.some.injEq] at e
          have : l = l' := List.inj_on_of_nodup_map hp.leafNodup (hi.order.fastSub l hlm) hl' e
          exact hi.fast l hlm (this ▸ hc)) h))
    have := (key.inW m).1 he
    unfold evalModel
    simp only [hs, bind_apply, getSim]
    exact this
  · obtain ⟨ls, h1, h2, h3⟩ := eval_waiting cfg hs hp hi.order t C (waiting_of_empty hl he)
    refine ⟨fun s hs' => ?_, _, h2, noAct_of hp h1⟩
    rw [h3 s (fun l hlm => (hs'.2.2.1 l hlm).2)]
    exact he s hs'

private theorem tm_process (hp : cfg.model.Proper) (hl : Loop cfg C) (t : K) (pre post : Bool) :
    Moves (Tm cfg C) (processModel cfg t pre post) :=
  moves_processModel
    (tm_inW (done_inputs cfg t) (moves_callInputs cfg t (fun w => PreO.refl (T := SameTy) w) (fun _ _ _ _ => sameTy_upd _ _ _ _)) (t_inputs t))
    (tm_inW (done_pre _ t _) (moves_preStep _ _ _ (fun l _ => moves_pre _ t l (fun _ _ h => sameTy_within h))) (t_pre t))
    (tm_inW (done_post _ t _) (moves_postStep _ _ _ (fun l _ => moves_post _ t l (fun _ _ h => sameTy_within h))) (t_post t))
    (tm_eval hp hl t) pre post

private theorem tm_clear (ss : List SigId) : Moves (Tm cfg C) (inW (clearAll ss)) :=
  tm_inW (moves_clearAll _ (fun _ _ _ => rfl)) (moves_clearAll _ (fun _ _ _ => sameTy_upd _ _ _ _))
    (moves_clearAll _ (fun s _ w => t_clear s w))

private theorem tm_reset (x : List K) : Moves (Tm cfg C) (resetWith cfg x) := by
  refine tm_of (keep_reset cfg x) ((covers_fixed cfg).reset x) (fun m hi => ?_)
  unfold resetWith
  rw [bind_of_ok (show getSim m = .ok m.s m from rfl)]
  exact (Moves.bind (T := onW (T cfg C)) (Moves.inW (moves_clearAll _ (fun s _ w => t_clear s w))) (fun _ =>
    Moves.bind (Moves.inW (moves_writeScalars _ _ _ (fun s hs v w => t_set (fun h' => hi.scalar s h' hs) v w))) (fun d =>
      Moves.inW (moves_writeArrays _ _ _ (fun s hs v w => t_set (fun h' => hi.array s h' hs) v w)))) m).1

private theorem tm_emit {e : Event K} (h : e.actOf = none) : Moves (Tm cfg C) (inW (emit e)) :=
  tm_inW (moves_emit _ (fun _ => rfl)) (moves_emit _ (fun w => PreO.refl (T := SameTy) w)) (moves_emit _ (t_log h))

private theorem covers (hp : cfg.model.Proper) (hl : Loop cfg C) : Covers cfg (Tm cfg C) where
  preo := inferInstance
  inputs t := tm_inW (done_inputs cfg t) (moves_callInputs cfg t (fun w => PreO.refl (T := SameTy) w) (fun _ _ _ _ => sameTy_upd _ _ _ _)) (t_inputs t)
  pre t := tm_inW (done_pre _ t _) (moves_preStep _ _ _ (fun l _ => moves_pre _ t l (fun _ _ h => sameTy_within h))) (t_pre t)
  processModel t a b := tm_process hp hl t a b
  reset x := tm_reset x
  clear := Moves.bind Moves.getSim (fun _ => tm_clear _)
  readS ss := tm_inW (moves_readScalars _ ss) (moves_readScalars _ ss) (moves_readScalars _ ss)
  readA ss := tm_inW (moves_readArrays _ ss) (moves_readArrays _ ss) (moves_readArrays _ ss)
  sv x := tm_of (fun _ => ⟨rfl, rfl, rfl⟩) (fun m => ⟨rfl, rfl, rfl, rfl, rfl, PreO.refl (T := SameTy) m.w⟩) (fun m _ => PreO.refl (T := T cfg C) m.w)
  trial _ _ := tm_emit rfl
  accept _ _ := tm_emit rfl
  warn _ := tm_emit rfl
  time t := tm_of (fun _ => ⟨rfl, rfl, rfl⟩) (fun m => ⟨rfl, rfl, rfl, rfl, rfl, PreO.refl (T := SameTy) m.w⟩) (fun m _ => PreO.refl (T := T cfg C) m.w)

private theorem tm_baseInit (hh : ∀ l s, s ∈ cfg.hash l → s ∈ l) (t : K) : Moves (Tm cfg C) (baseInit cfg t) := by
  intro m hi he
  obtain ⟨lg, hlg, e⟩ := baseInit_eq cfg t m
  have hk := keep_baseInit cfg t m
  rw [e] at hk ⊢
  refine ⟨⟨hi.order.keep hk, ?_, ?_, hi.fast⟩, ?_, ?_⟩
  · intro s hs h
    simp only [stateOf] at h
    rcases List.mem_append.1 h with h | h
    · exact hi.scalar s hs h
    · have := hh _ _ h
      simp only [scalarStatesOf, List.mem_filter, hs.1, Option.isSome_none, Bool.and_false, Bool.false_eq_true, and_false] at this
  · intro s hs h
    simp only [stateOf] at h
    rcases List.mem_append.1 h with h | h
    · exact hi.array s hs h
    · have := hh _ _ h
      simp only [arrayStatesOf, List.mem_filter, hs.1, Option.isSome_none, Bool.and_false, Bool.false_eq_true, and_false] at this
  · intro s hs
    simp only [stateOf]
    split
    · rfl
    · exact he s hs
  · rcases hlg with rfl | rfl
    · exact ⟨[], rfl, by simp⟩
    · exact ⟨[.warnStepper], rfl, by intro e he; rw [List.mem_singleton] at he; subst he; intro _ _ _; simp [Event.actOf]⟩

/-- The ordering pass: its result contains no block of the loop. -/
private theorem order_pass (hp : cfg.model.Proper) (hl : Loop cfg C) (t : K) {w : World K} (he : Empty cfg C w) :
    match fastOrder cfg.dbg t cfg.model.leaves (cfg.model.leaves.length + 1) w with
    | .ok r w' => Empty cfg C w' ∧ Logs (NoAct cfg C) w w' ∧ (∀ l ∈ r.1.flatten, l ∈ cfg.model.leaves ∧ ¬ C l) ∧
        r.2 = r.1.flatten.length ∧ (r.1.flatten.map Leaf.id).Nodup
    | .error _ w' => (Empty cfg C w' ∧ Logs (NoAct cfg C) w w') ∧
        ∀ l ∈ (fastFound cfg.dbg t cfg.model.leaves (cfg.model.leaves.length + 1) w).flatten, ¬ C l := by
  have hI : ∀ l ∈ cfg.model.leaves, cfg.model.leafId l.id := fun l hl => List.mem_map_of_mem hl
  have h := fastOrder_completes (dbg := cfg.dbg) (t := t) (I := cfg.model.leafId) cfg.model.leaves hp.leafNodup hI
    (Nat.lt_succ_self _) w
  unfold Completes Evals at h
  rw [Nat.succ_eq_add_one] at h
  have base : ∀ wm ls, (∀ l ∈ ls, l ∈ cfg.model.leaves) → Steps cfg.dbg t cfg.model.leafId w ls wm →
      (∀ l ∈ ls, l ∈ cfg.model.leaves ∧ ¬ C l) ∧ Empty cfg C wm ∧ Waiting cfg.model.leaves wm C ∧
        wm.log = (ls.map (fun l => Event.act l.id t)).reverse ++ w.log := by
    intro wm ls hsub hst
    have hlp := loop_steps hst hsub (waiting_of_empty hl he)
    have hb := hst.basic (fun l hl => hI l (hsub l hl))
    refine ⟨fun l h => ⟨hsub l h, hlp.1 l h⟩, fun s hs => ?_, hlp.2, hb.log⟩
    rw [hb.other s (fun l h1 h2 => hlp.1 l h1 ((hs.2.2.1 l (hsub l h1)).2 h2))]
    exact he s hs
  cases hx : fastOrder cfg.dbg t cfg.model.leaves (cfg.model.leaves.length + 1) w with
  | ok r w' =>
    rw [hx] at h
    obtain ⟨ls, h1, h2, _, h4, h5⟩ := h
    obtain ⟨g1, g2, _, g3⟩ := base w' ls h1 h2
    exact ⟨g2, ⟨_, g3, noAct_of hp g1⟩, by rw [h4]; exact g1, by rw [h4]; exact h5,
      by rw [h4]; exact (h2.basic (fun l hl => hI l (h1 l hl))).nodup⟩
  | error e w' =>
    obtain ⟨wm, h1, h2, l, hlm, hen, ha⟩ := fastFound_fails (I := cfg.model.leafId) cfg.model.leaves hp.leafNodup hI (Nat.lt_succ_self _) w hx
    obtain ⟨g1, g2, g4, g3⟩ := base wm _ h1 h2
    refine ⟨?_, fun l hl => (g1 l hl).2⟩
    have hn : ¬ C l := by
      intro hc
      obtain ⟨s, a1, a2, _⟩ := g4 l hlm hc
      rw [hen.2 s a1] at a2; cases a2
    have hw := act_within_error ha
    refine ⟨fun s hs => ?_, _, ?_, noAct_of (ls := (fastFound cfg.dbg t cfg.model.leaves (cfg.model.leaves.length + 1) w).flatten ++ [l]) (t := t) hp ?_⟩
    · rw [hw.sig s (fun h' => hn ((hs.2.2.1 l hlm).2 h'))]; exact g2 s hs
    · rw [hw.log, show ({ wm with log := Event.act l.id t :: wm.log } : World K).log = Event.act l.id t :: wm.log from rfl, g3]
      simp
    · intro l' hl'
      rcases List.mem_append.1 hl' with hl' | hl'
      · exact g1 l' hl'
      · rw [List.mem_singleton] at hl'; subst hl'; exact ⟨hlm, hn⟩

private theorem tm_simInit (hp : cfg.model.Proper) (hl : Loop cfg C) (hh : ∀ l s, s ∈ cfg.hash l → s ∈ l) (t : K) :
    Moves (Tm cfg C) (simInit cfg t) := by
  have hc := covers hp hl
  unfold simInit
  refine Moves.bind (tm_baseInit hh t) (fun _ => ?_)
  cases hs : cfg.strategy with
  | plain => exact hc.processModel t true true
  | reuse =>
    refine Moves.bind Moves.getSim (fun s => ?_)
    dsimp only
    split
    · refine Moves.bind (Moves.debugVerify _ _ _) (fun _ => Moves.bind ?_ (fun _ => hc.processModel t true true))
      intro m hi he
      refine ⟨⟨⟨?_, ?_, ?_, hi.order.fastSub, hi.order.fastNodup, (fun e => by rw [hs] at e; cases e), hi.order.fastNil⟩,
        hi.scalar, hi.array, hi.fast⟩, he, PreO.refl (T := Logs _) m.w⟩
      · intro po h; cases h; exact hp
      · intro po h; cases h; exact fun b hb => hb
      · intro po h; cases h; exact fun b hb _ => hb
    · exact hc.processModel t true true
  | fast =>
    refine Moves.bind Moves.getSim (fun s => Moves.bind (Moves.debugVerify _ _ _) (fun _ =>
      Moves.bind (hc.inputs t) (fun _ => Moves.bind (hc.pre t) (fun _ => ?_))))
    have hrest : Moves (Tm cfg C) (do
        inW (clearAll s.valueSigs)
        processModel cfg t true true) :=
      Moves.bind (tm_clear _) (fun _ => hc.processModel t true true)
    intro m hi he
    have h := inv_fastOrder cfg hp hs t hi.order
    have h' := order_pass hp hl t he
    rw [bind_apply]
    simp only [levels] at h ⊢
    cases hx : fastOrder cfg.dbg t cfg.model.leaves (cfg.model.leaves.length + 1) m.w with
    | error e w' =>
      rw [hx] at h h'
      refine ⟨⟨h, hi.scalar, hi.array, fun l hlm => ?_⟩, h'.1.1, h'.1.2⟩
      simp only [stateOf, List.flatten_append, List.mem_append] at hlm
      exact hlm.elim (hi.fast l) (h'.2 l)
    | ok r w' =>
      rw [hx] at h h'
      obtain ⟨a1, a2, a3, _⟩ := h'
      have hi' : Inv cfg C { w := w', s := { m.s with fast := m.s.fast ++ r.1 } } := by
        refine ⟨h, hi.scalar, hi.array, ?_⟩
        intro l hlm
        simp only [List.flatten_append, List.mem_append] at hlm
        rcases hlm with hlm | hlm
        · exact hi.fast l hlm
        · exact (a3 l hlm).2
      simp only [bind_apply, setSim]
      split
      · exact ⟨hi', a1, a2⟩
      · obtain ⟨b1, b2, b3⟩ := hrest _ hi' a1
        exact ⟨b1, b2, PreO.trans (T := Logs _) (b := w') a2 b3⟩

end

/-- Blocks in an algebraic loop never run: not in any evaluation of any call of `init` or `run`, whatever the user does
to the signals between calls, with either simulator. -/
theorem C21_loop_never_runs (cfg : Config K) (hp : cfg.model.Proper) (hh : ∀ l s, s ∈ cfg.hash l ↔ s ∈ l)
    (C : Leaf K → Prop) (hl : Loop cfg C) {m : Machine K} (h : Reach cfg m) :
    ∀ l ∈ cfg.model.leaves, C l → ∀ t, .act l.id t ∉ m.w.log := by
  have key : Inv cfg C m ∧ ∀ e ∈ m.w.log, NoAct cfg C e := by
    induction h with
    | new w t hd hlog =>
      exact ⟨⟨reach_inv cfg hp (.new w t hd hlog), fun _ _ h => (by cases h), fun _ _ h => (by cases h), fun _ h => (by simp at h)⟩,
        by show ∀ e ∈ w.log, _; rw [hlog]; simp⟩
    | @call m c hm ih =>
      obtain ⟨hi, hlog⟩ := ih
      have hinv := reach_inv cfg hp (.call c hm)
      have hiC : Inv cfg C (clr (Linked cfg) m) := ⟨hi.order.keep ⟨rfl, rfl, rfl⟩, hi.scalar, hi.array, hi.fast⟩
      have heC : Empty cfg C (clr (Linked cfg) m).w := by
        intro s hs
        simp [clr, clrW, hs.2.2.2]
      have hTm : Inv cfg C (stateOf (c.exec cfg (clr (Linked cfg) m))) ∧
          Logs (NoAct cfg C) (clr (Linked cfg) m).w (stateOf (c.exec cfg (clr (Linked cfg) m))).w := by
        have hinit := tm_simInit hp hl (fun l s => (hh l s).1)
        have : Tm cfg C (clr (Linked cfg) m) (stateOf (c.exec cfg (clr (Linked cfg) m))) := by
          cases c with
          | init t => exact hinit t _
          | run f t a b =>
            cases hin : m.s.initialized with
            | true => exact (covers hp hl).run f t a b _ hin
            | false =>
              show Tm cfg C _ (stateOf (run cfg f t a b (clr (Linked cfg) m)))
              rw [run_init cfg f t a b (clr (Linked cfg) m) hin]
              exact hinit t _
        obtain ⟨a, _, b⟩ := this hiC heC
        exact ⟨a, b⟩
      have hfin : ∀ w : World K, Logs (NoAct cfg C) (clr (Linked cfg) m).w w → ∀ e ∈ w.log, NoAct cfg C e := by
        rintro w ⟨evs, h1, h2⟩ e he
        rw [h1] at he
        rcases List.mem_append.1 he with he | he
        · exact h2 e he
        · exact hlog e he
      rcases call_clr cfg (fun l s => (hh l s).2) c m (fun hi => reach_linked cfg (fun l s => (hh l s).2) hm hi) with e | ⟨er, m', e1, e2⟩
      · rw [e]
        exact ⟨hTm.1, hfin _ hTm.2⟩
      · rw [e2] at hTm
        rw [e1] at hinv ⊢
        exact ⟨⟨hinv, hTm.1.scalar, hTm.1.array, hTm.1.fast⟩, hfin _ hTm.2⟩
    | user sig hm ih => exact ⟨⟨ih.1.order.keep ⟨rfl, rfl, rfl⟩, ih.1.scalar, ih.1.array, ih.1.fast⟩, ih.2⟩
  intro l hlm hc t hmem
  exact key.2 _ hmem l hlm hc rfl

/-- `FastSimulator::init` does not accept a model with an algebraic loop: from a state in which no model has been accepted
yet, it does not return. -/
theorem C21_loop_rejected (cfg : Config K) (hs : cfg.strategy = .fast) (hp : cfg.model.Proper)
    (hh : ∀ l s, s ∈ cfg.hash l ↔ s ∈ l) (C : Leaf K → Prop) (hl : Loop cfg C) (l : Leaf K) (hlm : l ∈ cfg.model.leaves)
    (hc : C l) {m : Machine K} (h : Reach cfg m) (t : K) : ∀ m', simInit cfg t m ≠ .ok () m' := by
  intro m' hok
  unfold simInit at hok
  obtain ⟨lg, _, e⟩ := baseInit_eq cfg t m
  rw [bind_of_ok e] at hok
  simp only [hs] at hok
  rw [bind_of_ok (show getSim _ = .ok _ _ from rfl)] at hok
  rw [bind_ok] at hok
  obtain ⟨_, m1, h1, hok⟩ := hok
  obtain ⟨_, rfl⟩ := (debugVerify_ok _ _ _ _ _).1 h1
  rw [bind_ok] at hok
  obtain ⟨_, m2, h2, hok⟩ := hok
  rw [bind_ok] at hok
  obtain ⟨_, m3, h3, hok⟩ := hok
  have hT : ∀ {α : Type} {x : M K α} {m m' : Machine K} {a : α}, Moves (T cfg C) x → inW x m = .ok a m' → Empty cfg C m.w →
      Empty cfg C m'.w := by
    intro α x m m' a hx he h0
    have := (hx.inW m).1
    rw [he] at this
    exact (this h0).1
  have he1 : Empty cfg C m2.w := hT (t_inputs t) h2 (by
    intro s hs'
    have : s ∈ m.s.valueSigs ++ cfg.hash (linkedSigs cfg.model) :=
      List.mem_append_right _ ((hh _ s).2 (mem_linkedSigs cfg s hs'.2.2.2))
    dsimp only
    rw [if_pos this])
  have he2 : Empty cfg C m3.w := hT (t_pre t) h3 he1
  have hord := order_pass hp hl t he2
  rw [bind_ok] at hok
  obtain ⟨r, m4, h4, hok⟩ := hok
  simp only [levels] at h4
  split at h4
  · rename_i a w' hx
    cases h4
    rw [hx] at hord
    obtain ⟨_, _, a3, a4, a5⟩ := hord
    simp only [bind_apply, setSim] at hok
    split at hok
    · cases hok
    · rename_i hne
      simp only [ne_eq, not_not] at hne
      -- all leaves are ordered, among them `l`
      have hmem : l.id ∈ r.1.flatten.map Leaf.id := by
        have hsub : (r.1.flatten.map Leaf.id) ⊆ cfg.model.leaves.map Leaf.id := by
          intro x hx'
          obtain ⟨l', hl', rfl⟩ := List.mem_map.1 hx'
          exact List.mem_map_of_mem (a3 l' hl').1
        have hperm := (List.subperm_of_subset a5 hsub).perm_of_length_le (by
          rw [List.length_map, List.length_map, ← a4]; exact Nat.le_of_eq hne.symm)
        exact hperm.mem_iff.2 (List.mem_map_of_mem hlm)
      obtain ⟨l', hl', e'⟩ := List.mem_map.1 hmem
      have : l' = l := List.inj_on_of_nodup_map hp.leafNodup (a3 l' hl').1 hlm e'
      exact (a3 l' hl').2 (this ▸ hc)
  · cases h4

/-! ## Examples -/

/-- The example with its state: ranks 0 (source, integrator), 1 (gain), 2 (sum). -/
private def withState : Machine ℚ :=
  { Demo.start with w := { Demo.world with sig := fun s => if s = 2 then { ty := .scalar, assigned := true, value := some (.scalar 5) } else { ty := .scalar } } }

private theorem demo_requires : ∀ l ∈ [Demo.add, Demo.gain, Demo.source, Demo.integ], ∀ s, l.Requires s →
    (l = Demo.add ∧ (s = 1 ∨ s = 2)) ∨ (l = Demo.gain ∧ s = 0) ∨ (l = Demo.integ ∧ s = 2) := by
  intro l hl s ⟨f, hf, hr⟩
  simp only [List.mem_cons, List.not_mem_nil, or_false] at hl
  rcases hl with rfl | rfl | rfl | rfl
  · simp only [Demo.add, List.mem_cons, Prod.mk.injEq, List.not_mem_nil, or_false] at hf
    rcases hf with ⟨rfl, rfl⟩ | ⟨rfl, rfl⟩ | ⟨rfl, rfl⟩
    · exact Or.inl ⟨rfl, Or.inl rfl⟩
    · exact Or.inl ⟨rfl, Or.inr rfl⟩
    · exact absurd hr (by decide)
  · simp only [Demo.gain, List.mem_cons, Prod.mk.injEq, List.not_mem_nil, or_false] at hf
    rcases hf with ⟨rfl, rfl⟩ | ⟨rfl, rfl⟩
    · exact Or.inr (Or.inl ⟨rfl, rfl⟩)
    · exact absurd hr (by decide)
  · simp only [Demo.source, List.mem_cons, Prod.mk.injEq, List.not_mem_nil, or_false] at hf
    obtain ⟨rfl, rfl⟩ := hf
    exact absurd hr (by decide)
  · simp only [Demo.integ, List.mem_cons, Prod.mk.injEq, List.not_mem_nil, or_false] at hf
    rcases hf with ⟨rfl, rfl⟩ | ⟨rfl, rfl⟩
    · exact absurd hr (by decide)
    · exact Or.inr (Or.inr ⟨rfl, rfl⟩)

example : Ranked (Demo.cfg .plain).model.leaves withState.w (fun b => if b = 1 then 2 else if b = 2 then 1 else 0) ∧
    Reach (Demo.cfg .plain) withState ∧ returns (evalModel (Demo.cfg .plain) 3 withState) = true := by
  refine ⟨?_, .user _ (.new Demo.world 0 (fun _ => rfl) rfl), by decide +kernel⟩
  show Ranked Demo.model.leaves _ _
  rw [Demo.leaves_eq]
  intro l hl s hs
  rcases demo_requires l hl s hs with ⟨rfl, rfl | rfl⟩ | ⟨rfl, rfl⟩ | ⟨rfl, rfl⟩
  · exact Or.inr ⟨Demo.gain, by simp, by simp [Demo.gain, Leaf.outs, Kind.outs], assigns_library _ (by simp [Demo.gain]), by decide⟩
  · exact Or.inl rfl
  · exact Or.inr ⟨Demo.source, by simp, by simp [Demo.source, Leaf.outs, Kind.outs], assigns_library _ (by simp [Demo.source]), by decide⟩
  · exact Or.inl rfl

/-- Two gains feeding each other and a source. -/
private def g1 : Leaf ℚ := { id := 1, links := [(0, Demo.rq), (1, Demo.ot)], kind := .gain (.scalar 2) 0 1 }
private def g2 : Leaf ℚ := { id := 2, links := [(1, Demo.rq), (0, Demo.ot)], kind := .gain (.scalar 3) 1 0 }
private def src : Leaf ℚ := { id := 3, links := [(5, Demo.ot)], kind := .source (fun t => .ok (.scalar t)) 5 }
private def loopModel : Block ℚ := .sub 100 [] [.leaf g1, .leaf src, .leaf g2]
private def loopCfg (st : Strategy) : Config ℚ :=
  { Demo.cfg st with model := loopModel, deriv := fun _ => none, stepper := none }

private theorem loop_leaves : loopModel.leaves = [g1, src, g2] := by simp [loopModel, Block.leaves, leavesL]

example (st : Strategy) : Loop (loopCfg st) (fun l => l.id = 1 ∨ l.id = 2) ∧ (loopCfg st).model.Proper ∧
    (st = .plain → (stateOf (Call.exec (loopCfg st) (.init 0) Demo.start)).w.done 3 = true) := by
  refine ⟨?_, by show loopModel.Proper; unfold Block.Proper; decide +kernel, ?_⟩
  · show ∀ l ∈ loopModel.leaves, _
    intro l hl hc
    have hin : ∀ s, ¬ (loopCfg st).inputSigs s := by
      rintro s ⟨t, ⟨f, h, _⟩ | h⟩
      · cases h
      · simp [loopCfg, Demo.cfg] at h
    have hl' := hl
    rw [loop_leaves] at hl'
    simp only [List.mem_cons, List.not_mem_nil, or_false] at hl'
    have hpre : ∀ l' ∈ (loopCfg st).model.leaves, ∀ s, s ∉ l'.preOuts := by
      intro l' h s
      change l' ∈ loopModel.leaves at h
      rw [loop_leaves] at h
      simp only [List.mem_cons, List.not_mem_nil, or_false] at h
      rcases h with rfl | rfl | rfl <;> simp [Leaf.preOuts, Kind.preOuts, g1, g2, src]
    have hout : ∀ l' ∈ (loopCfg st).model.leaves, ∀ s, s < 2 → s ∈ l'.outs → l'.id = 1 ∨ l'.id = 2 := by
      intro l' h s hs
      change l' ∈ loopModel.leaves at h
      rw [loop_leaves] at h
      simp only [List.mem_cons, List.not_mem_nil, or_false] at h
      rcases h with rfl | rfl | rfl <;> simp [Leaf.outs, Kind.outs, g1, g2, src]
      intro e; subst e; exact absurd hs (by decide)
    rcases hl' with rfl | rfl | rfl
    · exact ⟨0, ⟨Demo.rq, by simp [g1], by decide⟩, rfl, hin 0, fun l' h => ⟨hpre l' h 0, hout l' h 0 (by decide)⟩⟩
    · simp [src] at hc
    · exact ⟨1, ⟨Demo.rq, by simp [g2], by decide⟩, rfl, hin 1, fun l' h => ⟨hpre l' h 1, hout l' h 1 (by decide)⟩⟩
  · rintro rfl; decide +kernel

end Pooya.C21
