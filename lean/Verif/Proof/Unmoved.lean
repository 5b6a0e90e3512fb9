import Verif.Proof.TiedInit
import Verif.Spec.Retry

/-! What a call of `run` does to the diagram before the first `post_step`. -/

namespace Pooya

set_option linter.unusedSectionVars false

variable {K : Type} [Arith K] {cfg : Config K}

theorem Covers.both {A B C : Machine K → Machine K → Prop} [PreO C] (ha : Covers cfg A) (hb : Covers cfg B) (h : ∀ m m', A m m' → B m m' → C m m') :
    Covers cfg C where
  preo := inferInstance
  inputs t m := h _ _ (ha.inputs t m) (hb.inputs t m)
  pre t m := h _ _ (ha.pre t m) (hb.pre t m)
  processModel t p q m := h _ _ (ha.processModel t p q m) (hb.processModel t p q m)
  reset x m := h _ _ (ha.reset x m) (hb.reset x m)
  clear m := h _ _ (ha.clear m) (hb.clear m)
  readS ss m := h _ _ (ha.readS ss m) (hb.readS ss m)
  readA ss m := h _ _ (ha.readA ss m) (hb.readA ss m)
  sv x m := h _ _ (ha.sv x m) (hb.sv x m)
  trial a b m := h _ _ (ha.trial a b m) (hb.trial a b m)
  accept a b m := h _ _ (ha.accept a b m) (hb.accept a b m)
  warn t m := h _ _ (ha.warn t m) (hb.warn t m)
  time t m := h _ _ (ha.time t m) (hb.time t m)

/-- The diagram moves along `T`, and the invariant `I` is kept. -/
def Along (I : Machine K → Prop) (T : World K → World K → Prop) (m m' : Machine K) : Prop := I m → I m' ∧ T m.w m'.w

instance (I : Machine K → Prop) (T : World K → World K → Prop) [PreO T] : PreO (Along I T) where
  refl m h := ⟨h, PreO.refl m.w⟩
  trans h h' hi := ⟨(h' (h hi).1).1, PreO.trans (h hi).2 (h' (h hi).1).2⟩

/-- `Covers` from the elementary effects on the diagram, in states with an invariant of the simulator. -/
theorem covers_along {I : Machine K → Prop} {T : World K → World K → Prop} [PreO T] (hI : Covers cfg (fun m m' => I m → I m'))
    (hpost : ∀ t, Moves (fun m m' => I m → I m') (inW (cfg.model.postStep cfg.dbg t)))
    (log : ∀ (e : Event K) (w : World K), T w { w with log := e :: w.log })
    (input : ∀ s, cfg.inputSigs s → ∀ (v : Val K) (w : World K), T w { w with sig := upd w.sig s { w.sig s with assigned := true, value := some v } })
    (set : ∀ m, I m → ∀ s ∈ m.s.scalarStates ++ m.s.arrayStates, ∀ (v : Val K) (w : World K),
      T w { w with sig := upd w.sig s { w.sig s with assigned := true, value := some v } })
    (clear : ∀ m, I m → ∀ s ∈ m.s.valueSigs, ∀ (w : World K), T w { w with sig := upd w.sig s { w.sig s with assigned := false } })
    (pre : ∀ l ∈ cfg.model.leaves, ∀ t, Moves T (l.pre cfg.dbg t))
    (post : ∀ l ∈ cfg.model.leaves, ∀ t, Moves T (l.post cfg.dbg t))
    (heval : ∀ t, Moves (fun m m' => I m → I m') (evalModel cfg t))
    (eval : ∀ t m, I m → T m.w (stateOf (evalModel cfg t m)).w) : Covers cfg (Along I T) := by
  have hw : ∀ {α : Type} {x : M K α}, Moves (fun m m' => I m → I m') (inW x) → Moves T x → Moves (Along I T) (inW x) := fun h1 h2 m hi =>
    ⟨h1 m hi, (Moves.inW h2 m).1⟩
  have hin : ∀ t, Moves T (callInputs cfg t : M K Unit) := fun t => moves_callInputs cfg t (log _) input
  have hpre : ∀ t, Moves T (cfg.model.preStep cfg.dbg t) := fun t => moves_preStep _ _ _ (fun l hl => pre l hl t)
  exact {
    preo := inferInstance
    inputs := fun t => hw (hI.inputs t) (hin t)
    pre := fun t => hw (hI.pre t) (hpre t)
    processModel := fun t p q => moves_processModel (hw (hI.inputs t) (hin t)) (hw (hI.pre t) (hpre t))
      (hw (hpost t) (moves_postStep _ _ _ (fun l hl => post l hl t))) (fun m hi => ⟨heval t m hi, eval t m hi⟩) p q
    reset := fun x m hi => by
      refine ⟨hI.reset x m hi, ?_⟩
      have e : resetWith cfg x m = (do
          inW (clearAll m.s.valueSigs)
          let d ← inW (writeScalars cfg.dbg m.s.scalarStates x)
          inW (writeArrays cfg.dbg m.s.arrayStates d) : MM K Unit) m := rfl
      rw [e]
      exact (Moves.bind (Moves.inW (moves_clearAll _ (clear m hi))) (fun _ =>
        Moves.bind (Moves.inW (moves_writeScalars _ _ _ (fun s hs => set m hi s (List.mem_append_left _ hs)))) (fun d =>
          Moves.inW (moves_writeArrays _ _ _ (fun s hs => set m hi s (List.mem_append_right _ hs))))) m).1
    clear := fun m hi => by
      refine ⟨hI.clear m hi, ?_⟩
      have e : (do let s ← getSim; inW (clearAll s.valueSigs) : MM K Unit) m = inW (clearAll m.s.valueSigs) m := rfl
      rw [e]
      exact (Moves.inW (moves_clearAll _ (clear m hi)) m).1
    readS := fun ss => hw (hI.readS ss) (moves_readScalars _ ss)
    readA := fun ss => hw (hI.readA ss) (moves_readArrays _ ss)
    sv := fun x m hi => ⟨hI.sv x m hi, PreO.refl m.w⟩
    trial := fun a b => hw (hI.trial a b) (moves_emit _ (log _))
    accept := fun a b => hw (hI.accept a b) (moves_emit _ (log _))
    warn := fun t => hw (hI.warn t) (moves_emit _ (log _))
    time := fun t m hi => ⟨hI.time t m hi, PreO.refl m.w⟩ }

/-- As long as no `post_step` is called, quiet blocks keep their members; signals that are not linked to the model stay. -/
def Unmoved (cfg : Config K) (w w' : World K) : Prop :=
  ∃ new, w'.log = new ++ w.log ∧
    ((∀ b t, Event.post b t ∉ new) → ∀ b, (∀ l ∈ cfg.model.leaves, l.id = b → l.Quiet (w.mem b)) → w'.mem b = w.mem b) ∧
    ∀ s, ¬ cfg.Links s → w'.sig s = w.sig s

instance (cfg : Config K) : PreO (Unmoved cfg) where
  refl w := ⟨[], rfl, fun _ _ _ => rfl, fun _ _ => rfl⟩
  trans := by
    rintro a b c ⟨n1, l1, m1, s1⟩ ⟨n2, l2, m2, s2⟩
    refine ⟨n2 ++ n1, by rw [l2, l1, List.append_assoc], fun hn i hq => ?_, fun s hs => (s2 s hs).trans (s1 s hs)⟩
    have e1 := m1 (fun b t h => hn b t (List.mem_append_right _ h)) i hq
    exact (m2 (fun b t h => hn b t (List.mem_append_left _ h)) i (by rw [e1]; exact hq)).trans e1

theorem unmoved_sig {w : World K} {s : SigId} (c : Cell K) (hs : cfg.Links s) : Unmoved cfg w { w with sig := upd w.sig s c } := by
  refine ⟨[], rfl, fun _ _ _ => rfl, fun s' hs' => ?_⟩
  have : s' ≠ s := fun e => hs' (by rw [e]; exact hs)
  simp [upd, this]

theorem unmoved_pre {l : Leaf K} (hl : l ∈ cfg.model.leaves) (hk : ∀ s ∈ l.preOuts, cfg.Links s) (dbg : Bool) (t : K) :
    Moves (Unmoved cfg) (l.pre dbg t) := by
  intro w
  have h1 := moves_pre (T := fun w w' => Within (· ∈ l.preOuts) l.id { w with log := .pre l.id t :: w.log } w') dbg t l (fun _ _ h => h) w
  refine ⟨[.pre l.id t], h1.log, fun _ b hq => ?_, fun s hs => h1.sig s (fun ho => hs (hk s ho))⟩
  by_cases e : b = l.id
  · subst e
    exact congrFun (still_pre_leaf dbg t l w (hq l hl rfl)) _
  · exact h1.mem b e

theorem unmoved_act {l : Leaf K} (hl : l ∈ cfg.model.leaves) (hk : ∀ s ∈ l.outs, cfg.Links s) (dbg : Bool) (t : K) :
    Moves (Unmoved cfg) (l.act dbg t) := by
  intro w
  have h1 := moves_act (T := fun w w' => Within (· ∈ l.outs) l.id { w with log := .act l.id t :: w.log } w') dbg t l (fun _ _ h => h) w
  refine ⟨[.act l.id t], h1.log, fun _ b hq => ?_, fun s hs => h1.sig s (fun ho => hs (hk s ho))⟩
  by_cases e : b = l.id
  · subst e
    exact congrFun (still_act_leaf dbg t l w (hq l hl rfl)) _
  · exact h1.mem b e

theorem unmoved_post (l : Leaf K) (dbg : Bool) (t : K) : Moves (Unmoved cfg) (l.post dbg t) := by
  refine moves_post dbg t l (fun w w' h => ⟨[.post l.id t], h.log, fun hn => (hn l.id t (by simp)).elim, fun s _ => h.sig s (fun h => h)⟩)

/-- The invariant of the simulator. -/
def Held (cfg : Config K) (m : Machine K) : Prop :=
  Mid cfg m ∧ (∀ s ∈ m.s.scalarStates ++ m.s.arrayStates, cfg.Links s) ∧ ∀ s ∈ m.s.valueSigs, cfg.Links s

theorem held_of {m m' : Machine K} (h1 : KeepMid cfg m m') (h2 : Fixed m m') (h : Held cfg m) : Held cfg m' :=
  ⟨h1 h.1, by rw [h2.scalarStates, h2.arrayStates]; exact h.2.1, by rw [h2.valueSigs]; exact h.2.2⟩

instance (I : Machine K → Prop) : PreO (fun m m' => I m → I m') where
  refl _ h := h
  trans h h' hi := h' (h hi)

theorem covers_held (cfg : Config K) : Covers cfg (fun m m' => Held cfg m → Held cfg m') :=
  (covers_mid cfg).both (covers_fixed cfg) (fun _ _ h1 h2 h => held_of h1 h2 h)

theorem covers_unmoved (hp : cfg.model.Proper) (ho : ∀ l ∈ cfg.model.leaves, ∀ s ∈ l.outs, cfg.Links s)
    (hq : ∀ l ∈ cfg.model.leaves, ∀ s ∈ l.preOuts, cfg.Links s) (hi : ∀ s, cfg.inputSigs s → cfg.Links s) :
    Covers cfg (Along (Held cfg) (Unmoved cfg)) := by
  refine covers_along (covers_held cfg) (fun t m h => ?_) (fun e w => ⟨[e], rfl, fun _ _ _ => rfl, fun _ _ => rfl⟩) (fun s hs v w => unmoved_sig _ (hi s hs))
    (fun m h s hs v w => unmoved_sig _ (h.2.1 s hs)) (fun m h s hs w => unmoved_sig _ (h.2.2 s hs)) (fun l hl t => unmoved_pre hl (hq l hl) _ t)
    (fun l hl t => unmoved_post l _ t) (fun t m h => ?_) (fun t m h => ?_)
  · refine held_of ((keep_inW (done_post _ t _)).mono (fun _ m' hk hi => .other m' hi hk.1 hk.2.1 hk.2.2) m) ?_ h
    exact fixed_inW (moves_postStep _ _ _ (fun l _ => moves_post _ t l (fun _ _ h => sameTy_within h))) m
  · refine held_of (fun hm => .eval t hm) ?_ h
    exact fixed_of_onEval (moves_eval_any cfg t (fun l => moves_act _ t l (fun _ _ h => sameTy_within h))
      (fun _ _ _ w => PreO.refl (T := SameTy) w) m)
  · exact (moves_eval (T := Unmoved cfg) cfg (mid_inv cfg hp h.1) t (fun l hl => unmoved_act hl (ho l hl) _ t)
      (fun _ b d w => ⟨[], rfl, fun _ _ _ => rfl, fun _ _ => rfl⟩)).1

end Pooya
