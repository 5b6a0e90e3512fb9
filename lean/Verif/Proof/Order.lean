import Verif.Proof.SimMoves

/-! The processing orders remembered by the simulators in reachable states. -/

namespace Pooya

set_option linter.unusedSectionVars false

variable {K : Type} [Arith K]

/-- Flags and remembered orders do not change. -/
def KeepOrder (m m' : Machine K) : Prop :=
  m'.w.done = m.w.done ∧ m'.s.po = m.s.po ∧ m'.s.fast = m.s.fast

instance : PreO (KeepOrder (K := K)) where
  refl _ := ⟨rfl, rfl, rfl⟩
  trans h h' := ⟨h'.1.trans h.1, h'.2.1.trans h.2.1, h'.2.2.trans h.2.2⟩

theorem keep_inW {α : Type} {x : M K α} (h : Moves SameDone x) : Moves KeepOrder (inW x) :=
  h.inW.mono (fun m m' h => ⟨h.1, by rw [h.2], by rw [h.2]⟩)

theorem keep_setSim {f : Sim K → Sim K} (h : ∀ s, (f s).po = s.po ∧ (f s).fast = s.fast) :
    Moves KeepOrder (setSim f) := fun m => ⟨rfl, (h m.s).1, (h m.s).2⟩

theorem done_inputs (cfg : Config K) (t : K) : Moves SameDone (callInputs cfg t : M K Unit) :=
  moves_callInputs cfg t (fun _ => rfl) (fun _ _ _ _ => rfl)

theorem done_pre (dbg : Bool) (t : K) (b : Block K) : Moves SameDone (b.preStep dbg t) :=
  moves_preStep dbg t b (fun l _ => moves_pre dbg t l (fun _ _ h => h.done))

theorem done_post (dbg : Bool) (t : K) (b : Block K) : Moves SameDone (b.postStep dbg t) :=
  moves_postStep dbg t b (fun l _ => moves_post dbg t l (fun _ _ h => h.done))

theorem keep_reset (cfg : Config K) (x : List K) : Moves KeepOrder (resetWith cfg x) := by
  unfold resetWith
  refine Moves.bind Moves.getSim (fun s => Moves.bind (keep_inW (moves_clearAll _ (fun _ _ _ => rfl)))
    (fun _ => Moves.bind (keep_inW (moves_writeScalars _ _ _ (fun _ _ _ _ => rfl)))
      (fun d => keep_inW (moves_writeArrays _ _ _ (fun _ _ _ _ => rfl)))))

/-- Everything but the evaluation keeps flags and orders. -/
theorem covers_of_keep {cfg : Config K} {T : Machine K → Machine K → Prop} [PreO T]
    (hT : ∀ m m', KeepOrder m m' → T m m') (he : ∀ t, Moves T (evalModel cfg t)) : Covers cfg T where
  preo := inferInstance
  inputs t := (keep_inW (done_inputs cfg t)).mono hT
  pre t := (keep_inW (done_pre _ t _)).mono hT
  processModel t pre post := moves_processModel ((keep_inW (done_inputs cfg t)).mono hT)
    ((keep_inW (done_pre _ t _)).mono hT) ((keep_inW (done_post _ t _)).mono hT) (he t) pre post
  reset x := (keep_reset cfg x).mono hT
  clear := (Moves.bind Moves.getSim (fun _ => keep_inW (moves_clearAll _ (fun _ _ _ => rfl)))).mono hT
  readS ss := (keep_inW (moves_readScalars _ ss)).mono hT
  readA ss := (keep_inW (moves_readArrays _ ss)).mono hT
  sv _ _ := hT _ _ ⟨rfl, rfl, rfl⟩
  trial _ _ := (keep_inW (moves_emit _ (fun _ => rfl))).mono hT
  accept _ _ := (keep_inW (moves_emit _ (fun _ => rfl))).mono hT
  warn _ := (keep_inW (moves_emit _ (fun _ => rfl))).mono hT
  time _ _ := hT _ _ ⟨rfl, rfl, rfl⟩

theorem keep_baseInit (cfg : Config K) (t : K) : Moves KeepOrder (baseInit cfg t) := by
  unfold baseInit
  refine Moves.bind Moves.get (fun m => ?_)
  dsimp only
  refine Moves.bind (keep_setSim (fun _ => ⟨rfl, rfl⟩)) (fun _ => ?_)
  have h2 : Moves KeepOrder (do
      let s ← getSim
      inW (clearAll s.valueSigs)
      setSim (fun s : Sim K => { s with initialized := true }) : MM K Unit) :=
    Moves.bind Moves.getSim (fun _ => Moves.bind (keep_inW (moves_clearAll _ (fun _ _ _ => rfl)))
      (fun _ => keep_setSim (fun _ => ⟨rfl, rfl⟩)))
  split
  · exact Moves.bind (keep_inW (moves_emit _ (fun _ => rfl))) (fun _ => h2)
  · exact h2

/-- Invariant on the remembered orders. -/
structure OrderInv (cfg : Config K) (m : Machine K) : Prop where
  poNodup : ∀ po, m.s.po = some po → (po.map Block.id).Nodup
  poSub : ∀ po, m.s.po = some po → ∀ b ∈ po, b ∈ cfg.model.all
  poAll : ∀ po, m.s.po = some po → ∀ b ∈ cfg.model.all, b.isBuilder = false → b ∈ po
  fastSub : ∀ l ∈ m.s.fast.flatten, l ∈ cfg.model.leaves
  fastNodup : (m.s.fast.flatten.map Leaf.id).Nodup
  fastDone : cfg.strategy = .fast → ∀ l ∈ m.s.fast.flatten, m.w.done l.id = true
  fastNil : cfg.strategy ≠ .fast → m.s.fast = []

theorem OrderInv.keep {cfg : Config K} {m m' : Machine K} (h : OrderInv cfg m) (hk : KeepOrder m m') :
    OrderInv cfg m' := by
  obtain ⟨h1, h2, h3⟩ := hk
  exact ⟨by rw [h2]; exact h.poNodup, by rw [h2]; exact h.poSub, by rw [h2]; exact h.poAll,
    by rw [h3]; exact h.fastSub, by rw [h3]; exact h.fastNodup, by rw [h1, h3]; exact h.fastDone,
    by rw [h3]; exact h.fastNil⟩

/-- Flags do not matter without `FastSimulator`. -/
theorem OrderInv.setW {cfg : Config K} {m : Machine K} (h : OrderInv cfg m) (hs : cfg.strategy ≠ .fast)
    (w : World K) : OrderInv cfg { m with w := w } :=
  ⟨h.poNodup, h.poSub, h.poAll, h.fastSub, h.fastNodup, fun e => (hs e).elim, h.fastNil⟩

def KeepInv (cfg : Config K) (m m' : Machine K) : Prop := OrderInv cfg m → OrderInv cfg m'

instance (cfg : Config K) : PreO (KeepInv cfg) := ⟨fun _ h => h, fun h h' hi => h' (h hi)⟩

theorem sorted_of_sub {cfg : Config K} (hp : cfg.model.Proper) {po : List (Block K)}
    (h : ∀ b ∈ po, b ∈ cfg.model.all) : Sorted cfg.model.leafId po := fun c hc => hp.sorted c (h c hc)

theorem inv_eval (cfg : Config K) (hp : cfg.model.Proper) (t : K) : Moves (KeepInv cfg) (evalModel cfg t) := by
  intro m hi
  unfold evalModel
  cases hs : cfg.strategy with
  | plain =>
    have : ∀ m', m'.s = m.s → OrderInv cfg m' := by
      intro m' e
      have := hi.setW (by rw [hs]; simp) m'.w
      rw [show ({ m with w := m'.w } : Machine K) = m' by cases m'; simp at e; simp [e]] at this
      exact this
    apply this
    obtain ⟨w', hw, _⟩ := mark_ok cfg.model hp m.w
    simp only [bind_apply, inW, hw]
    cases plainLoop cfg.dbg t cfg.model (cfg.model.leaves.length + 1) w' <;> rfl
  | reuse =>
    have hset : ∀ m', m'.s = m.s → OrderInv cfg m' := by
      intro m' e
      have := hi.setW (by rw [hs]; simp) m'.w
      rw [show ({ m with w := m'.w } : Machine K) = m' by cases m'; simp at e; simp [e]] at this
      exact this
    obtain ⟨w', hw, hm⟩ := mark_ok cfg.model hp m.w
    simp only [bind_apply, inW, hw, getSim]
    cases hpo : m.s.po with
    | none => exact hset _ rfl
    | some po =>
      have hn := hi.poNodup po hpo
      have hsub := hi.poSub po hpo
      have hall := hi.poAll po hpo
      have hspec := reuseEval_spec (dbg := cfg.dbg) (t := t) (I := cfg.model.leafId) po hn
        (sorted_of_sub hp hsub) w'
      simp only [bind_apply, inW]
      cases hx : reuseEval cfg.dbg t po w' with
      | error e w'' => exact hset _ rfl
      | ok po' w'' =>
        rw [hx] at hspec
        obtain ⟨_, hperm, _⟩ := hspec
        simp only [setSim, stateOf]
        refine ⟨?_, ?_, ?_, hi.fastSub, hi.fastNodup, (fun e => by rw [hs] at e; cases e), hi.fastNil⟩
        · intro q hq
          simp only [Option.some.injEq] at hq
          subst hq
          rw [(hperm.map Block.id).nodup_iff]
          exact hn.sublist ((List.filter_sublist).map _)
        · intro q hq b hb
          simp only [Option.some.injEq] at hq
          subst hq
          exact hsub b (List.mem_filter.1 (hperm.mem_iff.1 hb)).1
        · intro q hq b hb hnb
          simp only [Option.some.injEq] at hq
          subst hq
          rw [hperm.mem_iff, List.mem_filter]
          refine ⟨hall b hb hnb, ?_⟩
          rw [hm.done b hb, hnb]; rfl
  | fast =>
    refine hi.keep ?_
    simp only [bind_apply, getSim]
    exact keep_inW (moves_actAll _ _ _ (fun l _ => moves_act _ _ l (fun _ _ h => h.done))) m

theorem covers_inv (cfg : Config K) (hp : cfg.model.Proper) : Covers cfg (KeepInv cfg) :=
  covers_of_keep (fun _ _ hk hi => hi.keep hk) (inv_eval cfg hp)

theorem levels_ok (cfg : Config K) (t : K) {m m' : Machine K} {r : List (List (Leaf K)) × Nat} :
    levels cfg t m = .ok r m' ↔ inW (fastOrder cfg.dbg t cfg.model.leaves (cfg.model.leaves.length + 1)) m = .ok r m' := by
  unfold levels inW
  cases fastOrder cfg.dbg t cfg.model.leaves (cfg.model.leaves.length + 1) m.w <;> simp

/-- Leaves that ran are added to the order. -/
theorem OrderInv.ran {cfg : Config K} {m : Machine K} (hi : OrderInv cfg m) (hs : cfg.strategy = .fast) {t : K} {ls : List (List (Leaf K))} {w' w'' : World K}
    (h1 : ∀ l ∈ ls.flatten, l ∈ cfg.model.leaves) (h2 : Steps cfg.dbg t cfg.model.leafId m.w ls.flatten w') (h3 : w''.done = w'.done) :
    OrderInv cfg { w := w'', s := { m.s with fast := m.s.fast ++ ls } } := by
  have hb := h2.basic (fun l hl => List.mem_map_of_mem (h1 l hl))
  refine ⟨hi.poNodup, hi.poSub, hi.poAll, ?_, ?_, ?_, fun e => (e hs).elim⟩
  · intro l hl
    rw [List.flatten_append, List.mem_append] at hl
    rcases hl with hl | hl
    · exact hi.fastSub l hl
    · exact h1 l hl
  · rw [List.flatten_append, List.map_append, List.nodup_append]
    refine ⟨hi.fastNodup, hb.nodup, ?_⟩
    intro x hx y hy e
    subst e
    obtain ⟨l, hl, rfl⟩ := List.mem_map.1 hx
    obtain ⟨l', hl', e⟩ := List.mem_map.1 hy
    have h1 := hi.fastDone hs l hl
    have h2 := hb.fresh l' hl'
    rw [e, h1] at h2; cases h2
  · intro _ l hl
    rw [List.flatten_append, List.mem_append] at hl
    have hlm : l ∈ cfg.model.leaves := by
      rcases hl with hl | hl
      · exact hi.fastSub l hl
      · exact h1 l hl
    show w''.done l.id = true
    rw [h3]
    refine (hb.done l.id (List.mem_map_of_mem hlm)).2 ?_
    rcases hl with hl | hl
    · exact Or.inl (hi.fastDone hs l hl)
    · exact Or.inr (List.mem_map_of_mem hl)

/-- The ordering pass keeps the invariant. -/
theorem inv_fastOrder (cfg : Config K) (hp : cfg.model.Proper) (hs : cfg.strategy = .fast) (t : K) {m : Machine K}
    (hi : OrderInv cfg m) :
    match levels cfg t m with
    | .ok r m' => OrderInv cfg { m' with s := { m'.s with fast := m'.s.fast ++ r.1 } }
    | .error _ m' => OrderInv cfg m' := by
  have h := fastOrder_completes (dbg := cfg.dbg) (t := t) (I := cfg.model.leafId) cfg.model.leaves hp.leafNodup
    (fun l hl => List.mem_map_of_mem hl) (Nat.lt_succ_self _) m.w
  unfold Completes Evals at h
  simp only [levels]
  cases hx : fastOrder cfg.dbg t cfg.model.leaves (cfg.model.leaves.length + 1) m.w with
  | ok r w' =>
    rw [hx] at h
    obtain ⟨ls, h1, h2, h3, h4, h5⟩ := h
    subst h4
    exact hi.ran hs h1 h2 rfl
  | error e w' =>
    obtain ⟨wm, h1, h2, l, h3, h4, h5⟩ := fastFound_fails (I := cfg.model.leafId) cfg.model.leaves hp.leafNodup
      (fun l hl => List.mem_map_of_mem hl) (Nat.lt_succ_self _) m.w hx
    exact hi.ran hs h1 h2 (act_within_error h5).done

theorem inv_simInit (cfg : Config K) (hp : cfg.model.Proper) (t : K) : Moves (KeepInv cfg) (simInit cfg t) := by
  have hc := covers_inv cfg hp
  have hkeep : ∀ {α : Type} {x : MM K α}, Moves KeepOrder x → Moves (KeepInv cfg) x :=
    fun h => h.mono (fun _ _ hk hi => hi.keep hk)
  unfold simInit
  refine Moves.bind (hkeep (keep_baseInit cfg t)) (fun _ => ?_)
  cases hs : cfg.strategy with
  | plain => exact hc.processModel t true true
  | reuse =>
    refine Moves.bind Moves.getSim (fun s => ?_)
    dsimp only
    split
    · refine Moves.bind (Moves.debugVerify _ _ _) (fun _ => Moves.bind ?_ (fun _ => hc.processModel t true true))
      intro m hi
      refine ⟨?_, ?_, ?_, hi.fastSub, hi.fastNodup, (fun e => by rw [hs] at e; cases e), hi.fastNil⟩
      · intro po h; cases h; exact hp
      · intro po h; cases h; exact fun b hb => hb
      · intro po h; cases h; exact fun b hb _ => hb
    · exact hc.processModel t true true
  | fast =>
    refine Moves.bind Moves.getSim (fun s => Moves.bind (Moves.debugVerify _ _ _) (fun _ =>
      Moves.bind (hc.inputs t) (fun _ => Moves.bind (hc.pre t) (fun _ => ?_))))
    have hrest : Moves (KeepInv cfg) (do
        inW (clearAll s.valueSigs)
        processModel cfg t true true) :=
      Moves.bind (hkeep (keep_inW (moves_clearAll _ (fun _ _ _ => rfl)))) (fun _ => hc.processModel t true true)
    intro m hi
    have h := inv_fastOrder cfg hp hs t hi
    rw [bind_apply]
    cases hx : levels cfg t m with
    | error e m' => rw [hx] at h; exact h
    | ok r m' =>
      rw [hx] at h
      simp only [bind_apply, setSim]
      split
      · exact h
      · exact hrest _ h

/-- Every reachable state satisfies the invariant. -/
theorem reach_inv (cfg : Config K) (hp : cfg.model.Proper) {m : Machine K} (h : Reach cfg m) : OrderInv cfg m := by
  induction h with
  | new w t hd _ =>
    exact ⟨fun po h => (by cases h), fun po h => (by cases h), fun po h => (by cases h), fun l hl => (by simp at hl),
      by simp, fun _ l hl => (by simp at hl), fun _ => rfl⟩
  | call c _ ih =>
    cases c with
    | init t => exact inv_simInit cfg hp t _ ih
    | run fuel t minH maxH =>
      rename_i m _
      cases hi : m.s.initialized with
      | true => exact (covers_inv cfg hp).run fuel t minH maxH m hi ih
      | false =>
        have e : Call.exec cfg (.run fuel t minH maxH) m = simInit cfg t m := by
          simp only [Call.exec, run, bind_apply, getSim, hi, Bool.not_false, if_true]
        rw [e]
        exact inv_simInit cfg hp t _ ih
  | user sig _ ih => exact ih.keep ⟨rfl, rfl, rfl⟩

/-! ## States in the middle of calls -/

theorem mid_inv (cfg : Config K) (hp : cfg.model.Proper) {m : Machine K} (h : Mid cfg m) : OrderInv cfg m := by
  induction h with
  | new w t hd =>
    exact ⟨fun po h => (by cases h), fun po h => (by cases h), fun po h => (by cases h), fun l hl => (by simp at hl),
      by simp, fun _ l hl => (by simp at hl), fun _ => rfl⟩
  | other m' _ h1 h2 h3 ih => exact ih.keep ⟨h1, h2, h3⟩
  | eval t _ ih => exact inv_eval cfg hp t _ ih
  | order hs _ hi =>
    refine ⟨?_, ?_, ?_, hi.fastSub, hi.fastNodup, (fun e => by rw [hs] at e; cases e), hi.fastNil⟩
    · intro po h; cases h; exact hp
    · intro po h; cases h; exact fun b hb => hb
    · intro po h; cases h; exact fun b hb _ => hb
  | fastOrder t hs _ hx ih => have := inv_fastOrder cfg hp hs t ih; rw [hx] at this; exact this
  | fastFail t hs _ hx ih => have := inv_fastOrder cfg hp hs t ih; rw [hx] at this; exact this

def KeepMid (cfg : Config K) (m m' : Machine K) : Prop := Mid cfg m → Mid cfg m'

instance (cfg : Config K) : PreO (KeepMid cfg) := ⟨fun _ h => h, fun h h' hi => h' (h hi)⟩

/-- All effects of `run` lead to states of the kind described by `Mid`. -/
theorem covers_mid (cfg : Config K) : Covers cfg (KeepMid cfg) :=
  covers_of_keep (fun _ m' hk hi => .other m' hi hk.1 hk.2.1 hk.2.2) (fun t _ hi => .eval t hi)

theorem mid_simInit (cfg : Config K) (t : K) : Moves (KeepMid cfg) (simInit cfg t) := by
  have hc := covers_mid cfg
  have hkeep : ∀ {α : Type} {x : MM K α}, Moves KeepOrder x → Moves (KeepMid cfg) x :=
    fun h => h.mono (fun _ m' hk hi => .other m' hi hk.1 hk.2.1 hk.2.2)
  unfold simInit
  refine Moves.bind (hkeep (keep_baseInit cfg t)) (fun _ => ?_)
  cases hs : cfg.strategy with
  | plain => exact hc.processModel t true true
  | reuse =>
    refine Moves.bind Moves.getSim (fun s => ?_)
    dsimp only
    split
    · exact Moves.bind (Moves.debugVerify _ _ _) (fun _ => Moves.bind (fun m hi => .order hs hi) (fun _ => hc.processModel t true true))
    · exact hc.processModel t true true
  | fast =>
    refine Moves.bind Moves.getSim (fun s => Moves.bind (Moves.debugVerify _ _ _) (fun _ =>
      Moves.bind (hc.inputs t) (fun _ => Moves.bind (hc.pre t) (fun _ => ?_))))
    have hrest : Moves (KeepMid cfg) (do
        inW (clearAll s.valueSigs)
        processModel cfg t true true) :=
      Moves.bind (hkeep (keep_inW (moves_clearAll _ (fun _ _ _ => rfl)))) (fun _ => hc.processModel t true true)
    intro m hi
    rw [bind_apply]
    cases hx : levels cfg t m with
    | error e m' => exact .fastFail t hs hi hx
    | ok r m' =>
      have h := Mid.fastOrder t hs hi hx
      simp only [bind_apply, setSim]
      split
      · exact h
      · exact hrest _ h

/-- The states between calls are among them. -/
theorem reach_mid (cfg : Config K) {m : Machine K} (h : Reach cfg m) : Mid cfg m := by
  induction h with
  | new w t hd _ => exact .new w t hd
  | call c _ ih =>
    cases c with
    | init t => exact mid_simInit cfg t _ ih
    | run fuel t minH maxH =>
      rename_i m _
      cases hi : m.s.initialized with
      | true => exact (covers_mid cfg).run fuel t minH maxH m hi ih
      | false =>
        have e : Call.exec cfg (.run fuel t minH maxH) m = simInit cfg t m := by
          simp only [Call.exec, run, bind_apply, getSim, hi, Bool.not_false, if_true]
        rw [e]
        exact mid_simInit cfg t _ ih
  | user sig _ ih => exact .other _ ih rfl rfl rfl

end Pooya
