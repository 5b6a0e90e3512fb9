import Verif.Proof.Evolve

/-! Evaluations with `pre_step` and `post_step`, where a `Derivative` may be in its first step. -/

namespace Pooya

set_option linter.unusedSectionVars false

variable {K : Type} [Arith K] {cfg : Config K}

/-- The members `μ'` of the block `l` are the members `μ`, except that a `Derivative` in its first step may have noted time and input. -/
def Settled (l : Leaf K) (μ μ' : Mem K) : Prop :=
  (l.Quiet μ ∧ μ' = μ) ∨ ∃ x o, l.kind = .derivative x o ∧ μ.firstStep = true ∧ ∃ t v, μ' = { μ with t := t, x := v }

theorem Settled.refl {l : Leaf K} (hc : l.Calm) (μ : Mem K) : Settled l μ μ := by
  unfold Leaf.Calm at hc
  unfold Settled Leaf.Quiet
  cases hk : l.kind <;> rw [hk] at hc <;> try exact .inl ⟨by first | trivial | exact hc, rfl⟩
  by_cases hf : μ.firstStep = true
  · exact .inr ⟨_, _, rfl, hf, μ.t, μ.x, rfl⟩
  · exact .inl ⟨by simpa using hf, rfl⟩

theorem Settled.trans {l : Leaf K} {μ1 μ2 μ3 : Mem K} (h : Settled l μ1 μ2) (h' : Settled l μ2 μ3) : Settled l μ1 μ3 := by
  rcases h with ⟨q, rfl⟩ | ⟨x, o, hk, hf, t, v, rfl⟩
  · exact h'
  · rcases h' with ⟨q, rfl⟩ | ⟨x', o', _, _, t', v', rfl⟩
    · exact .inr ⟨x, o, hk, hf, t, v, rfl⟩
    · exact .inr ⟨x, o, hk, hf, t', v', rfl⟩

theorem Settled.stored {l : Leaf K} {t : K} {val : SigId → Option (Val K)} {μ μ' μ'' : Mem K} (h : Settled l μ μ') (hs : l.Stored t val μ' μ'') :
    l.Stored t val μ μ'' := by
  rcases h with ⟨_, rfl⟩ | ⟨x, o, hk, hf, t, v, rfl⟩
  · exact hs
  · unfold Leaf.Stored at hs ⊢
    rw [hk] at hs ⊢
    exact hs

theorem Settled.solved {l : Leaf K} {t : K} {val : SigId → Option (Val K)} {μ μ' : Mem K} (h : Settled l μ μ') (hs : l.Solved t μ' val) : l.Solved t μ val := by
  rcases h with ⟨_, rfl⟩ | ⟨x, o, hk, hf, t, v, rfl⟩
  · exact hs
  · unfold Leaf.Solved at hs ⊢
    rw [hk] at hs ⊢
    simp only [hf, if_true] at hs ⊢
    exact hs

/-- The members of the block `l` settle. -/
def Settles (l : Leaf K) (w w' : World K) : Prop := l.Calm → Settled l (w.mem l.id) (w'.mem l.id)

instance (l : Leaf K) : PreO (Settles l) where
  refl _ hc := .refl hc _
  trans h h' hc := (h hc).trans (h' hc)

theorem settles_of_mem {α : Type} {x : M K α} (l : Leaf K) (h : Moves SameMem x) : Moves (Settles l) x := fun w hc => by
  rw [congrFun (h w) l.id]; exact .refl hc _

theorem settles_derivAct {l : Leaf K} {x o : SigId} (hk : l.kind = .derivative x o) (dbg : Bool) (t : K) (w : World K) (hf : (w.mem l.id).firstStep = true) :
    Settled l (w.mem l.id) ((stateOf (l.act dbg t w)).mem l.id) := by
  refine .inr ⟨x, o, hk, hf, ?_⟩
  rw [act_apply]
  unfold Leaf.actBody
  rw [hk]
  dsimp only
  unfold derivAct
  have hu : ∀ (f : BlkId → Mem K) (a : Mem K), upd f l.id a l.id = a := fun f a => by simp [upd]
  rw [bind_of_ok (a := w.mem l.id) (by rfl), if_pos hf, bind_of_ok (a := ()) (by rfl), bind_apply]
  have g := mem_getv (K := K) dbg x { w with log := .act l.id t :: w.log, mem := upd w.mem l.id { w.mem l.id with t := some t } }
  cases hg : getv dbg x { w with log := .act l.id t :: w.log, mem := upd w.mem l.id { w.mem l.id with t := some t } } with
  | error e w1 =>
    rw [hg] at g
    have g : w1.mem = _ := g
    exact ⟨some t, (w.mem l.id).x, by show w1.mem l.id = _; rw [g]; exact hu _ _⟩
  | ok v w1 =>
    dsimp only
    rw [bind_of_ok (a := ()) (by rfl)]
    have g2 := mem_setv (K := K) dbg o (w.mem l.id).value { w1 with mem := upd w1.mem l.id { w.mem l.id with t := some t, x := some v } }
    exact ⟨some t, some v, by rw [congrFun g2 l.id]; exact hu _ _⟩

theorem settles_act (hp : cfg.model.Proper) {l l' : Leaf K} (hl : l ∈ cfg.model.leaves) (hl' : l' ∈ cfg.model.leaves) (dbg : Bool) (t : K) :
    Moves (Settles l) (l'.act dbg t) := by
  intro w hc
  by_cases e : l.id = l'.id
  · have := leaf_eq hp hl hl' e
    subst this
    rcases Settled.refl hc (w.mem l.id) with ⟨hq, _⟩ | ⟨x, o, hk, hf, _⟩
    · rw [congrFun (still_act_leaf dbg t l w hq) l.id]; exact .refl hc _
    · exact settles_derivAct hk dbg t w hf
  · have := moves_act (T := fun w w' => w'.mem l.id = w.mem l.id) dbg t l' (fun w w' h => h.mem l.id e) w
    rw [this]; exact .refl hc _

theorem settles_pre (hp : cfg.model.Proper) {l l' : Leaf K} (hl : l ∈ cfg.model.leaves) (hl' : l' ∈ cfg.model.leaves) (dbg : Bool) (t : K) :
    Moves (Settles l) (l'.pre dbg t) := by
  intro w hc
  by_cases e : l.id = l'.id
  · have := leaf_eq hp hl hl' e
    subst this
    rcases Settled.refl hc (w.mem l.id) with ⟨hq, _⟩ | ⟨x, o, hk, hf, _⟩
    · rw [congrFun (still_pre_leaf dbg t l w hq) l.id]; exact .refl hc _
    · have : (stateOf (l.pre dbg t w)).mem = w.mem := by
        rw [pre_apply]; unfold Leaf.preBody; rw [hk]; rfl
      rw [this]; exact .refl hc _
  · have := moves_pre (T := fun w w' => w'.mem l.id = w.mem l.id) dbg t l' (fun w w' h => h.mem l.id e) w
    rw [this]; exact .refl hc _

theorem settles_acts (hp : cfg.model.Proper) {l : Leaf K} (hl : l ∈ cfg.model.leaves) {dbg : Bool} {t : K} {w w' : World K} {ls : List (Leaf K)}
    (h : Acts dbg t w ls w') (hls : ∀ l' ∈ ls, l' ∈ cfg.model.leaves) : Settles l w w' := by
  induction h with
  | nil hf => intro hc; rw [hf.mem]; exact .refl hc _
  | @cons l' w w0 w1 w' ls hf ha _ ih =>
    intro hc
    have := settles_act hp hl (hls l' (by simp)) dbg t w0 hc
    rw [ha] at this
    have this : Settled l (w0.mem l.id) (w1.mem l.id) := this
    rw [hf.mem] at this
    exact this.trans (ih (fun l' h => hls l' (by simp [h])) hc)

/-- The parts of an evaluation settle. -/
theorem settles_process (hp : cfg.model.Proper) {l : Leaf K} (hl : l ∈ cfg.model.leaves) (hc : l.Calm) {t : K} {p q : Bool} {m m' : Machine K} (hm : Mid cfg m)
    (h : processModel cfg t p q m = .ok () m') {μ : Mem K} (hs : Settled l μ (m.w.mem l.id)) :
    ∃ m3 : Machine K, Settled l μ (m3.w.mem l.id) ∧ m'.w.sig = m3.w.sig ∧
      (q = true → ∃ w4, cfg.model.postStep cfg.dbg t m3.w = .ok () w4 ∧ m' = { m3 with w := w4 }) := by
  obtain ⟨w1, w2, m3, h1, h2, h3, h4⟩ := processModel_ok h
  have hm1 : Mid cfg { m with w := w1 } := mid_of ((covers_mid cfg).inputs t) hm (by show inW _ m = _; unfold inW; rw [h1])
  have e2 : Settled l μ (w2.mem l.id) ∧ Mid cfg { m with w := w2 } := by
    cases p with
    | false =>
      rw [if_neg (by simp)] at h2
      rw [h2, inputs_mem h1]
      exact ⟨hs, hm1⟩
    | true =>
      rw [if_pos rfl] at h2
      refine ⟨?_, mid_of ((covers_mid cfg).pre t) hm1 (by show inW _ _ = _; unfold inW; dsimp only; rw [h2])⟩
      have := moves_preStep (T := Settles l) cfg.dbg t cfg.model (fun l' hl' => settles_pre hp hl hl' cfg.dbg t) w1 hc
      rw [h2] at this
      have this : Settled l (w1.mem l.id) (w2.mem l.id) := this
      rw [inputs_mem h1] at this
      exact hs.trans this
  refine ⟨m3, ?_, ?_, fun hq => ?_⟩
  · have := (moves_eval (T := Settles l) cfg (mid_inv cfg hp e2.2) t (fun _ hl' => settles_act hp hl hl' _ _) (fun _ _ _ _ hc => .refl hc _)).1 hc
    rw [h3] at this
    exact e2.1.trans this
  · cases q with
    | false => rw [if_neg (by simp)] at h4; rw [h4]
    | true =>
      rw [if_pos rfl] at h4
      obtain ⟨w4, h4, rfl⟩ := h4
      exact postStep_sig h4
  · subst hq
    rw [if_pos rfl] at h4
    exact h4

/-- What the blocks store at the end of an evaluation with `post_step`. -/
theorem process_stored (hd : cfg.dbg = true) (hp : cfg.model.Proper) {l : Leaf K} (hl : l ∈ cfg.model.leaves) (hc : l.Calm) {t : K} {p : Bool} {m m' : Machine K} (hm : Mid cfg m)
    (h : processModel cfg t p true m = .ok () m') {μ : Mem K} (hs : Settled l μ (m.w.mem l.id)) : l.Stored t m'.w.shown μ (m'.w.mem l.id) := by
  obtain ⟨m3, g1, g2, g3⟩ := settles_process hp hl hc hm h hs
  obtain ⟨w4, g4, rfl⟩ := g3 rfl
  obtain ⟨wa, wb, k1, k2, k3, k4⟩ := postStep_leaf hp g4 hl
  rw [hd] at k1
  have := post_stored k1
  rw [k2] at this
  have e : w4.shown = wa.shown := by
    funext s; unfold World.shown; rw [k3, postStep_sig g4]
  show l.Stored t w4.shown μ (w4.mem l.id)
  rw [e, k4]
  exact g1.stored this

/-- The equations of the blocks after an evaluation. -/
theorem process_solved (hd : cfg.dbg = true) (hp : cfg.model.Proper) {l : Leaf K} (hl : l ∈ cfg.model.leaves) (hcal : l.Calm) {t : K} {p q : Bool} {m m' : Machine K} (hm : Mid cfg m)
    (hf : Full cfg m) (h : processModel cfg t p q m = .ok () m') {μ : Mem K} (hset : Settled l μ (m.w.mem l.id)) :
    (∀ s f, (s, f) ∈ l.links → f.isRequired = true → ∃ v, m'.w.shown s = some v) → l.Solved t μ m'.w.shown := by
  intro hreq
  by_cases hk : l.kind = .builder
  · unfold Leaf.Solved; rw [hk]; trivial
  obtain ⟨mem', hv⟩ := C55_evaluation cfg hd hp hm hf h
  obtain ⟨v1, v2⟩ := hv l hl
  have hsol := v2 ⟨hk, fun _ s hr => by
    obtain ⟨f, k1, k2⟩ := hr
    obtain ⟨v, hv⟩ := hreq s f k1 k2
    exact shown_some hv⟩
  unfold C55.Members at v1
  have key : mem' l.id = m.w.mem l.id → l.Solved t μ m'.w.shown := fun e => hset.solved (e ▸ hsol)
  cases hk : l.kind <;> rw [hk] at v1 <;> first | exact key v1 | skip
  · unfold Leaf.Solved; rw [hk]; trivial
  · unfold Leaf.Solved; rw [hk]; trivial
  · cases p with
    | false => exact key v1
    | true =>
      obtain ⟨r, e1, e2⟩ := v1
      unfold Leaf.Calm at hcal
      rw [hk] at hcal
      have := hcal.1 _ _ _ e1
      exact key (by rw [e2, this])

end Pooya
