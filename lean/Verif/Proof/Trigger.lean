import Verif.Proof.Carry
import Verif.Proof.Quiet
import Verif.Proof.TiedRun
import Verif.Spec.Trigger

/-! Triggered integrators, in debug builds. -/

namespace Pooya

set_option linter.unusedSectionVars false

variable {K : Type} [Arith K] {t : K}

/-- Assigned signals keep their values. -/
def Kept (w w' : World K) : Prop := ∀ s, (w.sig s).assigned = true → w'.sig s = w.sig s

instance : PreO (Kept (K := K)) where
  refl _ := fun _ _ => rfl
  trans := by
    intro a b c h h' s hs
    rw [h' s (by rw [h s hs]; exact hs), h s hs]

theorem kept_of_sig {α : Type} {x : M K α} (h : ∀ w, (stateOf (x w)).sig = w.sig) : Moves Kept x := fun w s _ => by rw [h w]

theorem kept_setv (s : SigId) (v : Val K) : Moves Kept (setv true s v) := by
  intro w s' hs'
  unfold setv
  split
  · rfl
  · split
    · rfl
    · split
      · rfl
      · rename_i h _
        show upd w.sig s _ s' = _
        by_cases e : s' = s
        · subst e; simp [hs'] at h
        · simp [upd, e]

theorem kept_getv (s : SigId) : Moves Kept (getv true s : M K (Val K)) := moves_getv true s
theorem kept_getMem (b : BlkId) : Moves (Kept (K := K)) (getMem b) := fun _ _ _ => rfl
theorem kept_setMem (b : BlkId) (m : Mem K) : Moves Kept (setMem b m) := fun _ _ _ => rfl

theorem kept_getAll (ss : List SigId) : Moves Kept (getAll true ss : M K (List (Val K))) := by
  induction ss with
  | nil => exact Moves.pure _
  | cons s ss ih => exact Moves.bind (kept_getv s) (fun _ => Moves.bind ih (fun _ => Moves.pure _))

theorem kept_setAll (ss : List SigId) (vs : List (Option (Val K))) : Moves Kept (setAll true ss vs : M K Unit) := by
  induction ss generalizing vs with
  | nil => cases vs <;> exact Moves.pure _
  | cons s ss ih =>
    cases vs with
    | nil => exact Moves.pure _
    | cons v vs =>
      cases v with
      | none => exact ih vs
      | some v => exact Moves.bind (kept_setv s v) (fun _ => ih vs)

theorem kept_foldIns (op : Val K → Val K → Except Err (Val K)) (acc : Val K) (ss : List SigId) :
    Moves Kept (foldIns true op acc ss : M K (Val K)) := by
  induction ss generalizing acc with
  | nil => exact Moves.pure _
  | cons s ss ih => exact Moves.bind (kept_getv s) (fun _ => Moves.bind (Moves.lift _) (fun _ => ih _))

theorem kept_getScalar (s : SigId) : Moves Kept (getScalar true s : M K K) := by
  refine Moves.bind (kept_getv s) (fun v => ?_)
  cases v <;> first | exact Moves.pure _ | exact Moves.throw _

theorem kept_getBool (s : SigId) : Moves Kept (getBool true s : M K Bool) := by
  refine Moves.bind (kept_getv s) (fun v => ?_)
  cases v <;> first | exact Moves.pure _ | exact Moves.throw _

theorem kept_vecAt {α : Type} (l : List α) (i : Nat) : Moves (Kept (K := K)) (vecAt l i) := by
  unfold vecAt
  split
  · exact Moves.pure _
  · exact Moves.throw _

theorem kept_delayAct (b : BlkId) (t : K) (d i o : SigId) : Moves Kept (delayAct true b t d i o : M K Unit) := by
  refine Moves.bind (kept_getMem _) (fun m => ?_)
  split
  · exact Moves.bind (kept_getv _) (fun _ => kept_setv _ _)
  · refine Moves.bind (kept_getScalar _) (fun _ => ?_)
    dsimp only
    split
    · exact Moves.bind (kept_getv _) (fun _ => kept_setv _ _)
    · split
      · split
        · exact kept_setv _ _
        · exact Moves.throw _
      · split
        · exact Moves.throw _
        · exact Moves.bind (kept_vecAt _ _) (fun _ => Moves.bind (kept_vecAt _ _) (fun _ => Moves.bind (kept_vecAt _ _) (fun _ =>
            Moves.bind (kept_vecAt _ _) (fun _ => Moves.bind (Moves.lift _) (fun _ => kept_setv _ _)))))

theorem kept_derivAct (b : BlkId) (t : K) (x o : SigId) : Moves Kept (derivAct true b t x o : M K Unit) := by
  refine Moves.bind (kept_getMem _) (fun m => ?_)
  split
  · exact Moves.bind (kept_setMem _ _) (fun _ => Moves.bind (kept_getv _) (fun _ => Moves.bind (kept_setMem _ _) (fun _ => kept_setv _ _)))
  · split
    · exact Moves.throw _
    · split
      · exact kept_setv _ _
      · refine Moves.bind (kept_getv _) (fun _ => ?_)
        split
        · exact Moves.throw _
        · exact Moves.bind (Moves.lift _) (fun _ => kept_setv _ _)

/-- In debug builds an activation function does not change signals that are assigned. -/
theorem kept_act (l : Leaf K) (t : K) : Moves Kept (l.act true t) := by
  refine Moves.bind (fun _ _ _ => rfl) (fun _ => ?_)
  unfold Leaf.actBody
  split
  · exact kept_setv _ _
  · exact Moves.bind (Moves.lift _) (fun _ => kept_setv _ _)
  · exact Moves.bind (kept_setAll _ _) (fun _ => Moves.throwOpt _)
  · exact Moves.bind (kept_getv _) (fun _ => Moves.bind (Moves.lift _) (fun _ => kept_setv _ _))
  · exact Moves.bind (kept_foldIns _ _ _) (fun _ => kept_setv _ _)
  · exact Moves.bind (kept_foldIns _ _ _) (fun _ => kept_setv _ _)
  · exact Moves.bind (kept_getv _) (fun _ => Moves.bind (kept_getv _) (fun _ => Moves.bind (Moves.lift _) (fun _ => kept_setv _ _)))
  · exact Moves.bind (kept_getv _) (fun _ => Moves.bind (kept_getv _) (fun _ => Moves.bind (Moves.lift _) (fun _ => kept_setv _ _)))
  · exact Moves.bind (kept_getv _) (fun _ => kept_setv _ _)
  · exact Moves.bind (kept_getMem _) (fun _ => kept_setv _ _)
  · exact kept_delayAct _ _ _ _ _
  · exact kept_derivAct _ _ _ _
  · exact Moves.pure _
  · refine Moves.bind (kept_getMem _) (fun m => ?_)
    split
    · exact Moves.pure _
    · exact Moves.bind (kept_getBool _) (fun _ => kept_setMem _ _)
  · exact Moves.bind (kept_getv _) (fun _ => Moves.bind (Moves.lift _) (fun _ => kept_setv _ _))
  · exact Moves.bind (kept_getAll _) (fun _ => Moves.bind (Moves.lift _) (fun _ => kept_setv _ _))
  · exact Moves.bind (kept_getAll _) (fun _ => Moves.bind (kept_setAll _ _) (fun _ => Moves.throwOpt _))
  · exact Moves.pure _
  · exact Moves.bind (kept_getMem _) (fun _ => Moves.bind (kept_getAll _) (fun _ => Moves.bind (Moves.lift _) (fun _ =>
      Moves.bind (kept_setMem _ _) (fun _ => kept_setAll _ _))))

theorem acts_kept {w w' : World K} {ls : List (Leaf K)} (h : Acts true t w ls w') : Kept w w' := by
  induction h with
  | nil hf => intro s _; rw [hf.sig]
  | @cons l w w0 w1 w' ls hf h1 _ ih =>
    have := kept_act l t w0
    rw [h1] at this
    have this : Kept w0 w1 := this
    have h0 : Kept w w0 := fun s _ => by rw [hf.sig]
    exact PreO.trans h0 (PreO.trans this ih)

theorem getBool_ok {s : SigId} {b : Bool} {w w' : World K} (h : getBool true s w = .ok b w') :
    w' = w ∧ (w.sig s).assigned = true ∧ (w.sig s).value = some (.bool b) := by
  unfold getBool at h
  obtain ⟨v, w3, h5, h6⟩ := ok_bind h
  obtain ⟨e1, e2⟩ := getv_ok h5
  subst e1
  have ha : (w3.sig s).assigned = true := by
    unfold getv at h5
    split at h5
    · cases h5
    · rename_i hn
      simpa using hn
  cases v with
  | bool b' => cases h6; exact ⟨rfl, ha, e2⟩
  | int _ => cases h6
  | scalar _ => cases h6
  | array _ => cases h6

/-- Whether a reset is pending after an activation of the block, in terms of the trigger. -/
theorem trig_act {l : Leaf K} {x tr o : SigId} (hk : l.kind = .trigInt x tr o) {w w' : World K} (h : l.act true t w = .ok () w') :
    ∃ b, w'.mem l.id = { w.mem l.id with triggered := b } ∧ w'.sig = w.sig ∧
      ((w.mem l.id).triggered = true ∧ b = true ∨ (w.sig tr).assigned = true ∧ (w.sig tr).value = some (.bool b)) := by
  rw [act_apply] at h
  unfold Leaf.actBody at h
  rw [hk] at h
  obtain ⟨m, w1, h1, h2⟩ := ok_bind h
  cases h1
  have h2 : (if (w.mem l.id).triggered = true then pure () else getBool true tr >>= fun b => setMem l.id { w.mem l.id with triggered := b })
    { w with log := .act l.id t :: w.log } = .ok () w' := h2
  cases ht : (w.mem l.id).triggered with
  | true =>
    rw [ht, if_pos rfl] at h2
    cases h2
    refine ⟨true, ?_, rfl, .inl ⟨rfl, rfl⟩⟩
    show w.mem l.id = { w.mem l.id with triggered := true }
    rw [← ht]
  | false =>
    rw [ht, if_neg (by simp)] at h2
    obtain ⟨b, w2, h3, h4⟩ := ok_bind h2
    obtain ⟨e1, e2, e3⟩ := getBool_ok h3
    subst e1
    cases h4
    exact ⟨b, by simp [upd], rfl, .inr ⟨e2, e3⟩⟩

variable {cfg : Config K}

/-- `reset_with_state_variables` assigns the state variables. -/
theorem reset_asg {x : List K} {m m' : Machine K} {s : SigId} (hs : m.Tracks s) (h : resetWith cfg x m = .ok () m') : (m'.w.sig s).assigned = true := by
  obtain ⟨w1, w2, w3, d, h1, h2, h3, rfl⟩ := resetWith_ok h
  obtain ⟨hs, hn⟩ := hs
  rw [List.nodup_append] at hn
  obtain ⟨n1, n2, n3⟩ := hn
  obtain ⟨a, g1, g2, g3, g4⟩ := writeScalars_ok n1 h2
  obtain ⟨b, r, k1, k2, k3, k4⟩ := writeArrays_ok n2 h3
  show (w3.sig s).assigned = true
  rcases List.mem_append.1 hs with hs | hs
  · rw [k3 s (fun hc => n3 s hs s hc rfl)]
    obtain ⟨i, rfl⟩ := List.get_of_mem hs
    rw [List.forall₂_iff_get] at g2
    exact (g2.2 i.1 i.2 (by rw [← g2.1]; exact i.2)).2
  · obtain ⟨i, rfl⟩ := List.get_of_mem hs
    rw [List.forall₂_iff_get] at k2
    exact (k2.2 i.1 i.2 (by rw [← k2.1]; exact i.2)).2

theorem Machine.Tracks.fixed {m m' : Machine K} {s : SigId} (h : m.Tracks s) (hf : Fixed m m') : m'.Tracks s := by
  unfold Machine.Tracks
  rw [hf.scalarStates, hf.arrayStates]
  exact h

/-- The pending reset after an evaluation, by its parts. -/
theorem eval_trig (hdbg : cfg.dbg = true) (hp : cfg.model.Proper) {l : Leaf K} (hl : l ∈ cfg.model.leaves) {x tr o : SigId}
    (hk : l.kind = .trigInt x tr o) (hreq : ∀ s, l.Requires s → s = tr ∨ s = o) {q : Bool} {m m3 m' : Machine K} (hm : Mid cfg m) (hf : Full cfg m)
    (ho : (m.w.sig o).assigned = true) (h3 : evalModel cfg t m = .ok () m3)
    (h4 : if q then ∃ w4, cfg.model.postStep cfg.dbg t m3.w = .ok () w4 ∧ m' = { m3 with w := w4 } else m' = m3) :
    ∃ b, (m'.w.mem l.id).triggered = b ∧ (b = true ↔ (m.w.mem l.id).triggered = true ∨ m'.fires tr) := by
  have hs : l.state = some o := by unfold Leaf.state; rw [hk]
  obtain ⟨ls, a1, a2, a3, a4, a5⟩ := eval_acts hp hm h3
  have hsig : m'.w.sig = m3.w.sig ∧ (m'.w.mem l.id).triggered = (m3.w.mem l.id).triggered := by
    cases q with
    | false => rw [if_neg (by simp)] at h4; rw [h4]; exact ⟨rfl, rfl⟩
    | true =>
      rw [if_pos rfl] at h4
      obtain ⟨w4, h4, rfl⟩ := h4
      obtain ⟨v, _, g2⟩ := postStep_integ hp hl hs h4
      refine ⟨postStep_sig h4, ?_⟩
      show (w4.mem l.id).triggered = _
      rw [g2]
  have hfire : m'.fires tr ↔ m3.fires tr := by unfold Machine.fires Machine.value; rw [hsig.1]
  rw [hfire]
  refine ⟨_, rfl, ?_⟩
  rw [hsig.2]
  have a1 : Acts true t m.w ls m3.w := by rw [← hdbg]; exact a1
  by_cases hmem : l ∈ ls
  · obtain ⟨l1, l2, wa, wb, e, g1, g2, g3⟩ := a1.split hmem
    obtain ⟨b, b1, b2, b3⟩ := trig_act hk g2
    have hn1 : l.id ∉ l1.map Leaf.id ∧ l.id ∉ l2.map Leaf.id := by
      rw [e, List.map_append, List.map_cons, List.nodup_append] at a2
      refine ⟨fun hc => a2.2.2 _ hc _ (List.mem_cons_self ..) rfl, (List.nodup_cons.1 a2.2.1).1⟩
    have m1 := g1.mem hn1.1
    have m2 := g3.mem hn1.2
    rw [m2, b1]
    rw [m1] at b3
    show b = true ↔ _
    rcases b3 with ⟨c1, c2⟩ | ⟨c1, c2⟩
    · simp [c1, c2]
    · have ek : m3.w.sig tr = wa.sig tr := by
        rw [acts_kept g3 tr (by rw [b2]; exact c1), b2]
      have : m3.fires tr ↔ b = true := by
        unfold Machine.fires Machine.value
        rw [ek, c2]
        cases b <;> simp [c1]
      rw [this]
      refine ⟨.inr, fun hc => hc.elim (fun ht => ?_) id⟩
      -- already pending: then the trigger was not read
      rw [act_apply] at g2
      unfold Leaf.actBody at g2
      rw [hk] at g2
      obtain ⟨mm, w5, k1, k2⟩ := ok_bind g2
      cases k1
      have k2 : (if (wa.mem l.id).triggered = true then pure () else getBool true tr >>= fun b => setMem l.id { wa.mem l.id with triggered := b })
        { wa with log := .act l.id t :: wa.log } = .ok () wb := k2
      rw [m1, if_pos ht] at k2
      cases k2
      have : (wa.mem l.id).triggered = b := by
        have := congrArg Mem.triggered b1
        exact this
      rw [← this, m1]; exact ht
  · have e : m3.w.mem l.id = m.w.mem l.id := a1.mem (fun hc => by
      obtain ⟨l', hl', e⟩ := List.mem_map.1 hc
      exact hmem (leaf_eq hp (a3 l' hl') hl e ▸ hl'))
    rw [e]
    refine ⟨.inl, fun hc => hc.elim id (fun hfi => ?_)⟩
    refine (hmem ?_).elim
    by_cases hst : cfg.strategy = .fast
    · rw [a5 hst]; exact hf hst l hl
    · refine a4 hst l hl (by rw [hk]; simp) (fun s hs => ?_)
      rcases hreq s hs with e | e
      · rw [e]; exact hfi.1
      · rw [e, acts_kept a1 o ho]; exact ho

/-- The pending reset after an evaluation. -/
theorem process_trig (hdbg : cfg.dbg = true) (hp : cfg.model.Proper) {l : Leaf K} (hl : l ∈ cfg.model.leaves) {x tr o : SigId}
    (hk : l.kind = .trigInt x tr o) (hreq : ∀ s, l.Requires s → s = tr ∨ s = o) {q : Bool} {m m' : Machine K} (hm : Mid cfg m) (hf : Full cfg m)
    (ho : (m.w.sig o).assigned = true) (h : processModel cfg t false q m = .ok () m') :
    ∃ b, (m'.w.mem l.id).triggered = b ∧ (b = true ↔ (m.w.mem l.id).triggered = true ∨ m'.fires tr) := by
  obtain ⟨w1, w2, m3, h1, h2, h3, h4⟩ := processModel_ok h
  rw [if_neg (by simp)] at h2
  subst h2
  have := eval_trig (m := { m with w := w2 }) hdbg hp hl hk hreq (mid_of ((covers_mid cfg).inputs t) hm (by show inW _ m = _; unfold inW; rw [h1])) hf ((inputs_asg h1).2 o ho) h3 h4
  rw [inputs_mem h1] at this
  exact this

/-- The pending reset after an evaluation with `pre_step`. -/
theorem process_trig_pre (hdbg : cfg.dbg = true) (hp : cfg.model.Proper) {l : Leaf K} (hl : l ∈ cfg.model.leaves) {x tr o : SigId}
    (hk : l.kind = .trigInt x tr o) (hreq : ∀ s, l.Requires s → s = tr ∨ s = o) (hd : ∀ l' ∈ cfg.model.leaves, o ∈ l'.preOuts → l'.id = l.id) {q : Bool} {m m' : Machine K} (hm : Mid cfg m) (hf : Full cfg m)
    (h : processModel cfg t true q m = .ok () m') :
    ∃ b, (m'.w.mem l.id).triggered = b ∧ (b = true ↔ (l.afterPre (m.w.mem l.id)).triggered = true ∨ m'.fires tr) := by
  have hs : l.state = some o := by unfold Leaf.state; rw [hk]
  obtain ⟨w1, w2, m3, h1, h2, h3, h4⟩ := processModel_ok h
  rw [if_pos rfl] at h2
  obtain ⟨p1, _, p3⟩ := preStep_integ hp hl hs hd h2
  have hm1 : Mid cfg { m with w := w1 } := mid_of ((covers_mid cfg).inputs t) hm (by show inW _ m = _; unfold inW; rw [h1])
  have hm2 : Mid cfg { m with w := w2 } := mid_of ((covers_mid cfg).pre t) hm1 (by show inW _ _ = _; unfold inW; dsimp only; rw [h2])
  have := eval_trig (m := { m with w := w2 }) hdbg hp hl hk hreq hm2 hf p1 h3 h4
  rw [p3, inputs_mem h1] at this
  exact this

end Pooya
