import Verif.Spec.Quiet
import Verif.Proof.Carry

/-! Trial steps and blocks that change their members only in `post_step`. -/

namespace Pooya

set_option linter.unusedSectionVars false

variable {K : Type} [Arith K] {cfg : Config K}

theorem mem_getv (dbg : Bool) (s : SigId) : Moves SameMem (getv dbg s : M K (Val K)) := moves_getv dbg s

theorem mem_setv (dbg : Bool) (s : SigId) (v : Val K) : Moves SameMem (setv dbg s v : M K Unit) := moves_setv dbg s v (fun _ => rfl)

theorem mem_getAll (dbg : Bool) (ss : List SigId) : Moves SameMem (getAll dbg ss : M K (List (Val K))) := by
  induction ss with
  | nil => exact Moves.pure _
  | cons s ss ih => exact Moves.bind (mem_getv dbg s) (fun _ => Moves.bind ih (fun _ => Moves.pure _))

theorem mem_setAll (dbg : Bool) (ss : List SigId) (vs : List (Option (Val K))) : Moves SameMem (setAll dbg ss vs : M K Unit) := by
  induction ss generalizing vs with
  | nil => unfold setAll; exact Moves.pure _
  | cons s ss ih =>
    cases vs with
    | nil => unfold setAll; exact Moves.pure _
    | cons v vs =>
      cases v with
      | none => exact ih vs
      | some v => exact Moves.bind (mem_setv dbg s v) (fun _ => ih vs)

theorem mem_foldIns (dbg : Bool) (op : Val K → Val K → Except Err (Val K)) (acc : Val K) (ss : List SigId) :
    Moves SameMem (foldIns dbg op acc ss : M K (Val K)) := by
  induction ss generalizing acc with
  | nil => exact Moves.pure _
  | cons s ss ih => exact Moves.bind (mem_getv dbg s) (fun _ => Moves.bind (Moves.lift _) (fun _ => ih _))

theorem mem_getScalar (dbg : Bool) (s : SigId) : Moves SameMem (getScalar dbg s : M K K) := by
  refine Moves.bind (mem_getv dbg s) (fun v => ?_)
  cases v <;> first | exact Moves.pure _ | exact Moves.throw _

theorem mem_vecAt {α : Type} (l : List α) (i : Nat) : Moves (SameMem (K := K)) (vecAt l i) := by
  unfold vecAt
  split
  · exact Moves.pure _
  · exact Moves.throw _

theorem mem_getMem (b : BlkId) : Moves (SameMem (K := K)) (getMem b) := fun _ => rfl

theorem mem_delayAct (dbg : Bool) (b : BlkId) (t : K) (d i o : SigId) : Moves SameMem (delayAct dbg b t d i o : M K Unit) := by
  unfold delayAct
  refine Moves.bind (mem_getMem b) (fun m => ?_)
  split
  · exact Moves.bind (mem_getv _ _) (fun _ => mem_setv _ _ _)
  · refine Moves.bind (mem_getScalar _ _) (fun d => ?_)
    dsimp only
    split
    · exact Moves.bind (mem_getv _ _) (fun _ => mem_setv _ _ _)
    · split
      · split
        · exact mem_setv _ _ _
        · exact Moves.throw _
      · split
        · exact Moves.throw _
        · exact Moves.bind (mem_vecAt _ _) (fun _ => Moves.bind (mem_vecAt _ _) (fun _ => Moves.bind (mem_vecAt _ _) (fun _ =>
            Moves.bind (mem_vecAt _ _) (fun _ => Moves.bind (Moves.lift _) (fun _ => mem_setv _ _ _)))))

/-- An activation of a quiet block, whatever its outcome. -/
theorem still_act_leaf (dbg : Bool) (t : K) (l : Leaf K) (w : World K) (h : l.Quiet (w.mem l.id)) : (stateOf (l.act dbg t w)).mem = w.mem := by
  rw [act_apply]
  have key : ∀ {x : M K Unit}, Moves SameMem x → (stateOf (x { w with log := .act l.id t :: w.log })).mem = w.mem := fun hx =>
    hx { w with log := .act l.id t :: w.log }
  unfold Leaf.actBody
  cases hk : l.kind with
  | const v o => exact key (mem_setv _ _ _)
  | source f o => exact key (Moves.bind (Moves.lift _) (fun _ => mem_setv _ _ _))
  | sources f os => exact key (Moves.bind (mem_setAll _ _ _) (fun _ => Moves.throwOpt _))
  | gain k x o => exact key (Moves.bind (mem_getv _ _) (fun _ => Moves.bind (Moves.lift _) (fun _ => mem_setv _ _ _)))
  | add i ins o => exact key (Moves.bind (mem_foldIns _ _ _ _) (fun _ => mem_setv _ _ _))
  | multiply i ins o => exact key (Moves.bind (mem_foldIns _ _ _ _) (fun _ => mem_setv _ _ _))
  | subtract a b o => exact key (Moves.bind (mem_getv _ _) (fun _ => Moves.bind (mem_getv _ _) (fun _ => Moves.bind (Moves.lift _) (fun _ => mem_setv _ _ _))))
  | divide a b o => exact key (Moves.bind (mem_getv _ _) (fun _ => Moves.bind (mem_getv _ _) (fun _ => Moves.bind (Moves.lift _) (fun _ => mem_setv _ _ _))))
  | pipe x o => exact key (Moves.bind (mem_getv _ _) (fun _ => mem_setv _ _ _))
  | memory x o => exact key (Moves.bind (mem_getMem _) (fun _ => mem_setv _ _ _))
  | delay ls x d i o => exact key (mem_delayAct _ _ _ _ _ _)
  | derivative x o =>
    unfold Leaf.Quiet at h
    rw [hk] at h
    dsimp only at h ⊢
    have e : derivAct dbg l.id t x o = (do
        let m ← getMem l.id
        if m.firstStep then
          setMem l.id { m with t := some t }
          let v ← getv dbg x
          setMem l.id { m with t := some t, x := some v }
          setv dbg o m.value
        else
          match m.t with
          | none => throwE (.ub .uninitRead)
          | some t0 =>
            if t0 ==. t then setv dbg o m.value
            else
              let v ← getv dbg x
              match m.x with
              | none => throwE (.ub .uninitRead)
              | some x0 =>
                let d ← liftE (Val.lift2 (fun a b => (a -. b) /. (t -. t0)) v x0)
                setv dbg o d) := rfl
    rw [e, bind_of_ok (a := w.mem l.id) (by rfl)]
    rw [if_neg (by rw [h]; simp)]
    refine key ?_
    split
    · exact Moves.throw _
    · split
      · exact mem_setv _ _ _
      · refine Moves.bind (mem_getv _ _) (fun _ => ?_)
        split
        · exact Moves.throw _
        · exact Moves.bind (Moves.lift _) (fun _ => mem_setv _ _ _)
  | integrator x o => exact key (Moves.pure _)
  | trigInt x tr o => unfold Leaf.Quiet at h; rw [hk] at h; exact h.elim
  | siso f x o => exact key (Moves.bind (mem_getv _ _) (fun _ => Moves.bind (Moves.lift _) (fun _ => mem_setv _ _ _)))
  | so f rs o => exact key (Moves.bind (mem_getAll _ _) (fun _ => Moves.bind (Moves.lift _) (fun _ => mem_setv _ _ _)))
  | func f rs os => exact key (Moves.bind (mem_getAll _ _) (fun _ => Moves.bind (mem_setAll _ _ _) (fun _ => Moves.throwOpt _)))
  | builder => exact key (Moves.pure _)
  | custom c =>
    unfold Leaf.Quiet at h
    rw [hk] at h
    dsimp only at h ⊢
    have ha := h.2
    rw [bind_of_ok (a := w.mem l.id) (by rfl), bind_apply]
    have g1 := key (mem_getAll dbg c.reads |>.bind (fun _ => Moves.pure ()))
    have g2 := mem_getAll dbg c.reads { w with log := .act l.id t :: w.log }
    cases hg : getAll dbg c.reads { w with log := .act l.id t :: w.log } with
    | error e w1 => rw [hg] at g2; exact g2
    | ok vs w1 =>
      rw [hg] at g2
      have g2 : w1.mem = w.mem := g2
      dsimp only
      rw [bind_apply]
      cases hc : c.act t (w.mem l.id).user vs with
      | error e => exact g2
      | ok r =>
        have hu := ha _ _ _ _ hc
        dsimp only [liftE]
        rw [bind_of_ok (a := ()) (by rfl)]
        refine (mem_setAll dbg c.outs r.2 _).trans ?_
        funext b
        show upd w1.mem l.id { w.mem l.id with user := r.1 } b = w.mem b
        rw [hu, g2]
        unfold upd
        split
        · rename_i e; rw [e]
        · rfl

/-- A `pre_step` of a quiet block, whatever its outcome. -/
theorem still_pre_leaf (dbg : Bool) (t : K) (l : Leaf K) (w : World K) (h : l.Quiet (w.mem l.id)) : (stateOf (l.pre dbg t w)).mem = w.mem := by
  rw [pre_apply]
  have key : ∀ {x : M K Unit}, Moves SameMem x → (stateOf (x { w with log := .pre l.id t :: w.log })).mem = w.mem := fun hx =>
    hx { w with log := .pre l.id t :: w.log }
  unfold Leaf.preBody
  cases hk : l.kind with
  | trigInt x tr o => unfold Leaf.Quiet at h; rw [hk] at h; exact h.elim
  | integrator x o =>
    exact key (Moves.bind (fun _ => rfl) (fun _ => Moves.bind (Moves.debugVerify _ _ _) (fun _ => Moves.bind (mem_getMem _) (fun _ => mem_setv _ _ _))))
  | custom c =>
    unfold Leaf.Quiet at h
    rw [hk] at h
    dsimp only at h ⊢
    have ha := h.1
    rw [bind_of_ok (a := w.mem l.id) (by rfl), bind_apply]
    cases hc : c.pre t (w.mem l.id).user with
    | error e => rfl
    | ok r =>
      have hu := ha _ _ _ hc
      dsimp only [liftE]
      rw [bind_of_ok (a := ()) (by rfl)]
      refine (mem_setAll dbg c.preOuts r.2 _).trans ?_
      funext b
      show upd w.mem l.id { w.mem l.id with user := r.1 } b = w.mem b
      rw [hu]
      unfold upd
      split
      · rename_i e; rw [e]
      · rfl
  | _ => exact key (Moves.pure _)

/-- The members of the block `l` do not change as long as it is quiet. -/
def Still (l : Leaf K) (w w' : World K) : Prop := l.Quiet (w.mem l.id) → w'.mem l.id = w.mem l.id

instance (l : Leaf K) : PreO (Still l) where
  refl _ _ := rfl
  trans h h' hq := (h' (by rw [h hq]; exact hq)).trans (h hq)

theorem still_of_mem {α : Type} {x : M K α} (l : Leaf K) (h : Moves SameMem x) : Moves (Still l) x := fun w _ => congrFun (h w) l.id

theorem still_act (hp : cfg.model.Proper) {l l' : Leaf K} (hl : l ∈ cfg.model.leaves) (hl' : l' ∈ cfg.model.leaves) (dbg : Bool) (t : K) :
    Moves (Still l) (l'.act dbg t) := by
  intro w hq
  by_cases e : l.id = l'.id
  · have := leaf_eq hp hl hl' e
    subst this
    exact congrFun (still_act_leaf dbg t l w hq) l.id
  · have := moves_act (T := fun w w' => w'.mem l.id = w.mem l.id) dbg t l' (fun w w' h => h.mem l.id e) w
    exact this

theorem still_pre (hp : cfg.model.Proper) {l l' : Leaf K} (hl : l ∈ cfg.model.leaves) (hl' : l' ∈ cfg.model.leaves) (dbg : Bool) (t : K) :
    Moves (Still l) (l'.pre dbg t) := by
  intro w hq
  by_cases e : l.id = l'.id
  · have := leaf_eq hp hl hl' e
    subst this
    exact congrFun (still_pre_leaf dbg t l w hq) l.id
  · have := moves_pre (T := fun w w' => w'.mem l.id = w.mem l.id) dbg t l' (fun w w' h => h.mem l.id e) w
    exact this

/-- Between the parts of a trial step the members of the block `l` are `μ`. -/
def At (cfg : Config K) (l : Leaf K) (μ : Mem K) (m : Machine K) : Prop := Mid cfg m ∧ m.w.mem l.id = μ

theorem at_of_still {l : Leaf K} {μ : Mem K} (hq : l.Quiet μ) {α : Type} {x : MM K α} (hk : Moves (KeepMid cfg) x)
    (hs : ∀ m, Mid cfg m → Still l m.w (stateOf (x m)).w) : Tri (At cfg l μ) x (fun _ => At cfg l μ) (fun _ => At cfg l μ) := by
  intro m hm
  have h1 := hk m hm.1
  have h2 := hs m hm.1 (by rw [hm.2]; exact hq)
  cases hx : x m with
  | ok a m' => rw [hx] at h1 h2; exact ⟨h1, h2.trans hm.2⟩
  | error e m' => rw [hx] at h1 h2; exact ⟨h1, h2.trans hm.2⟩

theorem still_inW {l : Leaf K} {α : Type} {x : M K α} (h : Moves (Still l) x) (m : Machine K) : Still l m.w (stateOf (inW x m)).w :=
  (Moves.inW h m).1

section
variable (hp : cfg.model.Proper) {l : Leaf K} (hl : l ∈ cfg.model.leaves) {μ : Mem K} (hq : l.Quiet μ)
include hp hl hq

theorem at_inputs (t : K) : Tri (At cfg l μ) (inW (callInputs cfg t)) (fun _ => At cfg l μ) (fun _ => At cfg l μ) :=
  at_of_still hq ((covers_mid cfg).inputs t) (fun m _ => still_inW (still_of_mem l (moves_callInputs cfg t (fun _ => rfl) (fun _ _ _ _ => rfl))) m)

theorem at_pre (t : K) : Tri (At cfg l μ) (inW (cfg.model.preStep cfg.dbg t)) (fun _ => At cfg l μ) (fun _ => At cfg l μ) :=
  at_of_still hq ((covers_mid cfg).pre t) (fun m _ => still_inW (moves_preStep _ _ _ (fun _ hl' => still_pre hp hl hl' _ _)) m)

theorem at_eval (t : K) : Tri (At cfg l μ) (evalModel cfg t) (fun _ => At cfg l μ) (fun _ => At cfg l μ) :=
  at_of_still hq (fun _ hm => .eval t hm) (fun _ hm => (moves_eval (T := Still l) cfg (mid_inv cfg hp hm) t
    (fun _ hl' => still_act hp hl hl' _ _) (fun _ _ _ _ _ => rfl)).1)

theorem at_process (t : K) (p : Bool) : Tri (At cfg l μ) (processModel cfg t p false) (fun _ => At cfg l μ) (fun _ => At cfg l μ) := by
  unfold processModel
  refine Tri.bind (at_inputs hp hl hq t) (fun _ => ?_)
  dsimp only
  have h2 : Tri (At cfg l μ) (do
      evalModel cfg t
      if (false : Bool) = true then inW (cfg.model.postStep cfg.dbg t) else Pure.pure ()) (fun _ => At cfg l μ) (fun _ => At cfg l μ) :=
    Tri.bind (at_eval hp hl hq t) (fun _ => by rw [if_neg (by simp)]; exact Tri.pure (fun _ h => h))
  split
  · exact Tri.bind (at_pre hp hl hq t) (fun _ => h2)
  · exact h2

theorem at_reset (x : List K) : Tri (At cfg l μ) (resetWith cfg x) (fun _ => At cfg l μ) (fun _ => At cfg l μ) := by
  refine at_of_still hq ((covers_mid cfg).reset x) (fun m _ => ?_)
  have : Moves (onW SameMem) (resetWith cfg x) := Moves.bind Moves.getSim (fun s => Moves.bind (Moves.inW (moves_clearAll _ (fun _ _ _ => rfl)))
    (fun _ => Moves.bind (Moves.inW (moves_writeScalars _ _ _ (fun _ _ _ _ => rfl))) (fun d => Moves.inW (moves_writeArrays _ _ _ (fun _ _ _ _ => rfl)))))
  exact fun _ => congrFun (this m).1 l.id

theorem at_getStates : Tri (At cfg l μ) (getStates cfg) (fun _ => At cfg l μ) (fun _ => At cfg l μ) := by
  refine at_of_still hq (covers_mid cfg).getStates (fun m _ => ?_)
  have : Moves (onW SameMem) (getStates cfg) := by
    unfold getStates
    refine Moves.bind Moves.getSim (fun s => Moves.bind (Moves.inW (moves_readScalars _ _)) (fun a => Moves.bind (Moves.inW (moves_readArrays _ _)) (fun b => ?_)))
    split
    · exact Moves.pure _
    · exact Moves.throw _
  exact fun _ => congrFun (this m).1 l.id

theorem at_getDerivs : Tri (At cfg l μ) (getDerivs cfg) (fun _ => At cfg l μ) (fun _ => At cfg l μ) := by
  refine at_of_still hq (covers_mid cfg).getDerivs (fun m _ => ?_)
  have : Moves (onW SameMem) (getDerivs cfg) := by
    unfold getDerivs
    refine Moves.bind Moves.getSim (fun s => ?_)
    split
    · refine Moves.bind (Moves.inW (moves_readScalars _ _)) (fun a => Moves.bind (Moves.inW (moves_readArrays _ _)) (fun b => ?_))
      split
      · exact Moves.pure _
      · exact Moves.throw _
    · exact Moves.throw _
  exact fun _ => congrFun (this m).1 l.id

theorem at_minor (t : K) (x : List K) : Tri (At cfg l μ) (minorCb cfg t x) (fun _ => At cfg l μ) (fun _ => At cfg l μ) :=
  Tri.bind (at_reset hp hl hq x) (fun _ => Tri.bind (at_process hp hl hq t false) (fun _ => at_getDerivs hp hl hq))

theorem at_begin (t : K) : Tri (At cfg l μ) (beginStep cfg t) (fun _ => At cfg l μ) (fun _ => At cfg l μ) := by
  unfold beginStep
  refine Tri.bind (R := fun _ => At cfg l μ) (fun _ h => h) (fun s => ?_)
  refine Tri.bind (R := fun _ => At cfg l μ) (fun m hm => ?_) (fun _ => Tri.bind (at_inputs hp hl hq t) (fun _ =>
    Tri.bind (at_pre hp hl hq t) (fun _ => at_getStates hp hl hq)))
  unfold inW
  rw [clearAll_ok]
  exact ⟨.other _ hm.1 rfl rfl rfl, hm.2⟩

end

/-- A trial step leaves the members of a quiet block alone. -/
theorem trial_still (hp : cfg.model.Proper) {l : Leaf K} (hl : l ∈ cfg.model.leaves) {m m2 : Machine K} {t1 t2 : K} {r : List K × K}
    (hm : Mid cfg m) (hq : l.Quiet (m.w.mem l.id)) (h : Trial cfg t1 t2 m r m2) : Mid cfg m2 ∧ m2.w.mem l.id = m.w.mem l.id := by
  obtain ⟨orig, m1, st, h1, h2, h3⟩ := h.ex
  have g1 : At cfg l (m.w.mem l.id) m1 := tri_ok (at_begin hp hl hq t1) ⟨hm, rfl⟩ h1
  exact tri_ok (Tri.exec (at_minor hp hl hq) _) (s := m1.record (.trial t1 t2)) ⟨.other _ g1.1 rfl rfl rfl, g1.2⟩ h3

end Pooya
