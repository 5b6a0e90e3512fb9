import Verif.Model.Engine
import Verif.Proof.Monad

/-!
Frame judgements for effects on the diagram.

`Frame O b x`: whatever happens, `x` changes only signals in `O`, the members of block `b`, and never
un-assigns a signal.
`Rel dbg R S b x y`: from two worlds that look the same on the signals in `S` and on block `b`, with the
signals in `R` assigned, `x` and `y` have the same outcome and end in worlds that look the same.
-/

namespace Pooya

variable {K : Type}

/-- The final world of an outcome. -/
def outW {σ α : Type} : EStateM.Result Err σ α → σ
  | .ok _ s => s
  | .error _ s => s

@[simp] theorem outW_ok {σ α : Type} (a : α) (s : σ) : outW (.ok a s : EStateM.Result Err σ α) = s := rfl
@[simp] theorem outW_error {σ α : Type} (e : Err) (s : σ) :
    outW (.error e s : EStateM.Result Err σ α) = s := rfl

/-! ## Unary frame -/

structure Within (O : SigId → Prop) (b : BlkId) (w w' : World K) : Prop where
  sig : ∀ s, ¬ O s → w'.sig s = w.sig s
  ty : ∀ s, (w'.sig s).ty = (w.sig s).ty
  mono : ∀ s, (w.sig s).assigned = true → (w'.sig s).assigned = true
  mem : ∀ c, c ≠ b → w'.mem c = w.mem c
  done : w'.done = w.done
  log : w'.log = w.log

theorem Within.refl (O : SigId → Prop) (b : BlkId) (w : World K) : Within O b w w :=
  ⟨fun _ _ => rfl, fun _ => rfl, fun _ h => h, fun _ _ => rfl, rfl, rfl⟩

theorem Within.trans {O : SigId → Prop} {b : BlkId} {w w' w'' : World K} (h : Within O b w w')
    (h' : Within O b w' w'') : Within O b w w'' :=
  ⟨fun s hs => (h'.sig s hs).trans (h.sig s hs), fun s => (h'.ty s).trans (h.ty s),
   fun s hs => h'.mono s (h.mono s hs), fun c hc => (h'.mem c hc).trans (h.mem c hc),
   h'.done.trans h.done, h'.log.trans h.log⟩

def Frame {α : Type} (O : SigId → Prop) (b : BlkId) (x : M K α) : Prop :=
  ∀ w, Within O b w (outW (x w))

namespace Frame
variable {α β : Type} {O : SigId → Prop} {b : BlkId} {dbg : Bool}

theorem pure (a : α) : Frame O b (Pure.pure a : M K α) := fun w => Within.refl O b w

theorem throw (e : Err) : Frame O b (throwE e : M K α) := fun w => Within.refl O b w

theorem lift (x : Except Err α) : Frame O b (liftE x : M K α) := by
  intro w; cases x <;> exact Within.refl O b w

theorem bind {x : M K α} {f : α → M K β} (hx : Frame O b x) (hf : ∀ a, Frame O b (f a)) :
    Frame O b (x >>= f) := by
  intro w
  rw [bind_apply]
  have h := hx w
  cases hxw : x w with
  | ok a w1 =>
    rw [hxw] at h
    exact h.trans (hf a w1)
  | error e w1 =>
    rw [hxw] at h
    exact h

theorem getv (s : SigId) : Frame O b (Pooya.getv dbg s : M K (Val K)) := by
  intro w
  have : outW (Pooya.getv dbg s w) = w := by
    simp only [Pooya.getv]; split
    · rfl
    · split <;> rfl
  rw [this]; exact Within.refl O b w

theorem setv {s : SigId} (hs : O s) (v : Val K) : Frame O b (Pooya.setv dbg s v : M K Unit) := by
  intro w
  simp only [Pooya.setv]
  split
  · exact Within.refl O b w
  · split
    · exact Within.refl O b w
    · split
      · exact Within.refl O b w
      · refine ⟨fun s' hs' => ?_, fun s' => ?_, fun s' h => ?_, fun _ _ => rfl, rfl, rfl⟩
        · have : s' ≠ s := fun e => hs' (e ▸ hs)
          simp [upd, this]
        · by_cases e : s' = s <;> simp [upd, e]
        · by_cases e : s' = s <;> simp [upd, e, h]

theorem assigned (s : SigId) : Frame O b (Pooya.assigned s : M K Bool) := fun w => Within.refl O b w
theorem getMem (c : BlkId) : Frame O b (Pooya.getMem c : M K (Mem K)) := fun w => Within.refl O b w
theorem getDone (c : BlkId) : Frame O b (Pooya.getDone c : M K Bool) := fun w => Within.refl O b w

theorem setMem (m : Mem K) : Frame O b (Pooya.setMem b m : M K Unit) := by
  intro w
  refine ⟨fun _ _ => rfl, fun _ => rfl, fun _ h => h, fun c hc => ?_, rfl, rfl⟩
  simp [Pooya.setMem, upd, hc]

theorem debugVerify (c : Bool) (e : Exc) : Frame O b (Pooya.debugVerify dbg c e : M K Unit) := by
  intro w
  simp only [Pooya.debugVerify]; split <;> exact Within.refl O b w

theorem getScalar (s : SigId) : Frame O b (Pooya.getScalar dbg s : M K K) := by
  refine bind (getv s) (fun v => ?_)
  cases v <;> first | exact pure _ | exact throw _

theorem getBool (s : SigId) : Frame O b (Pooya.getBool dbg s : M K Bool) := by
  refine bind (getv s) (fun v => ?_)
  cases v <;> first | exact pure _ | exact throw _

theorem getAll (ss : List SigId) : Frame O b (Pooya.getAll dbg ss : M K (List (Val K))) := by
  induction ss with
  | nil => exact pure _
  | cons s ss ih => exact bind (getv s) (fun v => bind ih (fun vs => pure _))

theorem setAll {ss : List SigId} (hs : ∀ s ∈ ss, O s) (vs : List (Option (Val K))) :
    Frame O b (Pooya.setAll dbg ss vs : M K Unit) := by
  induction ss generalizing vs with
  | nil => cases vs <;> exact pure _
  | cons s ss ih =>
    cases vs with
    | nil => exact pure _
    | cons v vs =>
      cases v with
      | none => exact ih (fun s hs' => hs s (by simp [hs'])) vs
      | some v => exact bind (setv (hs s (by simp)) v) (fun _ => ih (fun s hs' => hs s (by simp [hs'])) vs)

theorem throwOpt (o : Option Err) : Frame O b (Pooya.throwOpt o : M K Unit) := by
  cases o with
  | none => exact pure _
  | some e => exact throw e

theorem vecAt (l : List α) (i : Nat) : Frame O b (Pooya.vecAt l i : M K α) := by
  simp only [Pooya.vecAt]; split
  · exact pure _
  · exact throw _

theorem foldIns [Arith K] (op : Val K → Val K → Except Err (Val K)) (acc : Val K) (ss : List SigId) :
    Frame O b (Pooya.foldIns dbg op acc ss : M K (Val K)) := by
  induction ss generalizing acc with
  | nil => exact pure _
  | cons s ss ih => exact bind (getv s) (fun v => bind (lift _) (fun a => ih a))

end Frame

/-! ## Relational frame -/

/-- Two cells that no build can tell apart as long as unassigned values are not read. -/
structure CellEq (c1 c2 : Cell K) : Prop where
  ty : c1.ty = c2.ty
  assigned : c1.assigned = c2.assigned
  value : c1.assigned = true → c1.value = c2.value

theorem CellEq.refl (c : Cell K) : CellEq c c := ⟨rfl, rfl, fun _ => rfl⟩
theorem CellEq.symm {c1 c2 : Cell K} (h : CellEq c1 c2) : CellEq c2 c1 :=
  ⟨h.ty.symm, h.assigned.symm, fun h' => (h.value (h.assigned.trans h')).symm⟩
theorem CellEq.trans {c1 c2 c3 : Cell K} (h : CellEq c1 c2) (h' : CellEq c2 c3) : CellEq c1 c3 :=
  ⟨h.ty.trans h'.ty, h.assigned.trans h'.assigned,
   fun e => (h.value e).trans (h'.value (h.assigned ▸ e))⟩

structure Alike (R S : SigId → Prop) (b : BlkId) (w1 w2 : World K) : Prop where
  cell : ∀ s, S s → CellEq (w1.sig s) (w2.sig s)
  asg : ∀ s, R s → (w1.sig s).assigned = true
  mem : w1.mem b = w2.mem b

/-- Same result and worlds that look the same. -/
inductive OutRel {σ α : Type} (P : σ → σ → Prop) :
    EStateM.Result Err σ α → EStateM.Result Err σ α → Prop
  | ok (a : α) {w1 w2 : σ} : P w1 w2 → OutRel P (.ok a w1) (.ok a w2)
  | error (e : Err) {w1 w2 : σ} : P w1 w2 → OutRel P (.error e w1) (.error e w2)

theorem OutRel.ok_inv {σ α : Type} {P : σ → σ → Prop} {a : α} {w1 : σ} {r : EStateM.Result Err σ α}
    (h : OutRel P (.ok a w1) r) : ∃ w2, r = .ok a w2 ∧ P w1 w2 := by
  cases h with
  | ok _ hp => exact ⟨_, rfl, hp⟩

theorem OutRel.error_inv {σ α : Type} {P : σ → σ → Prop} {e : Err} {w1 : σ} {r : EStateM.Result Err σ α}
    (h : OutRel P (.error e w1) r) : ∃ w2, r = .error e w2 ∧ P w1 w2 := by
  cases h with
  | error _ hp => exact ⟨_, rfl, hp⟩

def Rel {α : Type} (R S : SigId → Prop) (b : BlkId) (x : M K α) : Prop :=
  ∀ w1 w2, Alike R S b w1 w2 → OutRel (Alike R S b) (x w1) (x w2)

namespace Rel
variable {α β : Type} {R S : SigId → Prop} {b : BlkId} {dbg : Bool}

theorem pure (a : α) : Rel R S b (Pure.pure a : M K α) := fun _ _ h => .ok a h
theorem throw (e : Err) : Rel R S b (throwE e : M K α) := fun _ _ h => .error e h
theorem lift (x : Except Err α) : Rel R S b (liftE x : M K α) := by
  intro w1 w2 h; cases x
  · exact .error _ h
  · exact .ok _ h

theorem bind {x : M K α} {f : α → M K β} (hx : Rel R S b x) (hf : ∀ a, Rel R S b (f a)) :
    Rel R S b (x >>= f) := by
  intro w1 w2 h
  rw [bind_apply, bind_apply]
  have := hx w1 w2 h
  cases h1 : x w1 with
  | ok a w1' =>
    rw [h1] at this
    obtain ⟨w2', h2, hp⟩ := this.ok_inv
    rw [h2]
    exact hf a w1' w2' hp
  | error e w1' =>
    rw [h1] at this
    obtain ⟨w2', h2, hp⟩ := this.error_inv
    rw [h2]
    exact .error e hp

theorem getv {s : SigId} (hS : S s) (hR : dbg = true ∨ R s) : Rel R S b (Pooya.getv dbg s : M K (Val K)) := by
  intro w1 w2 h
  have hc := h.cell s hS
  simp only [Pooya.getv]
  by_cases ha : (w1.sig s).assigned = true
  · have ha2 : (w2.sig s).assigned = true := hc.assigned ▸ ha
    have hv := hc.value ha
    simp only [ha, ha2, Bool.not_true, Bool.and_false, hv]
    simp only [Bool.false_eq_true, if_false]
    cases (w2.sig s).value with
    | none => exact .error _ h
    | some v => exact .ok _ h
  · have hd : dbg = true := by
      rcases hR with h1 | h1
      · exact h1
      · exact (ha (h.asg s h1)).elim
    have ha1 : (w1.sig s).assigned = false := by simpa using ha
    have ha2 : (w2.sig s).assigned = false := hc.assigned ▸ ha1
    simp only [ha1, ha2, hd]
    exact .error _ h

theorem setv {s : SigId} (hS : S s) (v : Val K) : Rel R S b (Pooya.setv dbg s v : M K Unit) := by
  intro w1 w2 h
  have hc := h.cell s hS
  simp only [Pooya.setv]
  rw [← hc.ty, ← hc.assigned]
  split
  · exact .error _ h
  · split
    · exact .error _ h
    · split
      · exact .error _ h
      · refine .ok _ ⟨fun s' hs' => ?_, fun s' hs' => ?_, h.mem⟩
        · by_cases e : s' = s
          · subst e; simp only [upd, if_true]; exact ⟨rfl, rfl, fun _ => rfl⟩
          · simp only [upd, e, if_false]; exact h.cell s' hs'
        · by_cases e : s' = s
          · subst e; simp [upd]
          · simp only [upd, e, if_false]; exact h.asg s' hs'

theorem assigned {s : SigId} (hS : S s) : Rel R S b (Pooya.assigned s : M K Bool) := by
  intro w1 w2 h
  have := (h.cell s hS).assigned
  simp only [Pooya.assigned, this]
  exact .ok _ h

theorem getMem : Rel R S b (Pooya.getMem b : M K (Mem K)) := by
  intro w1 w2 h
  simp only [Pooya.getMem, h.mem]
  exact .ok _ h

theorem setMem (m : Mem K) : Rel R S b (Pooya.setMem b m : M K Unit) := by
  intro w1 w2 h
  exact .ok _ ⟨h.cell, h.asg, by simp [upd]⟩

theorem emit (e : Event K) : Rel R S b (Pooya.emit e : M K Unit) :=
  fun _ _ h => .ok _ ⟨h.cell, h.asg, h.mem⟩

theorem debugVerify (c : Bool) (e : Exc) : Rel R S b (Pooya.debugVerify dbg c e : M K Unit) := by
  intro w1 w2 h
  simp only [Pooya.debugVerify]; split
  · exact .error _ h
  · exact .ok _ h

theorem getScalar {s : SigId} (hS : S s) (hR : dbg = true ∨ R s) :
    Rel R S b (Pooya.getScalar dbg s : M K K) := by
  refine bind (getv hS hR) (fun v => ?_)
  cases v <;> first | exact pure _ | exact throw _

theorem getBool {s : SigId} (hS : S s) (hR : dbg = true ∨ R s) :
    Rel R S b (Pooya.getBool dbg s : M K Bool) := by
  refine bind (getv hS hR) (fun v => ?_)
  cases v <;> first | exact pure _ | exact throw _

theorem getAll {ss : List SigId} (hs : ∀ s ∈ ss, S s ∧ (dbg = true ∨ R s)) :
    Rel R S b (Pooya.getAll dbg ss : M K (List (Val K))) := by
  induction ss with
  | nil => exact pure _
  | cons s ss ih =>
    exact bind (getv (hs s (by simp)).1 (hs s (by simp)).2)
      (fun v => bind (ih (fun s h => hs s (by simp [h]))) (fun vs => pure _))

theorem setAll {ss : List SigId} (hs : ∀ s ∈ ss, S s) (vs : List (Option (Val K))) :
    Rel R S b (Pooya.setAll dbg ss vs : M K Unit) := by
  induction ss generalizing vs with
  | nil => cases vs <;> exact pure _
  | cons s ss ih =>
    cases vs with
    | nil => exact pure _
    | cons v vs =>
      cases v with
      | none => exact ih (fun s hs' => hs s (by simp [hs'])) vs
      | some v => exact bind (setv (hs s (by simp)) v) (fun _ => ih (fun s hs' => hs s (by simp [hs'])) vs)

theorem throwOpt (o : Option Err) : Rel R S b (Pooya.throwOpt o : M K Unit) := by
  cases o with
  | none => exact pure _
  | some e => exact throw e

theorem vecAt (l : List α) (i : Nat) : Rel R S b (Pooya.vecAt l i : M K α) := by
  simp only [Pooya.vecAt]; split
  · exact pure _
  · exact throw _

theorem foldIns [Arith K] (op : Val K → Val K → Except Err (Val K)) (acc : Val K) {ss : List SigId}
    (hs : ∀ s ∈ ss, S s ∧ (dbg = true ∨ R s)) :
    Rel R S b (Pooya.foldIns dbg op acc ss : M K (Val K)) := by
  induction ss generalizing acc with
  | nil => exact pure _
  | cons s ss ih =>
    exact bind (getv (hs s (by simp)).1 (hs s (by simp)).2)
      (fun v => bind (lift _) (fun a => ih a (fun s h => hs s (by simp [h]))))

end Rel

/-! ## The step functions of the leaf classes -/

section
set_option linter.unusedSectionVars false

variable [Arith K] {dbg : Bool}

theorem frame_delayAct {O : SigId → Prop} (b : BlkId) (t : K) (d i o : SigId) (ho : O o) :
    Frame O b (delayAct dbg b t d i o : M K Unit) := by
  refine Frame.bind (Frame.getMem b) (fun m => ?_)
  split
  · exact Frame.bind (Frame.getv i) (fun v => Frame.setv ho v)
  · refine Frame.bind (Frame.getScalar d) (fun x => ?_)
    dsimp only
    split
    · exact Frame.bind (Frame.getv i) (fun v => Frame.setv ho v)
    · split
      · split
        · exact Frame.setv ho _
        · exact Frame.throw _
      · split
        · exact Frame.throw _
        · exact Frame.bind (Frame.vecAt _ _) (fun _ => Frame.bind (Frame.vecAt _ _) (fun _ =>
            Frame.bind (Frame.vecAt _ _) (fun _ => Frame.bind (Frame.vecAt _ _) (fun _ =>
              Frame.bind (Frame.lift _) (fun v => Frame.setv ho v)))))

theorem rel_delayAct {R S : SigId → Prop} (b : BlkId) (t : K) (d i o : SigId) (ho : S o)
    (hd : S d ∧ (dbg = true ∨ R d)) (hi : S i ∧ (dbg = true ∨ R i)) :
    Rel R S b (delayAct dbg b t d i o : M K Unit) := by
  refine Rel.bind Rel.getMem (fun m => ?_)
  split
  · exact Rel.bind (Rel.getv hi.1 hi.2) (fun v => Rel.setv ho v)
  · refine Rel.bind (Rel.getScalar hd.1 hd.2) (fun x => ?_)
    dsimp only
    split
    · exact Rel.bind (Rel.getv hi.1 hi.2) (fun v => Rel.setv ho v)
    · split
      · split
        · exact Rel.setv ho _
        · exact Rel.throw _
      · split
        · exact Rel.throw _
        · exact Rel.bind (Rel.vecAt _ _) (fun _ => Rel.bind (Rel.vecAt _ _) (fun _ =>
            Rel.bind (Rel.vecAt _ _) (fun _ => Rel.bind (Rel.vecAt _ _) (fun _ =>
              Rel.bind (Rel.lift _) (fun v => Rel.setv ho v)))))

theorem frame_delayPost {O : SigId → Prop} (b : BlkId) (t ls : K) (x : SigId) :
    Frame O b (delayPost dbg b t ls x : M K Unit) := by
  refine Frame.bind (Frame.getMem b) (fun m => ?_)
  dsimp only
  split
  · exact Frame.throw _
  · exact Frame.bind (Frame.setMem _) (fun _ => Frame.bind (Frame.debugVerify _ _) (fun _ =>
      Frame.bind (Frame.setMem _) (fun _ => Frame.bind (Frame.getv _) (fun _ => Frame.setMem _))))

theorem rel_delayPost {R S : SigId → Prop} (b : BlkId) (t ls : K) (x : SigId)
    (hx : S x ∧ (dbg = true ∨ R x)) : Rel R S b (delayPost dbg b t ls x : M K Unit) := by
  refine Rel.bind Rel.getMem (fun m => ?_)
  dsimp only
  split
  · exact Rel.throw _
  · exact Rel.bind (Rel.setMem _) (fun _ => Rel.bind (Rel.debugVerify _ _) (fun _ =>
      Rel.bind (Rel.setMem _) (fun _ => Rel.bind (Rel.getv hx.1 hx.2) (fun _ => Rel.setMem _))))

theorem frame_derivAct {O : SigId → Prop} (b : BlkId) (t : K) (x o : SigId) (ho : O o) :
    Frame O b (derivAct dbg b t x o : M K Unit) := by
  refine Frame.bind (Frame.getMem b) (fun m => ?_)
  split
  · exact Frame.bind (Frame.setMem _) (fun _ => Frame.bind (Frame.getv _) (fun _ =>
      Frame.bind (Frame.setMem _) (fun _ => Frame.setv ho _)))
  · split
    · exact Frame.throw _
    · split
      · exact Frame.setv ho _
      · refine Frame.bind (Frame.getv _) (fun v => ?_)
        split
        · exact Frame.throw _
        · exact Frame.bind (Frame.lift _) (fun _ => Frame.setv ho _)

theorem rel_derivAct {R S : SigId → Prop} (b : BlkId) (t : K) (x o : SigId) (ho : S o)
    (hx : S x ∧ (dbg = true ∨ R x)) : Rel R S b (derivAct dbg b t x o : M K Unit) := by
  refine Rel.bind Rel.getMem (fun m => ?_)
  split
  · exact Rel.bind (Rel.setMem _) (fun _ => Rel.bind (Rel.getv hx.1 hx.2) (fun _ =>
      Rel.bind (Rel.setMem _) (fun _ => Rel.setv ho _)))
  · split
    · exact Rel.throw _
    · split
      · exact Rel.setv ho _
      · refine Rel.bind (Rel.getv hx.1 hx.2) (fun v => ?_)
        split
        · exact Rel.throw _
        · exact Rel.bind (Rel.lift _) (fun _ => Rel.setv ho _)

theorem frame_derivPost {O : SigId → Prop} (b : BlkId) (t : K) (x : SigId) :
    Frame O b (derivPost dbg b t x : M K Unit) :=
  Frame.bind (Frame.getMem b) (fun _ => Frame.bind (Frame.setMem _) (fun _ =>
    Frame.bind (Frame.getv _) (fun _ => Frame.setMem _)))

theorem rel_derivPost {R S : SigId → Prop} (b : BlkId) (t : K) (x : SigId)
    (hx : S x ∧ (dbg = true ∨ R x)) : Rel R S b (derivPost dbg b t x : M K Unit) :=
  Rel.bind Rel.getMem (fun _ => Rel.bind (Rel.setMem _) (fun _ =>
    Rel.bind (Rel.getv hx.1 hx.2) (fun _ => Rel.setMem _)))

theorem frame_integPre {O : SigId → Prop} (b : BlkId) (o : SigId) (ho : O o) :
    Frame O b (integPre dbg b o : M K Unit) :=
  Frame.bind (Frame.assigned _) (fun _ => Frame.bind (Frame.debugVerify _ _) (fun _ =>
    Frame.bind (Frame.getMem b) (fun _ => Frame.setv ho _)))

theorem rel_integPre {R S : SigId → Prop} (b : BlkId) (o : SigId) (ho : S o) :
    Rel R S b (integPre dbg b o : M K Unit) :=
  Rel.bind (Rel.assigned ho) (fun _ => Rel.bind (Rel.debugVerify _ _) (fun _ =>
    Rel.bind Rel.getMem (fun _ => Rel.setv ho _)))

theorem frame_integPost {O : SigId → Prop} (b : BlkId) (o : SigId) :
    Frame O b (integPost dbg b o : M K Unit) :=
  Frame.bind (Frame.assigned _) (fun _ => Frame.bind (Frame.debugVerify _ _) (fun _ =>
    Frame.bind (Frame.getv _) (fun _ => Frame.bind (Frame.getMem b) (fun _ => Frame.setMem _))))

theorem rel_integPost {R S : SigId → Prop} (b : BlkId) (o : SigId) (ho : S o)
    (hx : dbg = true ∨ R o) : Rel R S b (integPost dbg b o : M K Unit) :=
  Rel.bind (Rel.assigned ho) (fun _ => Rel.bind (Rel.debugVerify _ _) (fun _ =>
    Rel.bind (Rel.getv ho hx) (fun _ => Rel.bind Rel.getMem (fun _ => Rel.setMem _))))

theorem frame_actBody (dbg : Bool) (l : Leaf K) (t : K) : Frame (· ∈ l.outs) l.id (l.actBody dbg t) := by
  have hO : ∀ s, s ∈ l.outs → s ∈ l.kind.outs := fun _ h => h
  unfold Leaf.actBody
  have hin : ∀ s, s ∈ l.kind.outs → (· ∈ l.outs) s := fun _ h => h
  split <;> rename_i hk <;> rw [hk] at hin
  · exact Frame.setv (hin _ (by simp [Kind.outs])) _
  · exact Frame.bind (Frame.lift _) (fun _ => Frame.setv (hin _ (by simp [Kind.outs])) _)
  · exact Frame.bind (Frame.setAll hin _) (fun _ => Frame.throwOpt _)
  · exact Frame.bind (Frame.getv _) (fun _ => Frame.bind (Frame.lift _) (fun _ =>
      Frame.setv (hin _ (by simp [Kind.outs])) _))
  · exact Frame.bind (Frame.foldIns _ _ _) (fun _ => Frame.setv (hin _ (by simp [Kind.outs])) _)
  · exact Frame.bind (Frame.foldIns _ _ _) (fun _ => Frame.setv (hin _ (by simp [Kind.outs])) _)
  · exact Frame.bind (Frame.getv _) (fun _ => Frame.bind (Frame.getv _) (fun _ =>
      Frame.bind (Frame.lift _) (fun _ => Frame.setv (hin _ (by simp [Kind.outs])) _)))
  · exact Frame.bind (Frame.getv _) (fun _ => Frame.bind (Frame.getv _) (fun _ =>
      Frame.bind (Frame.lift _) (fun _ => Frame.setv (hin _ (by simp [Kind.outs])) _)))
  · exact Frame.bind (Frame.getv _) (fun _ => Frame.setv (hin _ (by simp [Kind.outs])) _)
  · exact Frame.bind (Frame.getMem _) (fun _ => Frame.setv (hin _ (by simp [Kind.outs])) _)
  · exact frame_delayAct _ _ _ _ _ (hin _ (by simp [Kind.outs]))
  · exact frame_derivAct _ _ _ _ (hin _ (by simp [Kind.outs]))
  · exact Frame.pure _
  · refine Frame.bind (Frame.getMem _) (fun m => ?_)
    split
    · exact Frame.pure _
    · exact Frame.bind (Frame.getBool _) (fun _ => Frame.setMem _)
  · exact Frame.bind (Frame.getv _) (fun _ => Frame.bind (Frame.lift _) (fun _ =>
      Frame.setv (hin _ (by simp [Kind.outs])) _))
  · exact Frame.bind (Frame.getAll _) (fun _ => Frame.bind (Frame.lift _) (fun _ =>
      Frame.setv (hin _ (by simp [Kind.outs])) _))
  · exact Frame.bind (Frame.getAll _) (fun _ => Frame.bind (Frame.setAll hin _) (fun _ => Frame.throwOpt _))
  · exact Frame.pure _
  · exact Frame.bind (Frame.getMem _) (fun _ => Frame.bind (Frame.getAll _) (fun _ =>
      Frame.bind (Frame.lift _) (fun _ => Frame.bind (Frame.setMem _) (fun _ => Frame.setAll hin _))))

/-- An activation function depends only on the signals it reads and writes and on its own members. -/
theorem rel_actBody (dbg : Bool) (l : Leaf K) (t : K) {R S : SigId → Prop}
    (hr : ∀ s ∈ l.reads, S s ∧ (dbg = true ∨ R s)) (ho : ∀ s ∈ l.outs, S s) :
    Rel R S l.id (l.actBody dbg t) := by
  unfold Leaf.actBody
  simp only [Leaf.reads, Leaf.outs] at hr ho
  split <;> rename_i hk <;> rw [hk] at hr ho
  · exact Rel.setv (ho _ (by simp [Kind.outs])) _
  · exact Rel.bind (Rel.lift _) (fun _ => Rel.setv (ho _ (by simp [Kind.outs])) _)
  · exact Rel.bind (Rel.setAll ho _) (fun _ => Rel.throwOpt _)
  · have h := hr _ (by simp [Kind.reads]; rfl)
    exact Rel.bind (Rel.getv h.1 h.2) (fun _ => Rel.bind (Rel.lift _) (fun _ =>
      Rel.setv (ho _ (by simp [Kind.outs])) _))
  · exact Rel.bind (Rel.foldIns _ _ hr) (fun _ => Rel.setv (ho _ (by simp [Kind.outs])) _)
  · exact Rel.bind (Rel.foldIns _ _ hr) (fun _ => Rel.setv (ho _ (by simp [Kind.outs])) _)
  · rename_i x1 x2 o
    have h1 := hr x1 (by simp [Kind.reads])
    have h2 := hr x2 (by simp [Kind.reads])
    exact Rel.bind (Rel.getv h1.1 h1.2) (fun _ => Rel.bind (Rel.getv h2.1 h2.2) (fun _ =>
      Rel.bind (Rel.lift _) (fun _ => Rel.setv (ho _ (by simp [Kind.outs])) _)))
  · rename_i x1 x2 o
    have h1 := hr x1 (by simp [Kind.reads])
    have h2 := hr x2 (by simp [Kind.reads])
    exact Rel.bind (Rel.getv h1.1 h1.2) (fun _ => Rel.bind (Rel.getv h2.1 h2.2) (fun _ =>
      Rel.bind (Rel.lift _) (fun _ => Rel.setv (ho _ (by simp [Kind.outs])) _)))
  · have h := hr _ (by simp [Kind.reads]; rfl)
    exact Rel.bind (Rel.getv h.1 h.2) (fun _ => Rel.setv (ho _ (by simp [Kind.outs])) _)
  · exact Rel.bind Rel.getMem (fun _ => Rel.setv (ho _ (by simp [Kind.outs])) _)
  · rename_i ls x d i o
    exact rel_delayAct _ _ _ _ _ (ho _ (by simp [Kind.outs])) (hr d (by simp [Kind.reads]))
      (hr i (by simp [Kind.reads]))
  · exact rel_derivAct _ _ _ _ (ho _ (by simp [Kind.outs])) (hr _ (by simp [Kind.reads]))
  · exact Rel.pure _
  · have h := hr _ (by simp [Kind.reads]; rfl)
    refine Rel.bind Rel.getMem (fun m => ?_)
    split
    · exact Rel.pure _
    · exact Rel.bind (Rel.getBool h.1 h.2) (fun _ => Rel.setMem _)
  · have h := hr _ (by simp [Kind.reads]; rfl)
    exact Rel.bind (Rel.getv h.1 h.2) (fun _ => Rel.bind (Rel.lift _) (fun _ =>
      Rel.setv (ho _ (by simp [Kind.outs])) _))
  · exact Rel.bind (Rel.getAll hr) (fun _ => Rel.bind (Rel.lift _) (fun _ =>
      Rel.setv (ho _ (by simp [Kind.outs])) _))
  · exact Rel.bind (Rel.getAll hr) (fun _ => Rel.bind (Rel.setAll ho _) (fun _ => Rel.throwOpt _))
  · exact Rel.pure _
  · exact Rel.bind Rel.getMem (fun _ => Rel.bind (Rel.getAll hr) (fun _ =>
      Rel.bind (Rel.lift _) (fun _ => Rel.bind (Rel.setMem _) (fun _ => Rel.setAll ho _))))

theorem frame_preBody (dbg : Bool) (l : Leaf K) (t : K) :
    Frame (· ∈ l.preOuts) l.id (l.preBody dbg t) := by
  have hin : ∀ s, s ∈ l.kind.preOuts → (· ∈ l.preOuts) s := fun _ h => h
  unfold Leaf.preBody
  split
  · rename_i hk; rw [hk] at hin
    exact frame_integPre _ _ (hin _ (by simp [Kind.preOuts]))
  · rename_i hk; rw [hk] at hin
    refine Frame.bind (Frame.getMem _) (fun m => ?_)
    dsimp only
    split
    · exact Frame.bind (Frame.setMem _) (fun _ => frame_integPre _ _ (hin _ (by simp [Kind.preOuts])))
    · exact frame_integPre _ _ (hin _ (by simp [Kind.preOuts]))
  · rename_i hk; rw [hk] at hin
    exact Frame.bind (Frame.getMem _) (fun _ => Frame.bind (Frame.lift _) (fun _ =>
      Frame.bind (Frame.setMem _) (fun _ => Frame.setAll hin _)))
  · exact Frame.pure _

theorem rel_preBody (dbg : Bool) (l : Leaf K) (t : K) {R S : SigId → Prop}
    (ho : ∀ s ∈ l.preOuts, S s) : Rel R S l.id (l.preBody dbg t) := by
  unfold Leaf.preBody
  simp only [Leaf.preOuts] at ho
  split
  · rename_i hk; rw [hk] at ho
    exact rel_integPre _ _ (ho _ (by simp [Kind.preOuts]))
  · rename_i hk; rw [hk] at ho
    refine Rel.bind Rel.getMem (fun m => ?_)
    dsimp only
    split
    · exact Rel.bind (Rel.setMem _) (fun _ => rel_integPre _ _ (ho _ (by simp [Kind.preOuts])))
    · exact rel_integPre _ _ (ho _ (by simp [Kind.preOuts]))
  · rename_i hk; rw [hk] at ho
    exact Rel.bind Rel.getMem (fun _ => Rel.bind (Rel.lift _) (fun _ =>
      Rel.bind (Rel.setMem _) (fun _ => Rel.setAll ho _)))
  · exact Rel.pure _

theorem frame_postBody (dbg : Bool) (l : Leaf K) (t : K) :
    Frame (fun _ => False) l.id (l.postBody dbg t) := by
  unfold Leaf.postBody
  split
  · exact Frame.bind (Frame.getv _) (fun _ => Frame.bind (Frame.getMem _) (fun _ => Frame.setMem _))
  · exact frame_delayPost _ _ _ _
  · exact frame_derivPost _ _ _
  · exact frame_integPost _ _
  · exact frame_integPost _ _
  · exact Frame.bind (Frame.getMem _) (fun _ => Frame.bind (Frame.getAll _) (fun _ =>
      Frame.bind (Frame.lift _) (fun _ => Frame.setMem _)))
  · exact Frame.pure _

theorem rel_postBody (dbg : Bool) (l : Leaf K) (t : K) {R S : SigId → Prop}
    (hr : ∀ s ∈ l.postReads, S s ∧ (dbg = true ∨ R s)) : Rel R S l.id (l.postBody dbg t) := by
  unfold Leaf.postBody
  simp only [Leaf.postReads] at hr
  split
  · rename_i hk; rw [hk] at hr
    have h := hr _ (by simp [Kind.postReads]; rfl)
    exact Rel.bind (Rel.getv h.1 h.2) (fun _ => Rel.bind Rel.getMem (fun _ => Rel.setMem _))
  · rename_i hk; rw [hk] at hr
    exact rel_delayPost _ _ _ _ (hr _ (by simp [Kind.postReads]))
  · rename_i hk; rw [hk] at hr
    exact rel_derivPost _ _ _ (hr _ (by simp [Kind.postReads]))
  · rename_i hk; rw [hk] at hr
    have h := hr _ (by simp [Kind.postReads]; rfl)
    exact rel_integPost _ _ h.1 h.2
  · rename_i hk; rw [hk] at hr
    have h := hr _ (by simp [Kind.postReads]; rfl)
    exact rel_integPost _ _ h.1 h.2
  · rename_i hk; rw [hk] at hr
    exact Rel.bind Rel.getMem (fun _ => Rel.bind (Rel.getAll hr) (fun _ =>
      Rel.bind (Rel.lift _) (fun _ => Rel.setMem _)))
  · exact Rel.pure _

theorem act_apply (dbg : Bool) (l : Leaf K) (t : K) (w : World K) :
    l.act dbg t w = l.actBody dbg t { w with log := .act l.id t :: w.log } := rfl

theorem pre_apply (dbg : Bool) (l : Leaf K) (t : K) (w : World K) :
    l.pre dbg t w = l.preBody dbg t { w with log := .pre l.id t :: w.log } := rfl

theorem post_apply (dbg : Bool) (l : Leaf K) (t : K) (w : World K) :
    l.post dbg t w = l.postBody dbg t { w with log := .post l.id t :: w.log } := rfl

end
end Pooya
