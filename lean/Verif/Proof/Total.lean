import Verif.Proof.Typed
import Verif.Proof.NoReCall
import Verif.Spec.Total

/-! The blocks of a complete diagram return, except for errors that are excluded elsewhere. -/

namespace Pooya

set_option linter.unusedSectionVars false

variable {K : Type} [Arith K] {cfg : Config K} {ty : SigId → Ty}

/-- Errors that single drivers and types exclude. -/
def Excused (e : Err) : Prop := e = .exc .reassigned ∨ e = .exc .sizeMismatch ∨ ∃ u, e = .ub u

/-- `x` returns, or fails for a reason that is excluded elsewhere. -/
def Lax {α : Type} (P : World K → Prop) (x : M K α) : Prop := Tri P x (fun _ _ => True) (fun e _ => Excused e)

/-- As `Lax`, with the signals `σ`, which `x` does not change; `x` returns something in `Q`. -/
def Looks {α : Type} (σ : SigId → Cell K) (x : M K α) (Q : α → Prop) : Prop :=
  Tri (fun w => w.sig = σ) x (fun a w => w.sig = σ ∧ Q a) (fun e _ => Excused e)

/-- The signals hold values of their types. -/
def Sound (ty : SigId → Ty) (σ : SigId → Cell K) : Prop := ∀ s, (σ s).ty = ty s ∧ (σ s).Fine

namespace Lax
variable {α β : Type} {P : World K → Prop}

theorem mono {P' : World K → Prop} {x : M K α} (h : Lax P x) (hP : ∀ w, P' w → P w) : Lax P' x :=
  Tri.weaken h hP (fun _ _ h => h) (fun _ _ h => h)

theorem all {x : M K α} (h : Lax (fun _ => True) x) : Lax P x := h.mono (fun _ _ => trivial)

theorem pure (a : α) : Lax P (Pure.pure a : M K α) := fun _ _ => trivial

theorem bind {x : M K α} {f : α → M K β} (hx : Lax P x) (hf : ∀ a, Lax (fun _ => True) (f a)) : Lax P (x >>= f) := Tri.bind hx hf

theorem ub (u : Ub) : Lax P (throwE (.ub u) : M K α) := fun _ _ => .inr (.inr ⟨u, rfl⟩)

theorem setv (s : SigId) (v : Val K) : Lax P (Pooya.setv true s v) := by
  intro w _
  unfold Pooya.setv
  by_cases h1 : v.hasTag (w.sig s).ty = true
  · simp only [h1, Bool.not_true, Bool.false_eq_true, if_false, Bool.true_and]
    by_cases h2 : (w.sig s).assigned = true
    · rw [if_pos h2]; exact .inl rfl
    · rw [if_neg h2]
      by_cases h3 : v.sizeOk (w.sig s).ty = true
      · simp only [h3, Bool.not_true, Bool.false_eq_true, if_false]
      · simp only [h3, Bool.not_false, if_true]; exact .inr (.inl rfl)
  · simp only [h1, Bool.not_false, if_true]; exact .inr (.inr ⟨_, rfl⟩)

theorem setAll (ss : List SigId) (vs : List (Option (Val K))) : Lax P (Pooya.setAll true ss vs) := by
  induction ss generalizing vs P with
  | nil => exact pure ()
  | cons s ss ih =>
    match vs with
    | [] => exact pure ()
    | some v :: vs => exact bind (setv s v) (fun _ => ih vs)
    | none :: vs => exact ih vs

theorem setMem (b : BlkId) (m : Mem K) : Lax P (Pooya.setMem b m) := fun _ _ => trivial

end Lax

namespace Looks
variable {α β : Type} {σ : SigId → Cell K}

theorem lax {x : M K α} {Q : α → Prop} (h : Looks σ x Q) : Lax (fun w => w.sig = σ) x := Tri.weaken h (fun _ h => h) (fun _ _ _ => trivial) (fun _ _ h => h)

theorem bind {x : M K α} {f : α → M K β} {Q : α → Prop} {R : β → Prop} (hx : Looks σ x Q) (hf : ∀ a, Q a → Looks σ (f a) R) : Looks σ (x >>= f) R :=
  Tri.bind hx (fun a => Tri.pull (hf a))

theorem bindLax {x : M K α} {f : α → M K β} {Q : α → Prop} (hx : Looks σ x Q) (hf : ∀ a, Q a → Lax (fun w => w.sig = σ) (f a)) :
    Lax (fun w => w.sig = σ) (x >>= f) := Tri.bind hx (fun a => Tri.pull (hf a))

theorem pure {a : α} {Q : α → Prop} (h : Q a) : Looks σ (Pure.pure a : M K α) Q := fun _ hw => ⟨hw, h⟩

theorem ub (u : Ub) {Q : α → Prop} : Looks σ (throwE (.ub u) : M K α) Q := fun _ _ => .inr (.inr ⟨u, rfl⟩)

theorem getv (hσ : Sound ty σ) {s : SigId} (hs : (σ s).assigned = true) : Looks σ (Pooya.getv true s) (fun v => v.Fits (ty s)) := by
  rintro w rfl
  unfold Pooya.getv
  rw [hs]
  simp only [Bool.not_true, Bool.and_false, Bool.false_eq_true, if_false]
  cases hv : (w.sig s).value with
  | none => exact .inr (.inr ⟨_, rfl⟩)
  | some v => exact ⟨rfl, (hσ s).1 ▸ (hσ s).2.fits v hv⟩

theorem liftE {x : Except Err α} {Q : α → Prop} (h : ∀ e, x = .error e → Excused e) (hq : ∀ a, x = .ok a → Q a) : Looks σ (Pooya.liftE x : M K α) Q := by
  cases x with
  | ok a => exact fun _ hw => ⟨hw, hq a rfl⟩
  | error e => exact fun _ _ => h e rfl

theorem liftOk {x : Except Err α} (h : ∃ a, x = .ok a) : Looks σ (Pooya.liftE x : M K α) (fun _ => True) := by
  obtain ⟨a, rfl⟩ := h
  exact fun _ hw => ⟨hw, trivial⟩

theorem getMem (b : BlkId) : Looks σ (Pooya.getMem b) (fun _ => True) := fun _ hw => ⟨hw, trivial⟩
theorem setMem (b : BlkId) (m : Mem K) : Looks σ (Pooya.setMem b m) (fun _ => True) := fun _ hw => ⟨hw, trivial⟩
theorem emit (e : Event K) : Looks σ (Pooya.emit e) (fun _ => True) := fun _ hw => ⟨hw, trivial⟩
theorem assigned (s : SigId) : Looks σ (Pooya.assigned s) (fun a => a = (σ s).assigned) := fun w hw => ⟨hw, by rw [← hw]⟩

theorem verify {c : Bool} (h : c = true) : Looks σ (debugVerify true c .debugVerify : M K Unit) (fun _ => True) := by
  subst h; exact fun _ hw => ⟨hw, trivial⟩

theorem getScalar (hσ : Sound ty σ) {s : SigId} (hs : (σ s).assigned = true) : Looks σ (Pooya.getScalar true s) (fun _ => True) := by
  refine bind (getv hσ hs) (fun v _ => ?_)
  split
  · exact pure trivial
  · exact ub _

theorem getBool (hσ : Sound ty σ) {s : SigId} (hs : (σ s).assigned = true) : Looks σ (Pooya.getBool true s) (fun _ => True) := by
  refine bind (getv hσ hs) (fun v _ => ?_)
  split
  · exact pure trivial
  · exact ub _

theorem getAll (hσ : Sound ty σ) {ss : List SigId} (hs : ∀ s ∈ ss, (σ s).assigned = true) : Looks σ (Pooya.getAll true ss) (ReadAll ty ss) := by
  induction ss with
  | nil => exact pure .nil
  | cons s ss ih => exact bind (getv hσ (hs s (by simp))) (fun v hv => bind (ih (fun s h => hs s (by simp [h]))) (fun vs hvs => pure (.cons hv hvs)))

theorem lift2 (f : K → K → K) (a b : Val K) : Looks σ (Pooya.liftE (Val.lift2 f a b) : M K (Val K)) (fun _ => True) := by
  refine liftE (fun e h => ?_) (fun _ _ => trivial)
  unfold Val.lift2 at h
  split at h
  · cases h
  · split at h
    · cases h
    · cases h; exact .inr (.inr ⟨_, rfl⟩)
  · cases h; exact .inr (.inr ⟨_, rfl⟩)

theorem gain (a b : Val K) : Looks σ (Pooya.liftE (Val.gain a b) : M K (Val K)) (fun _ => True) := by
  refine liftE (fun e h => ?_) (fun _ _ => trivial)
  unfold Val.gain at h
  split at h
  · cases h
  · split at h
    · cases h
    · cases h; exact .inr (.inr ⟨_, rfl⟩)
  · cases h
  · cases h; exact .inr (.inr ⟨_, rfl⟩)

theorem fold (hσ : Sound ty σ) (f : K → K → K) {ss : List SigId} (hs : ∀ s ∈ ss, (σ s).assigned = true) (acc : Val K) :
    Looks σ (foldIns true (Val.lift2 f) acc ss) (fun _ => True) := by
  induction ss generalizing acc with
  | nil => exact pure trivial
  | cons s ss ih => exact bind (getv hσ (hs s (by simp))) (fun v _ => bind (lift2 f acc v) (fun r _ => ih (fun s h => hs s (by simp [h])) r))

theorem vecAt {l : List α} {i : Nat} : Looks σ (Pooya.vecAt l i : M K α) (fun _ => True) := by
  unfold Pooya.vecAt
  split
  · exact pure trivial
  · exact ub _

end Looks

variable {σ : SigId → Cell K}

theorem delayAct_lax (hσ : Sound ty σ) (b : BlkId) (t : K) {d i out : SigId} (hd : (σ d).assigned = true) (hi : (σ i).assigned = true) :
    Lax (fun w => w.sig = σ) (delayAct true b t d i out) := by
  have hini : Lax (fun w => w.sig = σ) (do let v ← getv true i; setv true out v) := Looks.bindLax (Looks.getv hσ hi) (fun v _ => Lax.setv out v)
  refine Looks.bindLax (Looks.getMem b) (fun m _ => ?_)
  split
  · exact hini
  · refine Looks.bindLax (Looks.getScalar hσ hd) (fun dv _ => ?_)
    dsimp only
    split
    · exact hini
    · split
      · split
        · exact Lax.setv _ _
        · exact Lax.ub _
      · split
        · exact Lax.ub _
        · exact Looks.bindLax Looks.vecAt (fun _ _ => Looks.bindLax Looks.vecAt (fun _ _ => Looks.bindLax Looks.vecAt (fun _ _ =>
            Looks.bindLax Looks.vecAt (fun _ _ => Looks.bindLax (Looks.lift2 _ _ _) (fun _ _ => Lax.setv _ _)))))

theorem derivAct_lax (hσ : Sound ty σ) (b : BlkId) (t : K) {x out : SigId} (hx : (σ x).assigned = true) :
    Lax (fun w => w.sig = σ) (derivAct true b t x out) := by
  refine Looks.bindLax (Looks.getMem b) (fun m _ => ?_)
  split
  · exact Looks.bindLax (Looks.setMem _ _) (fun _ _ => Looks.bindLax (Looks.getv hσ hx) (fun v _ => Looks.bindLax (Looks.setMem _ _) (fun _ _ => Lax.setv _ _)))
  · split
    · exact Lax.ub _
    · split
      · exact Lax.setv _ _
      · refine Looks.bindLax (Looks.getv hσ hx) (fun v _ => ?_)
        split
        · exact Lax.ub _
        · exact Looks.bindLax (Looks.lift2 _ _ _) (fun _ _ => Lax.setv _ _)

/-- The activation function of a block whose inputs are assigned. -/
theorem act_lax (hσ : Sound ty σ) {l : Leaf K} (hT : l.Total ty) (hr : ∀ s ∈ l.reads, (σ s).assigned = true) (t : K) :
    Lax (fun w => w.sig = σ) (l.act true t) := by
  refine Looks.bindLax (Looks.emit _) (fun _ _ => ?_)
  unfold Leaf.actBody
  unfold Leaf.reads at hr
  unfold Leaf.Total at hT
  cases hk : l.kind with
  | const v out => exact Lax.setv out v
  | source f out => rw [hk] at hT; exact Looks.bindLax (Looks.liftOk (hT t)) (fun v _ => Lax.setv out v)
  | sources f outs =>
    rw [hk] at hT
    refine Lax.bind (Lax.setAll _ _) (fun _ => ?_)
    have e : (f t).2 = none := hT t
    rw [e]; exact Lax.pure ()
  | gain k x out =>
    rw [hk] at hr
    exact Looks.bindLax (Looks.getv hσ (hr x (by simp [Kind.reads]))) (fun v _ => Looks.bindLax (Looks.gain k v) (fun r _ => Lax.setv out r))
  | add init ins out => rw [hk] at hr; exact Looks.bindLax (Looks.fold hσ _ (fun s hs => hr s hs) _) (fun r _ => Lax.setv out r)
  | multiply init ins out => rw [hk] at hr; exact Looks.bindLax (Looks.fold hσ _ (fun s hs => hr s hs) _) (fun r _ => Lax.setv out r)
  | subtract a b out =>
    rw [hk] at hr
    exact Looks.bindLax (Looks.getv hσ (hr a (by simp [Kind.reads]))) (fun _ _ => Looks.bindLax (Looks.getv hσ (hr b (by simp [Kind.reads])))
      (fun _ _ => Looks.bindLax (Looks.lift2 _ _ _) (fun r _ => Lax.setv out r)))
  | divide a b out =>
    rw [hk] at hr
    exact Looks.bindLax (Looks.getv hσ (hr a (by simp [Kind.reads]))) (fun _ _ => Looks.bindLax (Looks.getv hσ (hr b (by simp [Kind.reads])))
      (fun _ _ => Looks.bindLax (Looks.lift2 _ _ _) (fun r _ => Lax.setv out r)))
  | pipe x out => rw [hk] at hr; exact Looks.bindLax (Looks.getv hσ (hr x (by simp [Kind.reads]))) (fun v _ => Lax.setv out v)
  | memory x out => exact Looks.bindLax (Looks.getMem _) (fun m _ => Lax.setv out _)
  | delay ls x d i out => rw [hk] at hr; exact delayAct_lax hσ _ _ (hr d (by simp [Kind.reads])) (hr i (by simp [Kind.reads]))
  | derivative x out => rw [hk] at hr; exact derivAct_lax hσ _ _ (hr x (by simp [Kind.reads]))
  | integrator x out => exact Lax.pure ()
  | trigInt x tr out =>
    rw [hk] at hr
    refine Looks.bindLax (Looks.getMem _) (fun m _ => ?_)
    split
    · exact Lax.pure ()
    · exact Looks.bindLax (Looks.getBool hσ (hr tr (by simp [Kind.reads]))) (fun b _ => Lax.setMem _ _)
  | siso f x out =>
    rw [hk] at hr hT
    exact Looks.bindLax (Looks.getv hσ (hr x (by simp [Kind.reads]))) (fun v hv => Looks.bindLax (Looks.liftOk (hT t v hv)) (fun r _ => Lax.setv out r))
  | so f rs out =>
    rw [hk] at hr hT
    exact Looks.bindLax (Looks.getAll hσ (fun s hs => hr s hs)) (fun vs hv => Looks.bindLax (Looks.liftOk (hT t vs hv)) (fun r _ => Lax.setv out r))
  | func f rs outs =>
    rw [hk] at hr hT
    refine Looks.bindLax (Looks.getAll hσ (fun s hs => hr s hs)) (fun vs hv => Lax.bind (Lax.setAll _ _) (fun _ => ?_))
    have e : (f t vs).2 = none := hT t vs hv
    rw [e]; exact Lax.pure ()
  | builder => exact Lax.pure ()
  | custom c =>
    rw [hk] at hr hT
    exact Looks.bindLax (Looks.getMem _) (fun m _ => Looks.bindLax (Looks.getAll hσ (fun s hs => hr s hs)) (fun vs hv =>
      Looks.bindLax (Looks.liftOk (hT.2.1 t m.user vs hv)) (fun r _ => Looks.bindLax (Looks.setMem _ _) (fun _ _ => Lax.setAll _ _))))

/-! ### pre_step -/

theorem integPre_lax (b : BlkId) {out : SigId} (h : (σ out).assigned = false) : Lax (fun w => w.sig = σ) (integPre true b out) :=
  Looks.bindLax (Looks.assigned out) (fun a ha => Looks.bindLax (Looks.verify (by rw [ha, h]; rfl)) (fun _ _ => Looks.bindLax (Looks.getMem b) (fun m _ => Lax.setv _ _)))

theorem pre_lax {l : Leaf K} (hT : l.Total ty) (t : K) : Lax (Free (· ∈ l.preOuts)) (l.pre true t) := by
  intro w hw
  have key : Lax (fun w' => w'.sig = w.sig) (l.pre true t) := by
    refine Looks.bindLax (Looks.emit _) (fun _ _ => ?_)
    unfold Leaf.preBody
    unfold Leaf.preOuts at hw
    unfold Leaf.Total at hT
    cases hk : l.kind with
    | integrator x out => rw [hk] at hw; exact integPre_lax _ (hw out (by simp [Kind.preOuts]))
    | trigInt x tr out =>
      rw [hk] at hw
      have h2 := integPre_lax l.id (hw out (by simp [Kind.preOuts]))
      refine Looks.bindLax (Looks.getMem _) (fun m _ => ?_)
      dsimp only
      split
      · exact Looks.bindLax (Looks.setMem _ _) (fun _ _ => h2)
      · exact h2
    | custom c =>
      rw [hk] at hT
      exact Looks.bindLax (Looks.getMem _) (fun m _ => Looks.bindLax (Looks.liftOk (hT.1 t m.user)) (fun r _ => Looks.bindLax (Looks.setMem _ _) (fun _ _ => Lax.setAll _ _)))
    | _ => exact Lax.pure ()
  exact key w rfl

theorem preAll_lax (t : K) (ls : List (Leaf K)) (hT : ∀ l ∈ ls, l.Total ty) (hid : (ls.map Leaf.id).Nodup)
    (hd : ∀ l ∈ ls, ∀ l' ∈ ls, ∀ s, s ∈ l.preOuts → s ∈ l'.preOuts → l.id = l'.id) :
    Lax (Free (fun s => ∃ l ∈ ls, s ∈ l.preOuts)) (preAll true t ls) := by
  induction ls with
  | nil => exact Lax.pure ()
  | cons l ls ih =>
    rw [List.map_cons, List.nodup_cons] at hid
    have ih := ih (fun l hl => hT l (by simp [hl])) hid.2 (fun l hl l' hl' => hd l (by simp [hl]) l' (by simp [hl']))
    refine Tri.bind (R := fun _ => Free (fun s => ∃ l ∈ ls, s ∈ l.preOuts)) ?_ (fun _ => ih)
    refine Tri.free (O := (· ∈ l.preOuts)) (X := fun s => ∃ l ∈ ls, s ∈ l.preOuts) ?_ ?_ ?_ ?_
    · exact (pre_lax (hT l (by simp)) t).mono (fun w h => h.mono (fun s hs => ⟨l, by simp, hs⟩))
    · exact moves_pre true t l (fun w w' h s hs => h.sig s hs)
    · exact fun w h => h.mono (fun s ⟨l, hl, hs⟩ => ⟨l, by simp [hl], hs⟩)
    · rintro s ⟨l', hl', hs'⟩ hs
      exact hid.1 (List.mem_map.2 ⟨l', hl', hd l' (by simp [hl']) l (by simp) s hs' hs⟩)

/-! ### post_step -/

/-- The times recorded by the block are before `t`. -/
def Leaf.Late (l : Leaf K) (t : K) (w : World K) : Prop := l.isDelay = true → ∀ s ∈ (w.mem l.id).ts, (s <. t) = true

theorem delayPost_lax (hσ : Sound ty σ) (b : BlkId) (t ls : K) {x : SigId} (hx : (σ x).assigned = true) :
    Lax (fun w => w.sig = σ ∧ ∀ s ∈ (w.mem b).ts, (s <. t) = true) (delayPost true b t ls x) := by
  rintro w ⟨hw, hl⟩
  have key : Lax (fun w => w.sig = σ) (do
      let k := countBefore (t -. ls) (w.mem b).ts
      if (w.mem b).xs.length < k then throwE (.ub .outOfBounds)
      else
        let ts := (w.mem b).ts.drop k
        let xs := (w.mem b).xs.drop k
        setMem b { w.mem b with ts := ts, xs := xs }
        debugVerify true (match ts.getLast? with | none => true | some l => l <. t) .debugVerify
        setMem b { w.mem b with ts := ts ++ [t], xs := xs }
        let v ← getv true x
        setMem b { w.mem b with ts := ts ++ [t], xs := xs ++ [v] } : M K Unit) := by
    dsimp only
    split
    · exact Lax.ub _
    · refine Looks.bindLax (Looks.setMem _ _) (fun _ _ => Looks.bindLax (Looks.verify ?_) (fun _ _ => Looks.bindLax (Looks.setMem _ _) (fun _ _ =>
        Looks.bindLax (Looks.getv hσ hx) (fun v _ => Lax.setMem _ _))))
      split
      · rfl
      · rename_i l he
        exact hl l (List.mem_of_mem_drop (List.mem_of_getLast? he))
  exact key w hw

theorem integPost_lax (hσ : Sound ty σ) (b : BlkId) {out : SigId} (h : (σ out).assigned = true) : Lax (fun w => w.sig = σ) (integPost true b out) :=
  Looks.bindLax (Looks.assigned out) (fun a ha => Looks.bindLax (Looks.verify (by rw [ha, h])) (fun _ _ => Looks.bindLax (Looks.getv hσ h) (fun v _ =>
    Looks.bindLax (Looks.getMem b) (fun m _ => Lax.setMem _ _))))

theorem post_lax (hσ : Sound ty σ) {l : Leaf K} (hT : l.Total ty) (hr : ∀ s ∈ l.postReads, (σ s).assigned = true) (t : K) :
    Lax (fun w => w.sig = σ ∧ l.Late t w) (l.post true t) := by
  refine Tri.bind (R := fun _ (w : World K) => w.sig = σ ∧ l.Late t w) (fun w hw => hw) (fun _ => ?_)
  unfold Leaf.postBody
  unfold Leaf.postReads at hr
  unfold Leaf.Total at hT
  cases hk : l.kind with
  | memory x out =>
    rw [hk] at hr
    exact (Looks.bindLax (Looks.getv hσ (hr x (by simp [Kind.postReads]))) (fun v _ => Looks.bindLax (Looks.getMem _) (fun m _ => Lax.setMem _ _))).mono (fun _ h => h.1)
  | delay ls x d i out =>
    rw [hk] at hr
    exact (delayPost_lax hσ l.id t ls (hr x (by simp [Kind.postReads]))).mono (fun w h => ⟨h.1, h.2 (by simp [Leaf.isDelay, hk])⟩)
  | derivative x out =>
    rw [hk] at hr
    exact (Looks.bindLax (Looks.getMem _) (fun m _ => Looks.bindLax (Looks.setMem _ _) (fun _ _ => Looks.bindLax (Looks.getv hσ (hr x (by simp [Kind.postReads])))
      (fun v _ => Lax.setMem _ _)))).mono (fun _ h => h.1)
  | integrator x out => rw [hk] at hr; exact (integPost_lax hσ l.id (hr out (by simp [Kind.postReads]))).mono (fun _ h => h.1)
  | trigInt x tr out => rw [hk] at hr; exact (integPost_lax hσ l.id (hr out (by simp [Kind.postReads]))).mono (fun _ h => h.1)
  | custom c =>
    rw [hk] at hr hT
    exact (Looks.bindLax (Looks.getMem _) (fun m _ => Looks.bindLax (Looks.getAll hσ (fun s hs => hr s hs)) (fun vs hv =>
      Looks.bindLax (Looks.liftOk (hT.2.2 t m.user vs hv)) (fun r _ => Lax.setMem _ _)))).mono (fun _ h => h.1)
  | _ => exact Lax.pure ()

theorem postAll_lax (hσ : Sound ty σ) (t : K) (ls : List (Leaf K)) (hT : ∀ l ∈ ls, l.Total ty) (hid : (ls.map Leaf.id).Nodup)
    (hr : ∀ l ∈ ls, ∀ s ∈ l.postReads, (σ s).assigned = true) :
    Lax (fun w => w.sig = σ ∧ ∀ l ∈ ls, l.Late t w) (postAll true t ls) := by
  induction ls with
  | nil => exact Lax.pure ()
  | cons l ls ih =>
    rw [List.map_cons, List.nodup_cons] at hid
    refine Tri.bind (R := fun _ (w : World K) => w.sig = σ ∧ ∀ l ∈ ls, l.Late t w) ?_ (fun _ => ih (fun l hl => hT l (by simp [hl])) hid.2 (fun l hl => hr l (by simp [hl])))
    rintro w ⟨hw, hl⟩
    have h1 := post_lax hσ (hT l (by simp)) (hr l (by simp)) t w ⟨hw, hl l (by simp)⟩
    have h2 : ∀ x w', l.post true t w = .ok x w' → w'.sig = w.sig ∧ ∀ c, c ≠ l.id → w'.mem c = w.mem c := by
      intro x w' e
      have := moves_post (T := fun w w' => w'.sig = w.sig ∧ ∀ c, c ≠ l.id → w'.mem c = w.mem c) true t l (fun a b hab =>
        ⟨funext (fun s => hab.sig s (fun h => h)), hab.mem⟩) w
      rw [e] at this
      exact this
    cases hx : l.post true t w with
    | error e w' => rw [hx] at h1; exact h1
    | ok a w' =>
      obtain ⟨g1, g2⟩ := h2 a w' hx
      refine ⟨g1.trans hw, fun l' hl' hdl => ?_⟩
      have hne : l'.id ≠ l.id := fun e => hid.1 (e ▸ List.mem_map_of_mem hl')
      rw [g2 _ hne]
      exact hl l' (by simp [hl']) hdl

/-! ### Inputs and state vectors -/

theorem applyInput_lax {P : World K → Prop} (l : List (SigId × Val K)) : Lax P (applyInput true l none : M K Unit) := by
  induction l generalizing P with
  | nil => exact Lax.pure ()
  | cons p l ih => exact Lax.bind (Lax.setv p.1 p.2) (fun _ => ih)

theorem inputs_lax {P : World K → Prop} (hd : cfg.dbg = true) (hi : ∀ f, cfg.inputs = some f → ∀ t, (f t).2 = none) (hm : ∀ t, (cfg.modelInput t).2 = none) (t : K) :
    Lax P (callInputs cfg t) := by
  have h2 : Lax (fun _ => True) (applyInput cfg.dbg (cfg.modelInput t).1 (cfg.modelInput t).2 : M K Unit) := by
    rw [hd, hm t]; exact applyInput_lax _
  refine Lax.bind (fun _ _ => trivial) (fun _ => ?_)
  cases hf : cfg.inputs with
  | none => exact h2
  | some f =>
    refine Lax.bind ?_ (fun _ => h2)
    rw [hd, hi f hf t]; exact applyInput_lax _

theorem writeScalars_lax {P : World K → Prop} (ss : List SigId) (x : List K) : Lax P (writeScalars true ss x : M K _) := by
  induction ss generalizing x P with
  | nil => exact Lax.pure _
  | cons s ss ih =>
    cases x with
    | nil => exact Lax.ub _
    | cons a x => exact Lax.bind (Lax.setv _ _) (fun _ => ih x)

theorem writeArrays_lax {P : World K → Prop} (ss : List SigId) (x : List K) : Lax P (writeArrays true ss x : M K _) := by
  induction ss generalizing x P with
  | nil => exact Lax.pure _
  | cons s ss ih =>
    unfold writeArrays
    refine Lax.bind (fun _ _ => trivial) (fun w => ?_)
    dsimp only
    split
    · exact Lax.ub _
    · exact Lax.bind (Lax.setv _ _) (fun _ => ih _)

theorem readScalars_lax (hσ : Sound ty σ) (ss : List SigId) (hs : ∀ s ∈ ss, (σ s).assigned = true) : Looks σ (readScalars true ss : M K _) (fun _ => True) := by
  induction ss with
  | nil => exact Looks.pure trivial
  | cons s ss ih =>
    exact Looks.bind (Looks.getScalar hσ (hs s (by simp))) (fun _ _ => Looks.bind (ih (fun s h => hs s (by simp [h]))) (fun _ _ => Looks.pure trivial))

theorem readArrays_lax (hσ : Sound ty σ) (ss : List SigId) (hs : ∀ s ∈ ss, (σ s).assigned = true) : Looks σ (readArrays true ss : M K _) (fun _ => True) := by
  induction ss with
  | nil => exact Looks.pure trivial
  | cons s ss ih =>
    unfold readArrays
    refine Looks.bind (Q := fun _ => True) (fun w hw => ⟨hw, trivial⟩) (fun w _ => Looks.bind (Looks.getv hσ (hs s (by simp))) (fun v _ => ?_))
    split
    · split
      · exact Looks.bind (ih (fun s h => hs s (by simp [h]))) (fun _ _ => Looks.pure trivial)
      · exact Looks.ub _
    · exact Looks.ub _

end Pooya
