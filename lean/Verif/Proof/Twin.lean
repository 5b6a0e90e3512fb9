import Verif.Spec.Reach
import Verif.Proof.Monad

/-!
Two executions of the same simulator side by side.  `Twin part R x y`: from states related by `R`, `x`
and `y` end in the same way, in related states.  With `part = true` nothing is claimed if `x` fails.
-/

namespace Pooya

set_option linter.unusedSectionVars false

section
variable {σ α β : Type}

def TwinOut (part : Bool) (R : σ → σ → Prop) : EStateM.Result Err σ α → EStateM.Result Err σ α → Prop
  | .ok a s1, .ok b s2 => a = b ∧ R s1 s2
  | .error e1 s1, .error e2 s2 => part = true ∨ (e1 = e2 ∧ R s1 s2)
  | .error _ _, .ok _ _ => part = true
  | .ok _ _, .error _ _ => False

def Twin (part : Bool) (R : σ → σ → Prop) (x y : EStateM Err σ α) : Prop :=
  ∀ s1 s2, R s1 s2 → TwinOut part R (x s1) (y s2)

namespace Twin
variable {part : Bool} {R : σ → σ → Prop}

theorem pure (a : α) : Twin part R (Pure.pure a) (Pure.pure a) := fun _ _ h => ⟨rfl, h⟩

theorem throw (e : Err) : Twin part R (throwE e : EStateM Err σ α) (throwE e) := fun _ _ h => Or.inr ⟨rfl, h⟩

theorem lift (x : Except Err α) : Twin part R (liftE x : EStateM Err σ α) (liftE x) := by
  cases x with
  | ok a => exact pure a
  | error e => exact throw e

theorem bind {x y : EStateM Err σ α} {f g : α → EStateM Err σ β} (h : Twin part R x y)
    (hf : ∀ a, Twin part R (f a) (g a)) : Twin part R (x >>= f) (y >>= g) := by
  intro s1 s2 hs
  have := h s1 s2 hs
  rw [bind_apply, bind_apply]
  cases hx : x s1 with
  | ok a s1' =>
    cases hy : y s2 with
    | ok b s2' =>
      rw [hx, hy] at this
      obtain ⟨rfl, hr⟩ := this
      exact hf a _ _ hr
    | error e s2' => rw [hx, hy] at this; exact this.elim
  | error e s1' =>
    cases hy : y s2 with
    | ok b s2' =>
      rw [hx, hy] at this
      simp only [TwinOut] at this
      dsimp only
      cases g b s2' with
      | ok _ _ => exact this
      | error _ _ => exact Or.inl this
    | error e' s2' => rw [hx, hy] at this; exact this

theorem get {f g : σ → EStateM Err σ β} (h : ∀ s1 s2, R s1 s2 → Twin part R (f s1) (g s2)) :
    Twin part R (MonadState.get >>= f) (MonadState.get >>= g) := by
  intro s1 s2 hs
  exact h s1 s2 hs s1 s2 hs

theorem throwOpt (o : Option Err) : Twin part R (Pooya.throwOpt o : EStateM Err σ Unit) (Pooya.throwOpt o) := by
  cases o with
  | none => exact pure ()
  | some e => exact throw e

theorem verify {d1 d2 : Bool} (hd : d1 = d2 ∨ part = true ∧ d2 = false) (c : Bool) (e : Exc) :
    Twin part R (debugVerify d1 c e : EStateM Err σ Unit) (debugVerify d2 c e) := by
  intro s1 s2 hs
  rcases hd with rfl | ⟨rfl, rfl⟩
  · simp only [debugVerify]
    split
    · exact Or.inr ⟨rfl, hs⟩
    · exact ⟨rfl, hs⟩
  · simp only [debugVerify, Bool.false_and, Bool.false_eq_true, if_false]
    split
    · exact rfl
    · exact ⟨rfl, hs⟩

theorem exec {K : Type} {f g : K → List K → EStateM Err σ (List K)} (h : ∀ t v, Twin part R (f t v) (g t v))
    (p : StepProg K) : Twin part R (p.exec f) (p.exec g) := by
  induction p with
  | ret v n => exact pure _
  | call t v k ih =>
    unfold StepProg.exec
    exact bind (h t v) (fun r => ih r)

end Twin
end

variable {K : Type}

/-- What the schedulers see of a diagram. -/
structure Obs (w1 w2 : World K) : Prop where
  ty : ∀ s, (w1.sig s).ty = (w2.sig s).ty
  assigned : ∀ s, (w1.sig s).assigned = (w2.sig s).assigned
  done : w1.done = w2.done

/-- The elementary effects that do not concern `_processed` respect `R`; `d1` and `d2` are the build modes of the two executions. -/
structure TwinCore (part : Bool) (R : World K → World K → Prop) (d1 d2 : Bool) : Prop where
  mode : d1 = d2 ∨ part = true ∧ d2 = false
  tys : ∀ w1 w2, R w1 w2 → ∀ s, (w1.sig s).ty = (w2.sig s).ty
  asgs : ∀ w1 w2, R w1 w2 → ∀ s, (w1.sig s).assigned = (w2.sig s).assigned
  getv : ∀ s, Twin part R (Pooya.getv d1 s) (Pooya.getv d2 s)
  setv : ∀ s v, Twin part R (Pooya.setv d1 s v) (Pooya.setv d2 s v)
  clearv : ∀ s, Twin part R (Pooya.clearv s) (Pooya.clearv s)
  getMem : ∀ b, Twin part R (Pooya.getMem b) (Pooya.getMem b)
  setMem : ∀ b m, Twin part R (Pooya.setMem b m) (Pooya.setMem b m)
  emit : ∀ e, Twin part R (Pooya.emit e) (Pooya.emit e)

/-- All elementary effects respect `R`. -/
structure TwinPrims (part : Bool) (R : World K → World K → Prop) (d1 d2 : Bool) : Prop extends TwinCore part R d1 d2 where
  dones : ∀ w1 w2, R w1 w2 → w1.done = w2.done
  setDone : ∀ b d, Twin part R (Pooya.setDone b d) (Pooya.setDone b d)

theorem TwinPrims.obs {part : Bool} {R : World K → World K → Prop} {d1 d2 : Bool} (P : TwinPrims part R d1 d2) (w1 w2 : World K)
    (h : R w1 w2) : Obs w1 w2 := ⟨P.tys w1 w2 h, P.asgs w1 w2 h, P.dones w1 w2 h⟩

namespace TwinPrims
variable {part : Bool} {R : World K → World K → Prop} {d1 d2 : Bool}

theorem _root_.Pooya.TwinCore.assigned (P : TwinCore part R d1 d2) (s : SigId) : Twin part R (Pooya.assigned s) (Pooya.assigned s) :=
  fun w1 w2 h => ⟨P.asgs w1 w2 h s, h⟩

theorem getDone (P : TwinPrims part R d1 d2) (b : BlkId) : Twin part R (Pooya.getDone b) (Pooya.getDone b) :=
  fun w1 w2 h => ⟨congrFun (P.obs w1 w2 h).done b, h⟩

theorem _root_.Pooya.TwinCore.verify (P : TwinCore part R d1 d2) (c : Bool) (e : Exc) : Twin part R (debugVerify d1 c e) (debugVerify d2 c e) :=
  Twin.verify P.mode c e

theorem _root_.Pooya.TwinCore.getScalar (P : TwinCore part R d1 d2) (s : SigId) : Twin part R (Pooya.getScalar d1 s) (Pooya.getScalar d2 s) := by
  unfold Pooya.getScalar
  refine Twin.bind (P.getv s) (fun v => ?_)
  split
  · exact Twin.pure _
  · exact Twin.throw _

theorem _root_.Pooya.TwinCore.getBool (P : TwinCore part R d1 d2) (s : SigId) : Twin part R (Pooya.getBool d1 s) (Pooya.getBool d2 s) := by
  unfold Pooya.getBool
  refine Twin.bind (P.getv s) (fun v => ?_)
  split
  · exact Twin.pure _
  · exact Twin.throw _

theorem _root_.Pooya.TwinCore.getAll (P : TwinCore part R d1 d2) (ss : List SigId) : Twin part R (Pooya.getAll d1 ss) (Pooya.getAll d2 ss) := by
  induction ss with
  | nil => exact Twin.pure _
  | cons s ss ih => exact Twin.bind (P.getv s) (fun v => Twin.bind ih (fun vs => Twin.pure _))

theorem _root_.Pooya.TwinCore.setAll (P : TwinCore part R d1 d2) (ss : List SigId) (vs : List (Option (Val K))) :
    Twin part R (Pooya.setAll d1 ss vs) (Pooya.setAll d2 ss vs) := by
  induction ss generalizing vs with
  | nil => cases vs <;> exact Twin.pure _
  | cons s ss ih =>
    cases vs with
    | nil => exact Twin.pure _
    | cons v vs =>
      cases v with
      | none => exact ih vs
      | some v => exact Twin.bind (P.setv s v) (fun _ => ih vs)

theorem _root_.Pooya.TwinCore.clearAll (P : TwinCore part R d1 d2) (ss : List SigId) : Twin part R (Pooya.clearAll ss) (Pooya.clearAll ss) := by
  induction ss with
  | nil => exact Twin.pure _
  | cons s ss ih => exact Twin.bind (P.clearv s) (fun _ => ih)

theorem _root_.Pooya.TwinCore.applyInput (P : TwinCore part R d1 d2) (l : List (SigId × Val K)) (e : Option Err) :
    Twin part R (Pooya.applyInput d1 l e) (Pooya.applyInput d2 l e) := by
  induction l with
  | nil => exact Twin.throwOpt e
  | cons p l ih => exact Twin.bind (P.setv p.1 p.2) (fun _ => ih)

theorem mark (P : TwinPrims part R d1 d2) (b : Block K) : Twin part R b.mark b.mark := by
  refine Block.rec (motive_1 := fun b => Twin part R b.mark b.mark) (motive_2 := fun bs => Twin part R (markL bs) (markL bs))
    ?_ ?_ ?_ ?_ b
  · intro l; simp only [Block.mark]; exact P.setDone _ _
  · intro i ls kids ih; simp only [Block.mark]; exact Twin.bind (P.setDone _ _) (fun _ => ih)
  · simp only [markL]; exact Twin.pure _
  · intro b bs h1 h2; simp only [markL]; exact Twin.bind h1 (fun _ => h2)

section
variable [Arith K]

theorem _root_.Pooya.TwinCore.foldIns (P : TwinCore part R d1 d2) (op : Val K → Val K → Except Err (Val K)) (acc : Val K) (ss : List SigId) :
    Twin part R (Pooya.foldIns d1 op acc ss) (Pooya.foldIns d2 op acc ss) := by
  induction ss generalizing acc with
  | nil => exact Twin.pure _
  | cons s ss ih => exact Twin.bind (P.getv s) (fun v => Twin.bind (Twin.lift _) (fun a => ih a))

theorem _root_.Pooya.TwinCore.vecAt {σ α : Type} {R : σ → σ → Prop} (l : List α) (i : Nat) :
    Twin part R (Pooya.vecAt l i : EStateM Err σ α) (Pooya.vecAt l i) := by
  unfold Pooya.vecAt
  split
  · exact Twin.pure _
  · exact Twin.throw _

theorem _root_.Pooya.TwinCore.delayAct (P : TwinCore part R d1 d2) (b : BlkId) (t : K) (d i o : SigId) :
    Twin part R (Pooya.delayAct d1 b t d i o) (Pooya.delayAct d2 b t d i o) := by
  unfold Pooya.delayAct
  refine Twin.bind (P.getMem b) (fun m => ?_)
  split
  · exact Twin.bind (P.getv _) (fun _ => P.setv _ _)
  · refine Twin.bind (P.getScalar _) (fun q => ?_)
    dsimp only
    split
    · exact Twin.bind (P.getv _) (fun _ => P.setv _ _)
    · split
      · split
        · exact P.setv _ _
        · exact Twin.throw _
      · split
        · exact Twin.throw _
        · exact Twin.bind (TwinCore.vecAt _ _) (fun _ => Twin.bind (TwinCore.vecAt _ _) (fun _ => Twin.bind (TwinCore.vecAt _ _) (fun _ =>
            Twin.bind (TwinCore.vecAt _ _) (fun _ => Twin.bind (Twin.lift _) (fun _ => P.setv _ _)))))

theorem _root_.Pooya.TwinCore.delayPost (P : TwinCore part R d1 d2) (b : BlkId) (t ls : K) (x : SigId) :
    Twin part R (Pooya.delayPost d1 b t ls x) (Pooya.delayPost d2 b t ls x) := by
  unfold Pooya.delayPost
  refine Twin.bind (P.getMem b) (fun m => ?_)
  dsimp only
  split
  · exact Twin.throw _
  · exact Twin.bind (P.setMem _ _) (fun _ => Twin.bind (P.verify _ _) (fun _ => Twin.bind (P.setMem _ _) (fun _ =>
      Twin.bind (P.getv _) (fun _ => P.setMem _ _))))

theorem _root_.Pooya.TwinCore.derivAct (P : TwinCore part R d1 d2) (b : BlkId) (t : K) (x o : SigId) :
    Twin part R (Pooya.derivAct d1 b t x o) (Pooya.derivAct d2 b t x o) := by
  unfold Pooya.derivAct
  refine Twin.bind (P.getMem b) (fun m => ?_)
  split
  · exact Twin.bind (P.setMem _ _) (fun _ => Twin.bind (P.getv _) (fun _ => Twin.bind (P.setMem _ _) (fun _ => P.setv _ _)))
  · split
    · exact Twin.throw _
    · split
      · exact P.setv _ _
      · refine Twin.bind (P.getv _) (fun v => ?_)
        split
        · exact Twin.throw _
        · exact Twin.bind (Twin.lift _) (fun _ => P.setv _ _)

theorem _root_.Pooya.TwinCore.derivPost (P : TwinCore part R d1 d2) (b : BlkId) (t : K) (x : SigId) :
    Twin part R (Pooya.derivPost d1 b t x) (Pooya.derivPost d2 b t x) := by
  unfold Pooya.derivPost
  exact Twin.bind (P.getMem b) (fun m => Twin.bind (P.setMem _ _) (fun _ => Twin.bind (P.getv _) (fun _ => P.setMem _ _)))

theorem _root_.Pooya.TwinCore.integPre (P : TwinCore part R d1 d2) (b : BlkId) (o : SigId) :
    Twin part R (Pooya.integPre d1 b o) (Pooya.integPre d2 b o) := by
  unfold Pooya.integPre
  exact Twin.bind (P.assigned o) (fun a => Twin.bind (P.verify _ _) (fun _ => Twin.bind (P.getMem b) (fun m => P.setv _ _)))

theorem _root_.Pooya.TwinCore.integPost (P : TwinCore part R d1 d2) (b : BlkId) (o : SigId) :
    Twin part R (Pooya.integPost d1 b o) (Pooya.integPost d2 b o) := by
  unfold Pooya.integPost
  exact Twin.bind (P.assigned o) (fun a => Twin.bind (P.verify _ _) (fun _ => Twin.bind (P.getv o) (fun v =>
    Twin.bind (P.getMem b) (fun m => P.setMem _ _))))

theorem _root_.Pooya.TwinCore.act (P : TwinCore part R d1 d2) (l : Leaf K) (t : K) : Twin part R (l.act d1 t) (l.act d2 t) := by
  unfold Leaf.act
  refine Twin.bind (P.emit _) (fun _ => ?_)
  unfold Leaf.actBody
  split
  · exact P.setv _ _
  · exact Twin.bind (Twin.lift _) (fun _ => P.setv _ _)
  · exact Twin.bind (P.setAll _ _) (fun _ => Twin.throwOpt _)
  · exact Twin.bind (P.getv _) (fun _ => Twin.bind (Twin.lift _) (fun _ => P.setv _ _))
  · exact Twin.bind (P.foldIns _ _ _) (fun _ => P.setv _ _)
  · exact Twin.bind (P.foldIns _ _ _) (fun _ => P.setv _ _)
  · exact Twin.bind (P.getv _) (fun _ => Twin.bind (P.getv _) (fun _ => Twin.bind (Twin.lift _) (fun _ => P.setv _ _)))
  · exact Twin.bind (P.getv _) (fun _ => Twin.bind (P.getv _) (fun _ => Twin.bind (Twin.lift _) (fun _ => P.setv _ _)))
  · exact Twin.bind (P.getv _) (fun _ => P.setv _ _)
  · exact Twin.bind (P.getMem _) (fun _ => P.setv _ _)
  · exact P.delayAct _ _ _ _ _
  · exact P.derivAct _ _ _ _
  · exact Twin.pure _
  · refine Twin.bind (P.getMem _) (fun m => ?_)
    split
    · exact Twin.pure _
    · exact Twin.bind (P.getBool _) (fun _ => P.setMem _ _)
  · exact Twin.bind (P.getv _) (fun _ => Twin.bind (Twin.lift _) (fun _ => P.setv _ _))
  · exact Twin.bind (P.getAll _) (fun _ => Twin.bind (Twin.lift _) (fun _ => P.setv _ _))
  · exact Twin.bind (P.getAll _) (fun _ => Twin.bind (P.setAll _ _) (fun _ => Twin.throwOpt _))
  · exact Twin.pure _
  · exact Twin.bind (P.getMem _) (fun _ => Twin.bind (P.getAll _) (fun _ => Twin.bind (Twin.lift _) (fun _ =>
      Twin.bind (P.setMem _ _) (fun _ => P.setAll _ _))))

theorem _root_.Pooya.TwinCore.pre (P : TwinCore part R d1 d2) (l : Leaf K) (t : K) : Twin part R (l.pre d1 t) (l.pre d2 t) := by
  unfold Leaf.pre
  refine Twin.bind (P.emit _) (fun _ => ?_)
  unfold Leaf.preBody
  split
  · exact P.integPre _ _
  · refine Twin.bind (P.getMem _) (fun m => ?_)
    split
    · exact Twin.bind (P.setMem _ _) (fun _ => P.integPre _ _)
    · exact P.integPre _ _
  · exact Twin.bind (P.getMem _) (fun _ => Twin.bind (Twin.lift _) (fun _ => Twin.bind (P.setMem _ _) (fun _ => P.setAll _ _)))
  · exact Twin.pure _

theorem _root_.Pooya.TwinCore.post (P : TwinCore part R d1 d2) (l : Leaf K) (t : K) : Twin part R (l.post d1 t) (l.post d2 t) := by
  unfold Leaf.post
  refine Twin.bind (P.emit _) (fun _ => ?_)
  unfold Leaf.postBody
  split
  · exact Twin.bind (P.getv _) (fun _ => Twin.bind (P.getMem _) (fun _ => P.setMem _ _))
  · exact P.delayPost _ _ _ _
  · exact P.derivPost _ _ _
  · exact P.integPost _ _
  · exact P.integPost _ _
  · exact Twin.bind (P.getMem _) (fun _ => Twin.bind (P.getAll _) (fun _ => Twin.bind (Twin.lift _) (fun _ => P.setMem _ _)))
  · exact Twin.pure _

theorem obs_ready {w1 w2 : World K} (h : Obs w1 w2) (l : Leaf K) : l.ready w1 = l.ready w2 := by
  simp only [Leaf.ready, h.assigned]

theorem process (P : TwinPrims part R d1 d2) (l : Leaf K) (t : K) : Twin part R (l.process d1 t) (l.process d2 t) := by
  unfold Leaf.process
  refine Twin.bind (P.getDone _) (fun d => Twin.get (fun w1 w2 h => ?_))
  rw [obs_ready (P.obs _ _ h)]
  split
  · exact Twin.pure _
  · exact Twin.bind (P.act l t) (fun _ => Twin.bind (P.setDone _ _) (fun _ => Twin.pure _))

theorem processB (P : TwinPrims part R d1 d2) (b : Block K) (t : K) : Twin part R (b.process d1 t) (b.process d2 t) := by
  refine Block.rec (motive_1 := fun b => Twin part R (b.process d1 t) (b.process d2 t))
    (motive_2 := fun bs => ∀ i, Twin part R (processL d1 t i bs) (processL d2 t i bs)) ?_ ?_ ?_ ?_ b
  · intro l; simp only [Block.process]; exact P.process l t
  · intro i ls kids ih
    simp only [Block.process]
    refine Twin.bind (P.getDone _) (fun d => ?_)
    split
    · exact Twin.pure _
    · exact Twin.bind (P.setDone _ _) (fun _ => ih i)
  · intro i; simp only [processL]; exact Twin.pure _
  · intro b bs h1 h2 i
    simp only [processL]
    refine Twin.bind h1 (fun n => Twin.bind (P.getDone _) (fun d => ?_))
    have h3 : Twin part R (do let m ← processL d1 t i bs; Pure.pure (n + m)) (do let m ← processL d2 t i bs; Pure.pure (n + m)) :=
      Twin.bind (h2 i) (fun m => Twin.pure _)
    split
    · exact Twin.bind (P.setDone _ _) (fun _ => h3)
    · exact h3

theorem processShallow (P : TwinPrims part R d1 d2) (b : Block K) (t : K) :
    Twin part R (b.processShallow d1 t) (b.processShallow d2 t) := by
  cases b with
  | leaf l => exact P.process l t
  | sub i ls kids => exact Twin.bind (P.setDone _ _) (fun _ => Twin.pure _)

theorem _root_.Pooya.TwinCore.preStep (P : TwinCore part R d1 d2) (b : Block K) (t : K) : Twin part R (b.preStep d1 t) (b.preStep d2 t) := by
  refine Block.rec (motive_1 := fun b => Twin part R (b.preStep d1 t) (b.preStep d2 t))
    (motive_2 := fun bs => Twin part R (preStepL d1 t bs) (preStepL d2 t bs)) ?_ ?_ ?_ ?_ b
  · intro l; simp only [Block.preStep]; exact P.pre l t
  · intro i ls kids ih; simp only [Block.preStep]; exact ih
  · simp only [preStepL]; exact Twin.pure _
  · intro b bs h1 h2; simp only [preStepL]; exact Twin.bind h1 (fun _ => h2)

theorem _root_.Pooya.TwinCore.postStep (P : TwinCore part R d1 d2) (b : Block K) (t : K) : Twin part R (b.postStep d1 t) (b.postStep d2 t) := by
  refine Block.rec (motive_1 := fun b => Twin part R (b.postStep d1 t) (b.postStep d2 t))
    (motive_2 := fun bs => Twin part R (postStepL d1 t bs) (postStepL d2 t bs)) ?_ ?_ ?_ ?_ b
  · intro l; simp only [Block.postStep]; exact P.post l t
  · intro i ls kids ih; simp only [Block.postStep]; exact ih
  · simp only [postStepL]; exact Twin.pure _
  · intro b bs h1 h2; simp only [postStepL]; exact Twin.bind h1 (fun _ => h2)

theorem plainLoop (P : TwinPrims part R d1 d2) (b : Block K) (t : K) (n : Nat) :
    Twin part R (Pooya.plainLoop d1 t b n) (Pooya.plainLoop d2 t b n) := by
  induction n with
  | zero => exact Twin.throw _
  | succ n ih =>
    unfold Pooya.plainLoop
    refine Twin.bind (P.processB b t) (fun k => ?_)
    split
    · exact Twin.pure _
    · exact ih

theorem reuseSweep (P : TwinPrims part R d1 d2) (t : K) (po : List (Block K)) :
    Twin part R (Pooya.reuseSweep d1 t po) (Pooya.reuseSweep d2 t po) := by
  induction po with
  | nil => exact Twin.pure _
  | cons b po ih =>
    unfold Pooya.reuseSweep
    refine Twin.bind (P.getDone _) (fun d => ?_)
    split
    · exact ih
    · exact Twin.bind (P.processShallow b t) (fun _ => Twin.bind (P.getDone _) (fun d' => Twin.bind ih (fun r => Twin.pure _)))

theorem reuseLoop (P : TwinPrims part R d1 d2) (t : K) (po : List (Block K)) (n : Nat) :
    Twin part R (Pooya.reuseLoop d1 t po n) (Pooya.reuseLoop d2 t po n) := by
  induction n with
  | zero => exact Twin.throw _
  | succ n ih =>
    unfold Pooya.reuseLoop
    refine Twin.bind (P.reuseSweep t po) (fun new => ?_)
    split
    · exact Twin.pure _
    · exact Twin.bind ih (fun _ => Twin.pure _)

theorem reuseEval (P : TwinPrims part R d1 d2) (t : K) (po : List (Block K)) :
    Twin part R (Pooya.reuseEval d1 t po) (Pooya.reuseEval d2 t po) := by
  unfold Pooya.reuseEval
  refine Twin.bind (P.reuseLoop t po _) (fun new => Twin.get (fun w1 w2 h => ?_))
  rw [(P.obs _ _ h).done]
  exact Twin.bind (P.verify _ _) (fun _ => Twin.pure _)

theorem _root_.Pooya.TwinCore.actAll (P : TwinCore part R d1 d2) (t : K) (ls : List (Leaf K)) :
    Twin part R (Pooya.actAll d1 t ls) (Pooya.actAll d2 t ls) := by
  induction ls with
  | nil => exact Twin.pure _
  | cons l ls ih => exact Twin.bind (P.act l t) (fun _ => ih)

theorem fastLevel (P : TwinPrims part R d1 d2) (t : K) (k : Nat) (ls : List (Leaf K)) :
    Twin part R (Pooya.fastLevel d1 t k ls) (Pooya.fastLevel d2 t k ls) := by
  induction ls generalizing k with
  | nil => unfold Pooya.fastLevel; exact Twin.pure _
  | cons l ls ih =>
    unfold Pooya.fastLevel
    split
    · exact Twin.pure _
    · refine Twin.bind (P.getDone _) (fun d => Twin.get (fun w1 w2 h => ?_))
      rw [obs_ready (P.obs _ _ h)]
      split
      · exact ih k
      · refine Twin.bind (P.process l t) (fun _ => Twin.bind (P.getDone _) (fun d' => ?_))
        split
        · exact Twin.bind (ih _) (fun _ => Twin.pure _)
        · exact Twin.pure _

theorem fastOrder (P : TwinPrims part R d1 d2) (t : K) (po : List (Leaf K)) (n : Nat) :
    Twin part R (Pooya.fastOrder d1 t po n) (Pooya.fastOrder d2 t po n) := by
  induction n with
  | zero => exact Twin.throw _
  | succ n ih =>
    unfold Pooya.fastOrder
    refine Twin.get (fun w1 w2 h => ?_)
    have e : fastCount w1 po = fastCount w2 po := by
      unfold fastCount
      have : (fun l : Leaf K => !w1.done l.id && l.ready w1) = (fun l => !w2.done l.id && l.ready w2) := by
        funext l; rw [(P.obs _ _ h).done, obs_ready (P.obs _ _ h)]
      rw [this]
    rw [e]
    dsimp only
    split
    · exact Twin.pure _
    · refine Twin.bind (P.fastLevel t _ po) (fun lv => ?_)
      split
      · exact Twin.pure _
      · exact Twin.bind ih (fun _ => Twin.pure _)

theorem levelFound (P : TwinPrims false R d1 d2) (t : K) (k : Nat) (ls : List (Leaf K)) {w1 w2 : World K} (h : R w1 w2) :
    Pooya.levelFound d1 t k ls w1 = Pooya.levelFound d2 t k ls w2 := by
  induction ls generalizing k w1 w2 with
  | nil => rfl
  | cons l ls ih =>
    simp only [Pooya.levelFound]
    rw [obs_ready (P.obs _ _ h), (P.obs _ _ h).done]
    have hp := P.process l t w1 w2 h
    split
    · rfl
    · split
      · exact ih k h
      · cases h1 : l.process d1 t w1 <;> cases h2 : l.process d2 t w2 <;> rw [h1, h2] at hp
        · simp only [(P.obs _ _ hp.2).done]
          rw [ih _ hp.2]
        · exact hp.elim
        · cases hp

theorem fastFound (P : TwinPrims false R d1 d2) (t : K) (po : List (Leaf K)) (n : Nat) {w1 w2 : World K} (h : R w1 w2) :
    Pooya.fastFound d1 t po n w1 = Pooya.fastFound d2 t po n w2 := by
  induction n generalizing w1 w2 with
  | zero => rfl
  | succ n ih =>
    have e : fastCount w1 po = fastCount w2 po := by
      unfold fastCount
      have : (fun l : Leaf K => !w1.done l.id && l.ready w1) = (fun l => !w2.done l.id && l.ready w2) := by
        funext l; rw [(P.obs _ _ h).done, obs_ready (P.obs _ _ h)]
      rw [this]
    simp only [Pooya.fastFound, e]
    have hp := P.fastLevel t (fastCount w2 po) po w1 w2 h
    split
    · rfl
    · cases h1 : Pooya.fastLevel d1 t (fastCount w2 po) po w1 <;> cases h2 : Pooya.fastLevel d2 t (fastCount w2 po) po w2 <;> rw [h1, h2] at hp
      · obtain ⟨rfl, hp⟩ := hp
        simp only [ih hp]
      · exact hp.elim
      · cases hp
      · simp only [P.levelFound t _ po h]

theorem _root_.Pooya.TwinCore.writeScalars (P : TwinCore part R d1 d2) (ss : List SigId) (d : List K) :
    Twin part R (Pooya.writeScalars d1 ss d) (Pooya.writeScalars d2 ss d) := by
  induction ss generalizing d with
  | nil => exact Twin.pure _
  | cons s ss ih =>
    cases d with
    | nil => exact Twin.throw _
    | cons x d => exact Twin.bind (P.setv _ _) (fun _ => ih d)

theorem _root_.Pooya.TwinCore.writeArrays (P : TwinCore part R d1 d2) (ss : List SigId) (d : List K) :
    Twin part R (Pooya.writeArrays d1 ss d) (Pooya.writeArrays d2 ss d) := by
  induction ss generalizing d with
  | nil => exact Twin.pure _
  | cons s ss ih =>
    unfold Pooya.writeArrays
    refine Twin.get (fun w1 w2 h => ?_)
    rw [P.tys _ _ h]
    dsimp only
    split
    · exact Twin.throw _
    · exact Twin.bind (P.setv _ _) (fun _ => ih _)

theorem _root_.Pooya.TwinCore.readScalars (P : TwinCore part R d1 d2) (ss : List SigId) :
    Twin part R (Pooya.readScalars d1 ss) (Pooya.readScalars d2 ss) := by
  induction ss with
  | nil => exact Twin.pure _
  | cons s ss ih => exact Twin.bind (P.getScalar s) (fun v => Twin.bind ih (fun vs => Twin.pure _))

theorem _root_.Pooya.TwinCore.readArrays (P : TwinCore part R d1 d2) (ss : List SigId) :
    Twin part R (Pooya.readArrays d1 ss) (Pooya.readArrays d2 ss) := by
  induction ss with
  | nil => exact Twin.pure _
  | cons s ss ih =>
    unfold Pooya.readArrays
    refine Twin.get (fun w1 w2 h => ?_)
    rw [P.tys _ _ h]
    refine Twin.bind (P.getv s) (fun v => ?_)
    split
    · split
      · exact Twin.bind ih (fun _ => Twin.pure _)
      · exact Twin.throw _
    · exact Twin.throw _

/-! ### The simulator -/

/-- The diagrams are related and the simulators equal. -/
def onM (R : World K → World K → Prop) (m1 m2 : Machine K) : Prop := R m1.w m2.w ∧ m1.s = m2.s

theorem inW {α : Type} {x y : M K α} (h : Twin part R x y) : Twin part (onM R) (Pooya.inW x) (Pooya.inW y) := by
  rintro ⟨w1, s1⟩ ⟨w2, s2⟩ ⟨hw, hs⟩
  have := h w1 w2 hw
  dsimp only at hs
  subst hs
  unfold Pooya.inW
  dsimp only
  cases hx : x w1 <;> cases hy : y w2 <;> rw [hx, hy] at this
  · exact ⟨this.1, this.2, rfl⟩
  · exact this
  · exact this
  · exact this.imp id (fun h => ⟨h.1, h.2, rfl⟩)

theorem getSim : Twin part (onM R) (Pooya.getSim : MM K (Sim K)) Pooya.getSim := fun _ _ h => ⟨h.2, h⟩

theorem setSim (f : Sim K → Sim K) : Twin part (onM R) (Pooya.setSim f) (Pooya.setSim f) :=
  fun _ _ h => ⟨rfl, h.1, congrArg f h.2⟩

variable {c1 c2 : Config K}

/-- The configurations differ only in the build mode. -/
def ConfigEq (c1 c2 : Config K) : Prop := c2 = { c1 with dbg := c2.dbg }

theorem _root_.Pooya.TwinCore.callInputs (P : TwinCore part R c1.dbg c2.dbg) (hc : ConfigEq c1 c2) (t : K) :
    Twin part R (Pooya.callInputs c1 t) (Pooya.callInputs c2 t) := by
  obtain ⟨d, hd⟩ : ∃ d, c2 = { c1 with dbg := d } := ⟨_, hc⟩
  subst hd
  unfold Pooya.callInputs
  refine Twin.bind (P.emit _) (fun _ => ?_)
  dsimp only
  split
  · exact Twin.bind (P.applyInput _ _) (fun _ => P.applyInput _ _)
  · exact P.applyInput _ _

theorem evalModel (P : TwinPrims part R c1.dbg c2.dbg) (hc : ConfigEq c1 c2) (t : K) :
    Twin part (onM R) (Pooya.evalModel c1 t) (Pooya.evalModel c2 t) := by
  obtain ⟨d, hd⟩ : ∃ d, c2 = { c1 with dbg := d } := ⟨_, hc⟩
  subst hd
  unfold Pooya.evalModel
  dsimp only
  split
  · exact Twin.bind (inW (P.mark _)) (fun _ => inW (P.plainLoop _ _ _))
  · refine Twin.bind (inW (P.mark _)) (fun _ => Twin.bind getSim (fun s => ?_))
    split
    · exact Twin.throw _
    · exact Twin.bind (inW (P.reuseEval _ _)) (fun _ => setSim _)
  · exact Twin.bind getSim (fun s => inW (P.actAll _ _))

theorem processModel (P : TwinPrims part R c1.dbg c2.dbg) (hc : ConfigEq c1 c2) (t : K) (pre post : Bool) :
    Twin part (onM R) (Pooya.processModel c1 t pre post) (Pooya.processModel c2 t pre post) := by
  have hm : c2.model = c1.model := by rw [hc]
  have h2 : Twin part (onM R) (do
      Pooya.evalModel c1 t
      if post then Pooya.inW (c1.model.postStep c1.dbg t) else Pure.pure ()) (do
      Pooya.evalModel c2 t
      if post then Pooya.inW (c2.model.postStep c2.dbg t) else Pure.pure ()) := by
    refine Twin.bind (P.evalModel hc t) (fun _ => ?_)
    split
    · rw [hm]; exact inW (P.postStep _ _)
    · exact Twin.pure _
  unfold Pooya.processModel
  refine Twin.bind (inW (P.callInputs hc t)) (fun _ => ?_)
  dsimp only
  split
  · rw [hm]
    rw [hm] at h2
    exact Twin.bind (inW (P.preStep _ _)) (fun _ => h2)
  · exact h2

theorem _root_.Pooya.TwinCore.baseInit (P : TwinCore part R c1.dbg c2.dbg) (hc : ConfigEq c1 c2) (t : K) :
    Twin part (onM R) (Pooya.baseInit c1 t) (Pooya.baseInit c2 t) := by
  obtain ⟨d, hd⟩ : ∃ d, c2 = { c1 with dbg := d } := ⟨_, hc⟩
  subst hd
  unfold Pooya.baseInit
  refine Twin.get (fun m1 m2 h => ?_)
  have e1 : scalarStatesOf { c1 with dbg := d } m2.w = scalarStatesOf c1 m1.w := by
    simp only [scalarStatesOf, P.tys _ _ h.1]
  have e2 : arrayStatesOf { c1 with dbg := d } m2.w = arrayStatesOf c1 m1.w := by
    simp only [arrayStatesOf, P.tys _ _ h.1]
  have e3 : stateSize { c1 with dbg := d } m2.w = stateSize c1 m1.w := by
    simp only [stateSize, e1, e2, P.tys _ _ h.1]
  rw [e1, e2, e3]
  dsimp only
  refine Twin.bind (setSim _) (fun _ => ?_)
  have h3 : Twin part (onM R) (do
      let s ← Pooya.getSim
      Pooya.inW (Pooya.clearAll s.valueSigs)
      Pooya.setSim (fun s : Sim K => { s with initialized := true })) (do
      let s ← Pooya.getSim
      Pooya.inW (Pooya.clearAll s.valueSigs)
      Pooya.setSim (fun s : Sim K => { s with initialized := true })) :=
    Twin.bind getSim (fun s => Twin.bind (inW (P.clearAll _)) (fun _ => setSim _))
  split
  · exact Twin.bind (inW (P.emit _)) (fun _ => h3)
  · exact h3

theorem levels (P : TwinPrims part R c1.dbg c2.dbg) (hc : ConfigEq c1 c2) (t : K) : Twin part (onM R) (Pooya.levels c1 t) (Pooya.levels c2 t) := by
  obtain ⟨d, hd⟩ : ∃ d, c2 = { c1 with dbg := d } := ⟨_, hc⟩
  subst hd
  rintro ⟨w1, s1⟩ ⟨w2, s2⟩ ⟨hw, hs⟩
  have hp := P.fastOrder t c1.model.leaves (c1.model.leaves.length + 1) w1 w2 hw
  dsimp only at hs
  subst hs
  unfold Pooya.levels
  dsimp only at hp ⊢
  cases hx : Pooya.fastOrder c1.dbg t c1.model.leaves (c1.model.leaves.length + 1) w1 <;>
    cases hy : Pooya.fastOrder d t c1.model.leaves (c1.model.leaves.length + 1) w2 <;> rw [hx, hy] at hp
  · exact ⟨hp.1, hp.2, rfl⟩
  · exact hp
  · exact hp
  · cases part with
    | true => exact .inl rfl
    | false =>
      refine hp.imp id (fun h => ⟨h.1, h.2, ?_⟩)
      rw [P.fastFound t c1.model.leaves (c1.model.leaves.length + 1) hw]

theorem simInit (P : TwinPrims part R c1.dbg c2.dbg) (hc : ConfigEq c1 c2) (t : K) :
    Twin part (onM R) (Pooya.simInit c1 t) (Pooya.simInit c2 t) := by
  have hp := P.processModel hc t true true
  have hi := P.callInputs hc t
  have hb := P.baseInit hc t
  have hl := P.levels hc t
  generalize e1 : Pooya.processModel c1 t true true = x1 at hp
  generalize e2 : Pooya.processModel c2 t true true = x2 at hp
  generalize e3 : Pooya.callInputs c1 t = y1 at hi
  generalize e4 : Pooya.callInputs c2 t = y2 at hi
  unfold Pooya.simInit
  rw [e1, e2, e3, e4]
  clear e1 e2 e3 e4
  obtain ⟨d, hd⟩ : ∃ d, c2 = { c1 with dbg := d } := ⟨_, hc⟩
  subst hd
  refine Twin.bind hb (fun _ => ?_)
  dsimp only
  split
  · exact hp
  · refine Twin.bind getSim (fun s => ?_)
    split
    · exact Twin.bind (Twin.verify P.mode _ _) (fun _ => Twin.bind (setSim _) (fun _ => hp))
    · exact hp
  · refine Twin.bind getSim (fun s => Twin.bind (Twin.verify P.mode _ _) (fun _ => Twin.bind (inW hi) (fun _ =>
      Twin.bind (inW (P.preStep _ _)) (fun _ => Twin.bind hl (fun r => Twin.bind (setSim _) (fun _ => ?_))))))
    split
    · exact Twin.bind (Twin.throw _) (fun _ => Twin.bind (inW (P.clearAll _)) (fun _ => hp))
    · exact Twin.bind (inW (P.clearAll _)) (fun _ => hp)

theorem resetWith (P : TwinPrims part R c1.dbg c2.dbg) (x : List K) :
    Twin part (onM R) (Pooya.resetWith c1 x) (Pooya.resetWith c2 x) :=
  Twin.bind getSim (fun _ => Twin.bind (inW (P.clearAll _)) (fun _ => Twin.bind (inW (P.writeScalars _ _)) (fun _ =>
    inW (P.writeArrays _ _))))

theorem getStates (P : TwinPrims part R c1.dbg c2.dbg) : Twin part (onM R) (Pooya.getStates c1) (Pooya.getStates c2) := by
  unfold Pooya.getStates
  refine Twin.bind getSim (fun s => Twin.bind (inW (P.readScalars _)) (fun a => Twin.bind (inW (P.readArrays _)) (fun b => ?_)))
  split
  · exact Twin.pure _
  · exact Twin.throw _

theorem derivsOf_eq (hc : ConfigEq c1 c2) (ss : List SigId) : derivsOf c2 ss = derivsOf c1 ss := by
  induction ss with
  | nil => rfl
  | cons s ss ih =>
    have : c2.deriv = c1.deriv := by rw [hc]
    simp only [derivsOf, ih, this]

theorem getDerivs (P : TwinPrims part R c1.dbg c2.dbg) (hc : ConfigEq c1 c2) :
    Twin part (onM R) (Pooya.getDerivs c1) (Pooya.getDerivs c2) := by
  unfold Pooya.getDerivs
  simp only [derivsOf_eq hc]
  refine Twin.bind getSim (fun s => ?_)
  split
  · refine Twin.bind (inW (P.readScalars _)) (fun a => Twin.bind (inW (P.readArrays _)) (fun b => ?_))
    split
    · exact Twin.pure _
    · exact Twin.throw _
  · exact Twin.throw _

theorem minorCb (P : TwinPrims part R c1.dbg c2.dbg) (hc : ConfigEq c1 c2) (t : K) (x : List K) :
    Twin part (onM R) (Pooya.minorCb c1 t x) (Pooya.minorCb c2 t x) :=
  Twin.bind (P.resetWith x) (fun _ => Twin.bind (P.processModel hc t _ _) (fun _ => P.getDerivs hc))

theorem beginStep (P : TwinPrims part R c1.dbg c2.dbg) (hc : ConfigEq c1 c2) (t : K) :
    Twin part (onM R) (Pooya.beginStep c1 t) (Pooya.beginStep c2 t) := by
  unfold Pooya.beginStep
  refine Twin.bind getSim (fun _ => Twin.bind (inW (P.clearAll _)) (fun _ => Twin.bind (inW (P.callInputs hc t)) (fun _ => ?_)))
  have hm : c2.model = c1.model := by rw [hc]
  rw [hm]
  exact Twin.bind (inW (P.preStep _ _)) (fun _ => P.getStates)

theorem subLoop (P : TwinPrims part R c1.dbg c2.dbg) (hc : ConfigEq c1 c2) (t minH maxH : K) (n : Nat) (t1 t2 : K)
    (force : Bool) :
    Twin part (onM R) (Pooya.subLoop c1 t minH maxH n t1 t2 force) (Pooya.subLoop c2 t minH maxH n t1 t2 force) := by
  have hst : c2.stepper = c1.stepper := by rw [hc]
  induction n generalizing t1 t2 force with
  | zero => exact Twin.throw _
  | succ n ih =>
    unfold Pooya.subLoop
    rw [hst]
    split
    · exact Twin.pure _
    · refine Twin.bind (P.beginStep hc t1) (fun orig => Twin.bind (inW (P.emit _)) (fun _ => ?_))
      split
      · exact Twin.throw _
      · refine Twin.bind (Twin.exec (fun t v => P.minorCb hc t v) _) (fun r => Twin.bind (setSim _) (fun _ => ?_))
        dsimp only
        split
        · refine Twin.bind (inW (P.emit _)) (fun _ => ?_)
          split
          · exact Twin.bind (P.resetWith _) (fun _ => Twin.bind (P.processModel hc _ _ _) (fun _ => ih _ _ _))
          · exact ih _ _ _
        · exact ih _ _ _

theorem advance (P : TwinPrims part R c1.dbg c2.dbg) (hc : ConfigEq c1 c2) (fuel : Nat) (t minH maxH : K) :
    Twin part (onM R) (Pooya.advance c1 fuel t minH maxH) (Pooya.advance c2 fuel t minH maxH) := by
  have hst : c2.stepper = c1.stepper := by rw [hc]
  unfold Pooya.advance
  refine Twin.bind getSim (fun s => ?_)
  split
  · exact Twin.throw _
  · split
    · exact Twin.bind (inW (P.emit _)) (fun _ => Twin.bind (P.beginStep hc t) (fun _ => setSim _))
    · rw [hst]
      exact Twin.bind (Twin.verify P.mode _ _) (fun _ => Twin.bind (Twin.verify P.mode _ _) (fun _ =>
        Twin.bind (Twin.verify P.mode _ _) (fun _ => P.subLoop hc _ _ _ _ _ _ _)))

theorem finish (P : TwinPrims part R c1.dbg c2.dbg) (hc : ConfigEq c1 c2) (t : K) :
    Twin part (onM R) (Pooya.finish c1 t) (Pooya.finish c2 t) := by
  unfold Pooya.finish
  refine Twin.bind getSim (fun s => ?_)
  split
  · exact Twin.throw _
  · exact Twin.bind (P.resetWith _) (fun _ => Twin.bind (P.processModel hc _ _ _) (fun _ => setSim _))

theorem run (P : TwinPrims part R c1.dbg c2.dbg) (hc : ConfigEq c1 c2) (fuel : Nat) (t minH maxH : K) :
    Twin part (onM R) (Pooya.run c1 fuel t minH maxH) (Pooya.run c2 fuel t minH maxH) := by
  unfold Pooya.run
  refine Twin.bind getSim (fun s => ?_)
  split
  · exact P.simInit hc t
  · dsimp only
    split
    · exact Twin.bind (P.advance hc _ _ _ _) (fun _ => P.finish hc t)
    · exact P.finish hc t

theorem call (P : TwinPrims part R c1.dbg c2.dbg) (hc : ConfigEq c1 c2) (c : Call K) :
    Twin part (onM R) (c.exec c1) (c.exec c2) := by
  cases c with
  | init t => exact P.simInit hc t
  | run f t a b => exact P.run hc f t a b

end
end TwinPrims
end Pooya
