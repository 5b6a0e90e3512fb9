import Verif.Proof.Loops
import Verif.Spec.Reach

/-! Relations between the states before and after an effect. -/

namespace Pooya

set_option linter.unusedSectionVars false

/-- Reflexive and transitive. -/
class PreO {σ : Type} (T : σ → σ → Prop) : Prop where
  refl : ∀ s, T s s
  trans : ∀ {a b c}, T a b → T b c → T a c

/-- Whatever the outcome, the state moves along `T`. -/
def Moves {σ α : Type} (T : σ → σ → Prop) (x : EStateM Err σ α) : Prop := ∀ s, T s (stateOf (x s))

namespace Moves
variable {σ α β : Type} {T : σ → σ → Prop} [PreO T]

theorem pure (a : α) : Moves T (Pure.pure a : EStateM Err σ α) := fun s => PreO.refl s
theorem throw (e : Err) : Moves T (throwE e : EStateM Err σ α) := fun s => PreO.refl s
theorem lift (x : Except Err α) : Moves T (liftE x : EStateM Err σ α) := by
  intro s; cases x <;> exact PreO.refl s
theorem get : Moves T (MonadState.get : EStateM Err σ σ) := fun s => PreO.refl s
theorem debugVerify (d c : Bool) (e : Exc) : Moves T (Pooya.debugVerify d c e : EStateM Err σ Unit) := by
  intro s; simp only [Pooya.debugVerify]; split <;> exact PreO.refl s
theorem bind {x : EStateM Err σ α} {f : α → EStateM Err σ β} (hx : Moves T x) (hf : ∀ a, Moves T (f a)) :
    Moves T (x >>= f) := by
  intro s
  rw [bind_apply]
  have h := hx s
  cases hxs : x s with
  | ok a s1 => rw [hxs] at h; exact PreO.trans h (hf a s1)
  | error e s1 => rw [hxs] at h; exact h
theorem throwOpt (o : Option Err) : Moves T (Pooya.throwOpt o : EStateM Err σ Unit) := by
  cases o
  · exact pure _
  · exact throw _
theorem exec {K : Type} {f : K → List K → EStateM Err σ (List K)} (hf : ∀ t v, Moves T (f t v))
    (p : StepProg K) : Moves T (p.exec f) := by
  induction p with
  | ret v h => exact pure _
  | call t v k ih => exact bind (hf t v) (fun r => ih r)
theorem mono {T' : σ → σ → Prop} {x : EStateM Err σ α} (h : Moves T' x) (hT : ∀ a b, T' a b → T a b) :
    Moves T x := fun s => hT _ _ (h s)
end Moves

variable {K : Type}

/-- A relation on machines that lets the diagram move along `T` and keeps the simulator members. -/
def onW (T : World K → World K → Prop) (m m' : Machine K) : Prop := T m.w m'.w ∧ m'.s = m.s

instance (T : World K → World K → Prop) [PreO T] : PreO (onW T) where
  refl _ := ⟨PreO.refl _, rfl⟩
  trans h h' := ⟨PreO.trans h.1 h'.1, h'.2.trans h.2⟩

theorem Moves.inW {α : Type} {T : World K → World K → Prop} {x : M K α} (h : Moves T x) :
    Moves (onW T) (Pooya.inW x) := by
  intro m
  have := h m.w
  simp only [Pooya.inW]
  cases hx : x m.w with
  | ok a w => rw [hx] at this; exact ⟨this, rfl⟩
  | error e w => rw [hx] at this; exact ⟨this, rfl⟩

theorem Moves.getSim {T : Machine K → Machine K → Prop} [PreO T] : Moves T (Pooya.getSim : MM K (Sim K)) :=
  fun m => PreO.refl m

/-- Flags do not change. -/
def SameDone (w w' : World K) : Prop := w'.done = w.done
instance : PreO (SameDone (K := K)) := ⟨fun _ => rfl, fun h h' => Eq.trans h' h⟩

/-- Only events satisfying `p` are recorded. -/
def Logs (p : Event K → Prop) (w w' : World K) : Prop := ∃ evs, w'.log = evs ++ w.log ∧ ∀ e ∈ evs, p e
instance (p : Event K → Prop) : PreO (Logs p) where
  refl w := ⟨[], rfl, by simp⟩
  trans := by
    rintro a b c ⟨e1, h1, p1⟩ ⟨e2, h2, p2⟩
    refine ⟨e2 ++ e1, by rw [h2, h1, List.append_assoc], ?_⟩
    intro e he
    rcases List.mem_append.1 he with he | he
    · exact p2 e he
    · exact p1 e he

/-- Types of signals do not change. -/
def SameTy (w w' : World K) : Prop := ∀ s, (w'.sig s).ty = (w.sig s).ty
instance : PreO (SameTy (K := K)) := ⟨fun _ _ => rfl, fun h h' s => (h' s).trans (h s)⟩

/-- Block members do not change. -/
def SameMem (w w' : World K) : Prop := w'.mem = w.mem
instance : PreO (SameMem (K := K)) := ⟨fun _ => rfl, fun h h' => Eq.trans h' h⟩

/-- Only signals in `O` change. -/
def SigOnly (O : SigId → Prop) (w w' : World K) : Prop := ∀ s, ¬ O s → w'.sig s = w.sig s
instance (O : SigId → Prop) : PreO (SigOnly (K := K) O) :=
  ⟨fun _ _ _ => rfl, fun h h' s hs => (h' s hs).trans (h s hs)⟩

theorem outW_eq_stateOf {σ α : Type} (r : EStateM.Result Err σ α) : outW r = stateOf r := by cases r <;> rfl

theorem Frame.moves {α : Type} {O : SigId → Prop} {b : BlkId} {x : M K α} (h : Frame O b x)
    {T : World K → World K → Prop} (hT : ∀ w w', Within O b w w' → T w w') : Moves T x := by
  intro w; rw [← outW_eq_stateOf]; exact hT _ _ (h w)

theorem moves_emit {T : World K → World K → Prop} (e : Event K) (h : ∀ w, T w { w with log := e :: w.log }) :
    Moves T (emit e : M K Unit) := fun w => h w

theorem moves_clearv {T : World K → World K → Prop} (s : SigId)
    (h : ∀ w : World K, T w { w with sig := upd w.sig s { w.sig s with assigned := false } }) :
    Moves T (clearv s : M K Unit) := fun w => h w

theorem moves_clearAll {T : World K → World K → Prop} [PreO T] (ss : List SigId)
    (h : ∀ s ∈ ss, ∀ w : World K, T w { w with sig := upd w.sig s { w.sig s with assigned := false } }) :
    Moves T (clearAll ss : M K Unit) := by
  induction ss with
  | nil => exact Moves.pure _
  | cons s ss ih =>
    exact Moves.bind (moves_clearv s (h s (by simp))) (fun _ => ih (fun s hs => h s (by simp [hs])))

theorem moves_setv {T : World K → World K → Prop} [PreO T] (dbg : Bool) (s : SigId) (v : Val K)
    (h : ∀ w : World K, T w { w with sig := upd w.sig s { w.sig s with assigned := true, value := some v } }) :
    Moves T (setv dbg s v : M K Unit) := by
  intro w
  simp only [setv]
  split
  · exact PreO.refl w
  · split
    · exact PreO.refl w
    · split
      · exact PreO.refl w
      · exact h w

theorem moves_getv {T : World K → World K → Prop} [PreO T] (dbg : Bool) (s : SigId) :
    Moves T (getv dbg s : M K (Val K)) := by
  intro w
  simp only [getv]
  split
  · exact PreO.refl w
  · split <;> exact PreO.refl w

theorem moves_applyInput {T : World K → World K → Prop} [PreO T] (dbg : Bool) (l : List (SigId × Val K))
    (e : Option Err)
    (h : ∀ p ∈ l, ∀ w : World K, T w { w with sig := upd w.sig p.1 { w.sig p.1 with assigned := true, value := some p.2 } }) :
    Moves T (applyInput dbg l e : M K Unit) := by
  induction l with
  | nil => exact Moves.throwOpt e
  | cons p l ih =>
    obtain ⟨s, v⟩ := p
    exact Moves.bind (moves_setv dbg s v (h (s, v) (by simp))) (fun _ => ih (fun p hp => h p (by simp [hp])))

/-- The signals a user input may assign. -/
def Config.inputSigs (cfg : Config K) (s : SigId) : Prop :=
  ∃ t, (∃ f, cfg.inputs = some f ∧ s ∈ (f t).1.map Prod.fst) ∨ s ∈ (cfg.modelInput t).1.map Prod.fst

theorem moves_callInputs {T : World K → World K → Prop} [PreO T] (cfg : Config K) (t : K)
    (he : ∀ w : World K, T w { w with log := .input t :: w.log })
    (h : ∀ s, cfg.inputSigs s → ∀ (v : Val K) (w : World K),
      T w { w with sig := upd w.sig s { w.sig s with assigned := true, value := some v } }) :
    Moves T (callInputs cfg t : M K Unit) := by
  unfold callInputs
  have h2 : Moves T (applyInput cfg.dbg (cfg.modelInput t).1 (cfg.modelInput t).2 : M K Unit) := by
    refine moves_applyInput _ _ _ ?_
    intro p hp w
    exact h p.1 ⟨t, Or.inr (List.mem_map_of_mem hp)⟩ p.2 w
  refine Moves.bind (moves_emit _ he) (fun _ => ?_)
  dsimp only
  split
  · rename_i f hf
    refine Moves.bind (moves_applyInput _ _ _ ?_) (fun _ => h2)
    intro p hp w
    exact h p.1 ⟨t, Or.inl ⟨f, hf, List.mem_map_of_mem hp⟩⟩ p.2 w
  · exact h2

section
variable [Arith K]

mutual
theorem moves_preStep {T : World K → World K → Prop} [PreO T] (dbg : Bool) (t : K) (b : Block K)
    (h : ∀ l ∈ b.leaves, Moves T (l.pre dbg t)) : Moves T (b.preStep dbg t) := by
  cases b with
  | leaf l => exact h l (by simp [Block.leaves])
  | sub i ls kids => exact moves_preStepL dbg t kids h
theorem moves_preStepL {T : World K → World K → Prop} [PreO T] (dbg : Bool) (t : K) (bs : List (Block K))
    (h : ∀ l ∈ leavesL bs, Moves T (l.pre dbg t)) : Moves T (preStepL dbg t bs) := by
  cases bs with
  | nil => exact Moves.pure _
  | cons b bs =>
    exact Moves.bind (moves_preStep dbg t b (fun l hl => h l (by simp [leavesL, hl])))
      (fun _ => moves_preStepL dbg t bs (fun l hl => h l (by simp [leavesL, hl])))
end

mutual
theorem moves_postStep {T : World K → World K → Prop} [PreO T] (dbg : Bool) (t : K) (b : Block K)
    (h : ∀ l ∈ b.leaves, Moves T (l.post dbg t)) : Moves T (b.postStep dbg t) := by
  cases b with
  | leaf l => exact h l (by simp [Block.leaves])
  | sub i ls kids => exact moves_postStepL dbg t kids h
theorem moves_postStepL {T : World K → World K → Prop} [PreO T] (dbg : Bool) (t : K) (bs : List (Block K))
    (h : ∀ l ∈ leavesL bs, Moves T (l.post dbg t)) : Moves T (postStepL dbg t bs) := by
  cases bs with
  | nil => exact Moves.pure _
  | cons b bs =>
    exact Moves.bind (moves_postStep dbg t b (fun l hl => h l (by simp [leavesL, hl])))
      (fun _ => moves_postStepL dbg t bs (fun l hl => h l (by simp [leavesL, hl])))
end

theorem moves_pre {T : World K → World K → Prop} (dbg : Bool) (t : K) (l : Leaf K)
    (h : ∀ w w', Within (· ∈ l.preOuts) l.id { w with log := .pre l.id t :: w.log } w' → T w w') :
    Moves T (l.pre dbg t) := by
  intro w
  rw [pre_apply]
  refine h w _ ?_
  rw [← outW_eq_stateOf]
  exact frame_preBody dbg l t _

theorem moves_post {T : World K → World K → Prop} (dbg : Bool) (t : K) (l : Leaf K)
    (h : ∀ w w', Within (fun _ => False) l.id { w with log := .post l.id t :: w.log } w' → T w w') :
    Moves T (l.post dbg t) := by
  intro w
  rw [post_apply]
  refine h w _ ?_
  rw [← outW_eq_stateOf]
  exact frame_postBody dbg l t _

theorem moves_act {T : World K → World K → Prop} (dbg : Bool) (t : K) (l : Leaf K)
    (h : ∀ w w', Within (· ∈ l.outs) l.id { w with log := .act l.id t :: w.log } w' → T w w') :
    Moves T (l.act dbg t) := by
  intro w
  rw [act_apply]
  refine h w _ ?_
  rw [← outW_eq_stateOf]
  exact frame_actBody dbg l t _

theorem moves_actAll {T : World K → World K → Prop} [PreO T] (dbg : Bool) (t : K) (ls : List (Leaf K))
    (h : ∀ l ∈ ls, Moves T (l.act dbg t)) : Moves T (actAll dbg t ls) := by
  induction ls with
  | nil => exact Moves.pure _
  | cons l ls ih => exact Moves.bind (h l (by simp)) (fun _ => ih (fun l hl => h l (by simp [hl])))

theorem moves_writeScalars {T : World K → World K → Prop} [PreO T] (dbg : Bool) (ss : List SigId) (d : List K)
    (h : ∀ s ∈ ss, ∀ (v : Val K) (w : World K),
      T w { w with sig := upd w.sig s { w.sig s with assigned := true, value := some v } }) :
    Moves T (writeScalars dbg ss d) := by
  induction ss generalizing d with
  | nil => exact Moves.pure _
  | cons s ss ih =>
    cases d with
    | nil => exact Moves.throw _
    | cons x d =>
      exact Moves.bind (moves_setv dbg s _ (h s (by simp) _)) (fun _ => ih d (fun s hs => h s (by simp [hs])))

theorem moves_writeArrays {T : World K → World K → Prop} [PreO T] (dbg : Bool) (ss : List SigId) (d : List K)
    (h : ∀ s ∈ ss, ∀ (v : Val K) (w : World K),
      T w { w with sig := upd w.sig s { w.sig s with assigned := true, value := some v } }) :
    Moves T (writeArrays dbg ss d) := by
  induction ss generalizing d with
  | nil => exact Moves.pure _
  | cons s ss ih =>
    refine Moves.bind Moves.get (fun w => ?_)
    dsimp only
    split
    · exact Moves.throw _
    · exact Moves.bind (moves_setv dbg s _ (h s (by simp) _)) (fun _ => ih _ (fun s hs => h s (by simp [hs])))

theorem moves_readScalars {T : World K → World K → Prop} [PreO T] (dbg : Bool) (ss : List SigId) :
    Moves T (readScalars dbg ss) := by
  induction ss with
  | nil => exact Moves.pure _
  | cons s ss ih =>
    refine Moves.bind (Moves.bind (moves_getv dbg s) (fun v => ?_)) (fun x => Moves.bind ih (fun _ => Moves.pure _))
    cases v <;> first | exact Moves.pure _ | exact Moves.throw _

theorem moves_readArrays {T : World K → World K → Prop} [PreO T] (dbg : Bool) (ss : List SigId) :
    Moves T (readArrays dbg ss) := by
  induction ss with
  | nil => exact Moves.pure _
  | cons s ss ih =>
    refine Moves.bind Moves.get (fun w => Moves.bind (moves_getv dbg s) (fun v => ?_))
    cases v <;> try exact Moves.throw _
    dsimp only
    split
    · exact Moves.bind ih (fun _ => Moves.pure _)
    · exact Moves.throw _

end
end Pooya
