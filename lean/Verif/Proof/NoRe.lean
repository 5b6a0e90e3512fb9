import Verif.Proof.Hoare
import Verif.Proof.Assign
import Verif.Proof.Leafwise
import Verif.Proof.EvalLog
import Verif.Proof.Eval

/-! No phase of a call assigns a signal that is assigned already, if every signal has one driver. -/

namespace Pooya

set_option linter.unusedSectionVars false

variable {K : Type} [Arith K]

/-- The error is not the re-assignment exception. -/
def NotRe {σ : Type} (e : Err) (_ : σ) : Prop := e ≠ .exc .reassigned

theorem Free.mono {X Y : SigId → Prop} {w : World K} (h : Free X w) (hXY : ∀ s, Y s → X s) : Free Y w :=
  fun s hs => h s (hXY s hs)

theorem Free.keep {X O : SigId → Prop} {w w' : World K} (h : Free X w) (hm : SigOnly O w w') (hd : ∀ s, X s → ¬ O s) : Free X w' := by
  intro s hs; rw [hm s (hd s hs)]; exact h s hs

/-- A step that assigns only signals in `O` keeps the others free. -/
theorem Tri.free {α : Type} {P : World K → Prop} {x : M K α} {E : Err → World K → Prop} {X O : SigId → Prop}
    (h : Tri P x (fun _ _ => True) E) (hm : Moves (SigOnly O) x) (hP : ∀ w, P w → Free X w) (hd : ∀ s, X s → ¬ O s) :
    Tri P x (fun _ => Free X) E := by
  intro w hw
  have h1 := h w hw
  have h2 := hm w
  cases hx : x w with
  | ok a w' => rw [hx] at h2; exact (hP w hw).keep h2 hd
  | error e w' => rw [hx] at h1; exact h1

theorem Tri.ofErr {α : Type} {P : World K → Prop} {x : M K α} (h : ∀ w, P w → ∀ e w', x w = .error e w' → e ≠ .exc .reassigned) :
    Tri P x (fun _ _ => True) NotRe := by
  intro w hw
  cases hx : x w with
  | ok _ _ => trivial
  | error e w' => exact h w hw e w' hx

theorem setv_error {dbg : Bool} {s : SigId} {v : Val K} {w w' : World K} {e : Err} (h : setv dbg s v w = .error e w')
    (hf : (w.sig s).assigned = false) : e ≠ .exc .reassigned := NoRe.setv dbg v w hf e w' h

theorem setv_sigOnly {O : SigId → Prop} (dbg : Bool) {s : SigId} (hs : O s) (v : Val K) : Moves (SigOnly O) (setv dbg s v) := by
  refine moves_setv dbg s v (fun w x hx => ?_)
  have : x ≠ s := fun e => hx (e ▸ hs)
  simp [upd, this]

theorem applyInput_noRe {dbg : Bool} (l : List (SigId × Val K)) (e : Option Err) (he : e ≠ some (.exc .reassigned))
    (hn : (l.map Prod.fst).Nodup) :
    Tri (Free (· ∈ l.map Prod.fst)) (applyInput dbg l e : M K Unit) (fun _ _ => True) NotRe := by
  induction l with
  | nil =>
    intro w _
    cases e with
    | none => trivial
    | some e =>
      show e ≠ _
      intro h; exact he (by rw [h])
  | cons p l ih =>
    obtain ⟨s, v⟩ := p
    rw [List.map_cons, List.nodup_cons] at hn
    have ih := ih hn.2
    refine Tri.bind (R := fun _ => Free (· ∈ l.map Prod.fst)) ?_ (fun _ => ih)
    refine Tri.free (O := (· = s)) (X := (· ∈ l.map Prod.fst)) ?_ (setv_sigOnly (O := (· = s)) dbg rfl v) ?_ ?_
    · intro w hw
      cases hx : setv dbg s v w with
      | ok a w' => trivial
      | error e w' => exact setv_error hx (hw s (by simp))
    · exact fun w h => h.mono (fun s hs => by simp; right; simpa using hs)
    · rintro x hx rfl; exact hn.1 hx

theorem inputs_noRe {cfg : Config K} (hh : cfg.Honest) (t : K) (hn : (cfg.inputKeys t).Nodup) :
    Tri (Free (· ∈ cfg.inputKeys t)) (callInputs cfg t : M K Unit) (fun _ _ => True) NotRe := by
  unfold callInputs
  refine Tri.bind (R := fun _ => Free (· ∈ cfg.inputKeys t)) (fun w h => h) (fun _ => ?_)
  have h2 := applyInput_noRe (dbg := cfg.dbg) (cfg.modelInput t).1 (cfg.modelInput t).2 (hh.modelInput t)
    (by unfold Config.inputKeys at hn; exact (List.nodup_append.1 hn).2.1)
  cases hi : cfg.inputs with
  | none =>
    exact h2.weaken (fun w h => h.mono (fun s hs => by simp only [Config.inputKeys, List.mem_append]; exact Or.inr hs)) (fun _ _ h => h) (fun _ _ h => h)
  | some f =>
    simp only [Config.inputKeys, hi] at hn ⊢
    have h1 := applyInput_noRe (dbg := cfg.dbg) (f t).1 (f t).2 (hh.inputs f hi t) (List.nodup_append.1 hn).1
    refine Tri.bind (R := fun _ => Free (· ∈ (cfg.modelInput t).1.map Prod.fst)) ?_ (fun _ => h2)
    refine Tri.free (O := (· ∈ (f t).1.map Prod.fst)) (X := (· ∈ (cfg.modelInput t).1.map Prod.fst)) ?_ ?_ ?_ ?_
    · exact h1.weaken (fun w h => h.mono (fun s hs => List.mem_append_left _ hs)) (fun _ _ h => h) (fun _ _ h => h)
    · refine moves_applyInput _ _ _ (fun p hp w x hx => ?_)
      have : x ≠ p.1 := fun e => hx (e ▸ List.mem_map_of_mem hp)
      simp [upd, this]
    · exact fun w h => h.mono (fun s hs => List.mem_append_right _ hs)
    · intro x hx hx'
      exact (List.nodup_append.1 hn).2.2 x hx' x hx rfl

theorem inputs_sigOnly (cfg : Config K) (t : K) : Moves (SigOnly (· ∈ cfg.inputKeys t)) (callInputs cfg t : M K Unit) := by
  unfold callInputs
  refine Moves.bind (moves_emit _ (fun w s _ => rfl)) (fun _ => ?_)
  have key : ∀ l : List (SigId × Val K), (∀ s ∈ l.map Prod.fst, s ∈ cfg.inputKeys t) → ∀ e,
      Moves (SigOnly (· ∈ cfg.inputKeys t)) (applyInput cfg.dbg l e : M K Unit) := by
    intro l hl e
    refine moves_applyInput _ _ _ (fun p hp w x hx => ?_)
    have : x ≠ p.1 := fun e => hx (e ▸ hl _ (List.mem_map_of_mem hp))
    simp [upd, this]
  have h2 := key (cfg.modelInput t).1 (fun s hs => by simp only [Config.inputKeys, List.mem_append]; exact Or.inr hs) (cfg.modelInput t).2
  cases hi : cfg.inputs with
  | none => exact h2
  | some f =>
    exact Moves.bind (key (f t).1 (fun s hs => by simp only [Config.inputKeys, hi, List.mem_append]; exact Or.inl hs) _) (fun _ => h2)

theorem integPre_noRe {dbg : Bool} (b : BlkId) (o : SigId) : NoRe o (integPre dbg b o : M K Unit) := by
  unfold integPre
  refine Pure0.bindNoRe (fun w => ⟨fun _ => rfl, fun e w' h => by cases h⟩) (fun a => Pure0.bindNoRe ?_ (fun _ =>
    (Pure0.getMem _).bindNoRe (fun _ => NoRe.setv _ _)))
  intro w
  simp only [debugVerify]
  split
  · exact ⟨fun _ => rfl, fun e w' h => by cases h; simp⟩
  · exact ⟨fun _ => rfl, fun e w' h => by cases h⟩

theorem pre_noRe (dbg : Bool) (l : Leaf K) (t : K) (hh : ∀ c, l.kind = .custom c → ∀ t u, c.pre t u ≠ .error (.exc .reassigned))
    (hn : l.preOuts.Nodup) : Tri (Free (· ∈ l.preOuts)) (l.pre dbg t) (fun _ _ => True) NotRe := by
  unfold Leaf.pre
  refine Tri.bind (R := fun _ => Free (· ∈ l.preOuts)) (fun w h => h) (fun _ => ?_)
  unfold Leaf.preBody Leaf.preOuts
  unfold Leaf.preOuts at hn
  refine Tri.ofErr (fun w hw e w' h => ?_)
  cases hk : l.kind <;> simp only [hk] at hn hw h
  case integrator x o => exact integPre_noRe _ _ w (hw o (by simp [Kind.preOuts])) e w' h
  case trigInt x tr o =>
    refine (Pure0.getMem _).bindNoRe (fun m => ?_) w (hw o (by simp [Kind.preOuts])) e w' h
    split
    · exact (Pure0.setMem _ _).bindNoRe (fun _ => integPre_noRe _ _)
    · exact integPre_noRe _ _
  case custom c =>
    rw [bind_error] at h
    rcases h with h | ⟨m, w1, h1, h⟩
    · cases h
    cases h1
    rw [bind_error] at h
    rcases h with h | ⟨r, w1, h1, h⟩
    · exact (Pure0.lift (hh c hk t _) w).2 e w' h
    have hw1 : w1 = w := by
      cases hr : c.pre t (w.mem l.id).user with
      | ok a => rw [hr] at h1; cases h1; rfl
      | error e => rw [hr] at h1; cases h1
    subst hw1
    rw [bind_error] at h
    rcases h with h | ⟨_, w2, h2, h⟩
    · cases h
    cases h2
    have h' : (do setAll dbg c.preOuts r.2; (pure () : M K Unit)) { w1 with mem := upd w1.mem l.id { w1.mem l.id with user := r.1 } } = .error e w' := by
      rw [bind_pure_unit]; exact h
    exact setAll_noRe (ss := c.preOuts) hn r.2 (Pure0.pure ()) { w1 with mem := upd w1.mem l.id { w1.mem l.id with user := r.1 } }
      (fun s hs => hw s hs) e w' h'
  all_goals cases h

theorem preAll_noRe (dbg : Bool) (t : K) (ls : List (Leaf K))
    (hh : ∀ l ∈ ls, ∀ c, l.kind = .custom c → ∀ t u, c.pre t u ≠ .error (.exc .reassigned))
    (hn : ∀ l ∈ ls, l.preOuts.Nodup) (hid : (ls.map Leaf.id).Nodup)
    (hd : ∀ l ∈ ls, ∀ l' ∈ ls, ∀ s, s ∈ l.preOuts → s ∈ l'.preOuts → l.id = l'.id) :
    Tri (Free (fun s => ∃ l ∈ ls, s ∈ l.preOuts)) (preAll dbg t ls) (fun _ _ => True) NotRe := by
  induction ls with
  | nil => intro w _; trivial
  | cons l ls ih =>
    rw [List.map_cons, List.nodup_cons] at hid
    have ih := ih (fun l hl => hh l (by simp [hl])) (fun l hl => hn l (by simp [hl])) hid.2
      (fun l hl l' hl' => hd l (by simp [hl]) l' (by simp [hl']))
    refine Tri.bind (R := fun _ => Free (fun s => ∃ l ∈ ls, s ∈ l.preOuts)) ?_ (fun _ => ih)
    refine Tri.free (O := (· ∈ l.preOuts)) (X := fun s => ∃ l ∈ ls, s ∈ l.preOuts) ?_ ?_ ?_ ?_
    · exact (pre_noRe dbg l t (hh l (by simp)) (hn l (by simp))).weaken (fun w h => h.mono (fun s hs => ⟨l, by simp, hs⟩))
        (fun _ _ h => h) (fun _ _ h => h)
    · exact moves_pre dbg t l (fun w w' h s hs => h.sig s hs)
    · exact fun w h => h.mono (fun s ⟨l, hl, hs⟩ => ⟨l, by simp [hl], hs⟩)
    · rintro s ⟨l', hl', hs'⟩ hs
      exact hid.1 (List.mem_map.2 ⟨l', hl', hd l' (by simp [hl']) l (by simp) s hs' hs⟩)

theorem post_pure (dbg : Bool) (l : Leaf K) (t : K) (hh : ∀ c, l.kind = .custom c → ∀ t u v, c.post t u v ≠ .error (.exc .reassigned)) :
    Pure0 (l.post dbg t) := by
  have hv : ∀ (d c : Bool), Pure0 (debugVerify d c .debugVerify : M K Unit) := by
    intro d c w
    simp only [debugVerify]
    split
    · exact ⟨fun _ => rfl, fun e w' h => by cases h; simp⟩
    · exact ⟨fun _ => rfl, fun e w' h => by cases h⟩
  have ha : ∀ s, Pure0 (assigned s : M K Bool) := fun s w => ⟨fun _ => rfl, fun e w' h => by cases h⟩
  have hi : ∀ b o, Pure0 (integPost dbg b o : M K Unit) := fun b o =>
    Pure0.bind (ha _) (fun _ => Pure0.bind (hv _ _) (fun _ => Pure0.bind (Pure0.getv _ _) (fun _ => Pure0.bind (Pure0.getMem _) (fun _ => Pure0.setMem _ _))))
  unfold Leaf.post
  refine Pure0.bind (Pure0.emit _) (fun _ => ?_)
  unfold Leaf.postBody
  split
  · exact Pure0.bind (Pure0.getv _ _) (fun _ => Pure0.bind (Pure0.getMem _) (fun _ => Pure0.setMem _ _))
  · unfold delayPost
    refine Pure0.bind (Pure0.getMem _) (fun m => ?_)
    dsimp only
    split
    · exact Pure0.throw (by simp)
    · exact Pure0.bind (Pure0.setMem _ _) (fun _ => Pure0.bind (hv _ _) (fun _ => Pure0.bind (Pure0.setMem _ _) (fun _ =>
        Pure0.bind (Pure0.getv _ _) (fun _ => Pure0.setMem _ _))))
  · exact Pure0.bind (Pure0.getMem _) (fun _ => Pure0.bind (Pure0.setMem _ _) (fun _ => Pure0.bind (Pure0.getv _ _) (fun _ => Pure0.setMem _ _)))
  · exact hi _ _
  · exact hi _ _
  · rename_i c hk
    exact Pure0.bind (Pure0.getMem _) (fun _ => Pure0.bind (Pure0.getAll _ _) (fun _ => Pure0.bind (Pure0.lift (hh c hk _ _ _)) (fun _ => Pure0.setMem _ _)))
  · exact Pure0.pure _

theorem postAll_noRe (dbg : Bool) (t : K) (ls : List (Leaf K))
    (hh : ∀ l ∈ ls, ∀ c, l.kind = .custom c → ∀ t u v, c.post t u v ≠ .error (.exc .reassigned)) :
    Tri (fun _ => True) (postAll dbg t ls) (fun _ _ => True) NotRe := by
  induction ls with
  | nil => intro w _; trivial
  | cons l ls ih =>
    refine Tri.bind (R := fun _ _ => True) ?_ (fun _ => ih (fun l hl => hh l (by simp [hl])))
    intro w _
    have := (post_pure dbg l t (hh l (by simp)) w).2
    cases hx : l.post dbg t w with
    | ok a w' => trivial
    | error e w' => exact this e w' hx

theorem reads_noRe {dbg : Bool} (ss : List SigId) : Pure0 (readScalars dbg ss : M K _) ∧ Pure0 (readArrays dbg ss : M K _) := by
  induction ss with
  | nil => exact ⟨Pure0.pure _, Pure0.pure _⟩
  | cons s ss ih =>
    refine ⟨Pure0.bind (Pure0.getScalar _ _) (fun _ => Pure0.bind ih.1 (fun _ => Pure0.pure _)), ?_⟩
    unfold readArrays
    refine Pure0.bind (fun w => ⟨fun _ => rfl, fun e w' h => by cases h⟩) (fun w => Pure0.bind (Pure0.getv _ _) (fun v => ?_))
    split
    · split
      · exact Pure0.bind ih.2 (fun _ => Pure0.pure _)
      · exact Pure0.throw (by simp)
    · exact Pure0.throw (by simp)

theorem writeScalars_noRe {dbg : Bool} (ss : List SigId) (hn : ss.Nodup) (x : List K) :
    Tri (Free (· ∈ ss)) (writeScalars dbg ss x : M K _) (fun _ _ => True) NotRe := by
  induction ss generalizing x with
  | nil => intro w _; trivial
  | cons s ss ih =>
    rw [List.nodup_cons] at hn
    cases x with
    | nil => intro w _; show (_ : Err) ≠ _; simp
    | cons a x =>
      refine Tri.bind (R := fun _ => Free (· ∈ ss)) ?_ (fun _ => ih hn.2 x)
      refine Tri.free (O := (· = s)) (X := (· ∈ ss)) ?_ (setv_sigOnly (O := (· = s)) dbg rfl _) (fun w h => h.mono (fun s hs => by simp [hs])) ?_
      · intro w hw
        cases hx : setv dbg s (.scalar a) w with
        | ok _ w' => trivial
        | error e w' => exact setv_error hx (hw s (by simp))
      · rintro x hx rfl; exact hn.1 hx

theorem writeArrays_noRe {dbg : Bool} (ss : List SigId) (hn : ss.Nodup) (x : List K) :
    Tri (Free (· ∈ ss)) (writeArrays dbg ss x : M K _) (fun _ _ => True) NotRe := by
  induction ss generalizing x with
  | nil => intro w _; trivial
  | cons s ss ih =>
    rw [List.nodup_cons] at hn
    unfold writeArrays
    refine Tri.bind (R := fun _ => Free (· ∈ s :: ss)) (fun w h => h) (fun w0 => ?_)
    dsimp only
    split
    · intro w _; show (_ : Err) ≠ _; simp
    · refine Tri.bind (R := fun _ => Free (· ∈ ss)) ?_ (fun _ => ih hn.2 _)
      refine Tri.free (O := (· = s)) (X := (· ∈ ss)) ?_ (setv_sigOnly (O := (· = s)) dbg rfl _) (fun w h => h.mono (fun s hs => by simp [hs])) ?_
      · intro w hw
        cases hx : setv dbg s (.array (x.take (w0.sig s).ty.size)) w with
        | ok _ w' => trivial
        | error e w' => exact setv_error hx (hw s (by simp))
      · rintro x hx rfl; exact hn.1 hx

/-! ## The evaluation -/

/-- Outputs of leaves that have not run stay free. -/
theorem undriven_steps {L : List (Leaf K)} {dbg : Bool} {t : K} {I : BlkId → Prop}
    (hd : ∀ l ∈ L, ∀ l' ∈ L, ∀ s, s ∈ l.outs → s ∈ l'.outs → l.id = l'.id) (hI : ∀ l ∈ L, I l.id) {w w' : World K}
    {ls : List (Leaf K)} (h : Steps dbg t I w ls w') (hls : ∀ l ∈ ls, l ∈ L) (hU : Undriven L w) : Undriven L w' := by
  induction h with
  | nil w => exact hU
  | @act l w w1 w' ls hen hact _ ih =>
    refine ih (fun l hl => hls l (by simp [hl])) ?_
    have hw := act_within hact
    intro l' hl' hdn s hs
    by_cases e : l'.id = l.id
    · simp [upd, e] at hdn
    · have hdn' : w.done l'.id = false := by
        have : upd w1.done l.id true l'.id = w1.done l'.id := by simp [upd, e]
        simp only [this] at hdn
        rw [hw.done] at hdn; exact hdn
      have hns : s ∉ l.outs := fun h' => e (hd l' hl' l (hls l (by simp)) s hs h')
      show (w1.sig s).assigned = false
      rw [hw.sig s hns]; exact hU l' hl' hdn' s hs
  | @flag i d w w' ls hi _ ih =>
    refine ih hls (fun l hl hdn s hs => hU l hl ?_ s hs)
    have : l.id ≠ i := fun e => hi (e ▸ hI l hl)
    simpa [upd, this] using hdn

theorem actAll_noRe (dbg : Bool) (t : K) (ls : List (Leaf K)) (hh : ∀ l ∈ ls, l.Honest) (hn : ∀ l ∈ ls, l.outs.Nodup)
    (hid : (ls.map Leaf.id).Nodup) (hd : ∀ l ∈ ls, ∀ l' ∈ ls, ∀ s, s ∈ l.outs → s ∈ l'.outs → l.id = l'.id) :
    Tri (Free (fun s => ∃ l ∈ ls, s ∈ l.outs)) (actAll dbg t ls) (fun _ _ => True) NotRe := by
  induction ls with
  | nil => intro w _; trivial
  | cons l ls ih =>
    rw [List.map_cons, List.nodup_cons] at hid
    have ih := ih (fun l hl => hh l (by simp [hl])) (fun l hl => hn l (by simp [hl])) hid.2
      (fun l hl l' hl' => hd l (by simp [hl]) l' (by simp [hl']))
    refine Tri.bind (R := fun _ => Free (fun s => ∃ l ∈ ls, s ∈ l.outs)) ?_ (fun _ => ih)
    refine Tri.free (O := (· ∈ l.outs)) (X := fun s => ∃ l ∈ ls, s ∈ l.outs) ?_ ?_ ?_ ?_
    · intro w hw
      cases hx : l.act dbg t w with
      | ok _ w' => trivial
      | error e w' => exact act_noRe dbg l t (hh l (by simp)) (hn l (by simp)) w (fun s hs => hw s ⟨l, by simp, hs⟩) e w' hx
    · exact moves_act dbg t l (fun w w' h s hs => h.sig s hs)
    · exact fun w h => h.mono (fun s ⟨l, hl, hs⟩ => ⟨l, by simp [hl], hs⟩)
    · rintro s ⟨l', hl', hs'⟩ hs
      exact hid.1 (List.mem_map.2 ⟨l', hl', hd l' (by simp [hl']) l (by simp) s hs' hs⟩)

theorem eval_noRe {cfg : Config K} (hp : cfg.model.Proper) (hh : ∀ l ∈ cfg.model.leaves, l.Honest)
    (hn : ∀ l ∈ cfg.model.leaves, l.outs.Nodup)
    (hd : ∀ l ∈ cfg.model.leaves, ∀ l' ∈ cfg.model.leaves, ∀ s, s ∈ l.outs → s ∈ l'.outs → l.id = l'.id) (t : K) :
    Tri (fun m => OrderInv cfg m ∧ Free (fun s => ∃ l ∈ cfg.model.leaves, s ∈ l.outs) m.w) (evalModel cfg t)
      (fun _ _ => True) NotRe := by
  rintro m ⟨hi, hfree⟩
  have hI : ∀ l ∈ cfg.model.leaves, cfg.model.leafId l.id := fun l hl => List.mem_map_of_mem hl
  by_cases hs : cfg.strategy = .fast
  · have h := actAll_noRe cfg.dbg t m.s.fast.flatten (fun l hl => hh l (hi.fastSub l hl)) (fun l hl => hn l (hi.fastSub l hl))
      hi.fastNodup (fun l hl l' hl' => hd l (hi.fastSub l hl) l' (hi.fastSub l' hl')) m.w
      (hfree.mono (fun s ⟨l, hl, h⟩ => ⟨l, hi.fastSub l hl, h⟩))
    unfold evalModel
    simp only [hs, bind_apply, getSim, inW]
    cases hx : actAll cfg.dbg t m.s.fast.flatten m.w with
    | ok a w' => trivial
    | error e w' => rw [hx] at h; exact h
  · have h := eval_spec cfg hs hp (m := m) (fun _ => hi) t
    cases hx : evalModel cfg t m with
    | ok a m' => trivial
    | error e m' =>
      rw [hx] at h
      obtain ⟨w1, hm, hf⟩ := h
      show e ≠ _
      cases hf with
      | null _ _ he _ => rw [he]; simp
      | check _ _ _ _ _ _ he => rw [he]; simp
      | act ls wm h1 h2 h3 _ =>
        obtain ⟨l, hl, hen, ha⟩ := h3
        have hU := undriven_steps hd hI h2 h1 (by
          intro l hl _ s hs; rw [hm.sig]; exact hfree s ⟨l, hl, hs⟩)
        exact act_noRe cfg.dbg l t (hh l hl) (hn l hl) wm (hU l hl hen.1) e m'.w ha

theorem fastOrder_noRe {cfg : Config K} (hp : cfg.model.Proper) (hh : ∀ l ∈ cfg.model.leaves, l.Honest)
    (hn : ∀ l ∈ cfg.model.leaves, l.outs.Nodup)
    (hd : ∀ l ∈ cfg.model.leaves, ∀ l' ∈ cfg.model.leaves, ∀ s, s ∈ l.outs → s ∈ l'.outs → l.id = l'.id) (t : K) :
    Tri (Free (fun s => ∃ l ∈ cfg.model.leaves, s ∈ l.outs))
      (fastOrder cfg.dbg t cfg.model.leaves (cfg.model.leaves.length + 1)) (fun _ _ => True) NotRe := by
  intro w hfree
  have hI : ∀ l ∈ cfg.model.leaves, cfg.model.leafId l.id := fun l hl => List.mem_map_of_mem hl
  have h := fastOrder_completes (dbg := cfg.dbg) (t := t) (I := cfg.model.leafId) cfg.model.leaves hp.leafNodup hI
    (Nat.lt_succ_self _) w
  unfold Completes Evals at h
  rw [Nat.succ_eq_add_one] at h
  cases hx : fastOrder cfg.dbg t cfg.model.leaves (cfg.model.leaves.length + 1) w with
  | ok r w' => trivial
  | error e w' =>
    rw [hx] at h
    obtain ⟨ls, wm, h1, h2, l, hl, hen, ha⟩ := h
    have hU := undriven_steps hd hI h2 h1 (fun l hl _ s hs => hfree s ⟨l, hl, hs⟩)
    exact act_noRe cfg.dbg l t (hh l hl) (hn l hl) wm (hU l hl hen.1) e w' ha

end Pooya
