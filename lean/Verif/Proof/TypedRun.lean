import Verif.Proof.Typed
import Verif.Proof.Tied

/-! The calls of a simulator of a well-typed diagram do not run into undefined behaviour. -/

namespace Pooya

set_option linter.unusedSectionVars false

variable {K : Type} [Arith K] {pol : Policy} {cfg : Config K} {ty : SigId → Ty}

/-! ## Evaluations -/

namespace Keeps

theorem getDone (b : BlkId) : Keeps pol cfg ty (Pooya.getDone b) (fun _ => True) := fun _ hw => ⟨hw, trivial⟩

theorem setDone (b : BlkId) (d : Bool) : Keeps pol cfg ty (Pooya.setDone b d) (fun _ => True) :=
  fun _ hw => ⟨⟨hw.types, hw.cells, hw.members⟩, trivial⟩

theorem get : Keeps pol cfg ty (MonadState.get : M K (World K)) (fun w => ∀ s, (w.sig s).ty = ty s) := fun _ hw => ⟨hw, hw.types⟩

theorem clearAll (ss : List SigId) : Keeps pol cfg ty (Pooya.clearAll ss) (fun _ => True) := by
  intro w hw
  rw [clearAll_ok]
  refine ⟨⟨fun s => ?_, fun s => ?_, hw.members⟩, trivial⟩
  · dsimp only
    split
    · exact hw.types s
    · exact hw.types s
  · dsimp only
    split
    · exact ⟨fun e => (by cases e), (hw.cells s).fits⟩
    · exact hw.cells s

end Keeps

theorem keeps_leaf (h : cfg.WellTyped pol ty) (hc : CanCompare cfg) {l : Leaf K} (hl : l ∈ cfg.model.leaves) (t : K) :
    Keeps pol cfg ty (l.process cfg.dbg t) (fun _ => True) := by
  refine Keeps.bind (Keeps.getDone _) (fun d _ => Keeps.bind Keeps.get (fun w _ => ?_))
  split
  · exact Keeps.pure trivial
  · exact Keeps.bind (keeps_act h hc hl t) (fun _ _ => Keeps.bind (Keeps.setDone _ _) (fun _ _ => Keeps.pure trivial))

mutual
theorem keeps_process (h : cfg.WellTyped pol ty) (hc : CanCompare cfg) (t : K) : ∀ b : Block K, (∀ l ∈ b.leaves, l ∈ cfg.model.leaves) →
    Keeps pol cfg ty (b.process cfg.dbg t) (fun _ => True)
  | .leaf l, hb => by rw [Block.process]; exact keeps_leaf h hc (hb l (by simp [Block.leaves])) t
  | .sub i ls kids, hb => by
    rw [Block.process]
    refine Keeps.bind (Keeps.getDone _) (fun d _ => ?_)
    split
    · exact Keeps.pure trivial
    · exact Keeps.bind (Keeps.setDone _ _) (fun _ _ => keeps_processL h hc t i kids (by simpa [Block.leaves] using hb))
theorem keeps_processL (h : cfg.WellTyped pol ty) (hc : CanCompare cfg) (t : K) (i : BlkId) : ∀ bs : List (Block K), (∀ l ∈ leavesL bs, l ∈ cfg.model.leaves) →
    Keeps pol cfg ty (processL cfg.dbg t i bs) (fun _ => True)
  | [], _ => by rw [processL]; exact Keeps.pure trivial
  | b :: bs, hb => by
    rw [processL]
    refine Keeps.bind (keeps_process h hc t b (fun l hl => hb l (by simp [leavesL, hl]))) (fun n _ => Keeps.bind (Keeps.getDone _) (fun d _ => ?_))
    have hk : Keeps pol cfg ty (do let m ← processL cfg.dbg t i bs; pure (n + m)) (fun _ => True) :=
      Keeps.bind (keeps_processL h hc t i bs (fun l hl => hb l (by simp [leavesL, hl]))) (fun _ _ => Keeps.pure trivial)
    split
    · exact Keeps.bind (Keeps.setDone _ _) (fun _ _ => hk)
    · exact hk
end

mutual
theorem keeps_preStep (h : cfg.WellTyped pol ty) (t : K) : ∀ b : Block K, (∀ l ∈ b.leaves, l ∈ cfg.model.leaves) →
    Keeps pol cfg ty (b.preStep cfg.dbg t) (fun _ => True)
  | .leaf l, hb => by rw [Block.preStep]; exact keeps_pre h (hb l (by simp [Block.leaves])) t
  | .sub i ls kids, hb => by rw [Block.preStep]; exact keeps_preStepL h t kids (by simpa [Block.leaves] using hb)
theorem keeps_preStepL (h : cfg.WellTyped pol ty) (t : K) : ∀ bs : List (Block K), (∀ l ∈ leavesL bs, l ∈ cfg.model.leaves) →
    Keeps pol cfg ty (preStepL cfg.dbg t bs) (fun _ => True)
  | [], _ => by rw [preStepL]; exact Keeps.pure trivial
  | b :: bs, hb => by
    rw [preStepL]
    exact Keeps.bind (keeps_preStep h t b (fun l hl => hb l (by simp [leavesL, hl]))) (fun _ _ => keeps_preStepL h t bs (fun l hl => hb l (by simp [leavesL, hl])))
end

mutual
theorem keeps_postStep (h : cfg.WellTyped pol ty) (t : K) : ∀ b : Block K, (∀ l ∈ b.leaves, l ∈ cfg.model.leaves) →
    Keeps pol cfg ty (b.postStep cfg.dbg t) (fun _ => True)
  | .leaf l, hb => by rw [Block.postStep]; exact keeps_post h (hb l (by simp [Block.leaves])) t
  | .sub i ls kids, hb => by rw [Block.postStep]; exact keeps_postStepL h t kids (by simpa [Block.leaves] using hb)
theorem keeps_postStepL (h : cfg.WellTyped pol ty) (t : K) : ∀ bs : List (Block K), (∀ l ∈ leavesL bs, l ∈ cfg.model.leaves) →
    Keeps pol cfg ty (postStepL cfg.dbg t bs) (fun _ => True)
  | [], _ => by rw [postStepL]; exact Keeps.pure trivial
  | b :: bs, hb => by
    rw [postStepL]
    exact Keeps.bind (keeps_postStep h t b (fun l hl => hb l (by simp [leavesL, hl]))) (fun _ _ => keeps_postStepL h t bs (fun l hl => hb l (by simp [leavesL, hl])))
end

mutual
theorem keeps_mark : ∀ b : Block K, Keeps pol cfg ty b.mark (fun _ => True)
  | .leaf l => by rw [Block.mark]; exact Keeps.setDone _ _
  | .sub i ls kids => by rw [Block.mark]; exact Keeps.bind (Keeps.setDone _ _) (fun _ _ => keeps_markL kids)
theorem keeps_markL : ∀ bs : List (Block K), Keeps pol cfg ty (markL bs) (fun _ => True)
  | [] => by rw [markL]; exact Keeps.pure trivial
  | b :: bs => by rw [markL]; exact Keeps.bind (keeps_mark b) (fun _ _ => keeps_markL bs)
end

theorem keeps_plain (h : cfg.WellTyped pol ty) (hc : CanCompare cfg) (t : K) (n : Nat) :
    Keeps pol cfg ty (plainLoop cfg.dbg t cfg.model n) (fun _ => True) := by
  induction n with
  | zero => exact Keeps.throw trivial
  | succ n ih =>
    refine Keeps.bind (keeps_process h hc t _ (fun _ h => h)) (fun k _ => ?_)
    split
    · exact Keeps.pure trivial
    · exact ih

/-- The leaves in the list are leaves of the model. -/
def BlocksOf (cfg : Config K) (po : List (Block K)) : Prop := ∀ l, Block.leaf l ∈ po → l ∈ cfg.model.leaves

theorem keeps_shallow (h : cfg.WellTyped pol ty) (hc : CanCompare cfg) (t : K) (b : Block K) (hb : ∀ l, b = .leaf l → l ∈ cfg.model.leaves) :
    Keeps pol cfg ty (b.processShallow cfg.dbg t) (fun _ => True) := by
  cases b with
  | leaf l => exact keeps_leaf h hc (hb l rfl) t
  | sub i ls kids => exact Keeps.bind (Keeps.setDone _ _) (fun _ _ => Keeps.pure trivial)

theorem keeps_sweep (h : cfg.WellTyped pol ty) (hc : CanCompare cfg) (t : K) (po : List (Block K)) (hp : BlocksOf cfg po) :
    Keeps pol cfg ty (reuseSweep cfg.dbg t po) (fun r => ∀ b ∈ r, b ∈ po) := by
  induction po with
  | nil => exact Keeps.pure (by simp)
  | cons b bs ih =>
    have ih := ih (fun l hl => hp l (by simp [hl]))
    refine Keeps.bind (Keeps.getDone _) (fun d _ => ?_)
    split
    · exact ih.mono (fun r hr b' hb' => by simp [hr b' hb'])
    · refine Keeps.bind (keeps_shallow h hc t b (fun l e => hp l (by simp [e]))) (fun _ _ => Keeps.bind (Keeps.getDone _) (fun d' _ => Keeps.bind ih (fun r hr => Keeps.pure ?_)))
      intro b' hb'
      split at hb'
      · rcases List.mem_cons.1 hb' with e | e
        · simp [e]
        · simp [hr b' e]
      · simp [hr b' hb']

theorem keeps_loop (h : cfg.WellTyped pol ty) (hc : CanCompare cfg) (t : K) (po : List (Block K)) (hp : BlocksOf cfg po) (n : Nat) :
    Keeps pol cfg ty (reuseLoop cfg.dbg t po n) (fun r => ∀ b ∈ r, b ∈ po) := by
  induction n with
  | zero => exact Keeps.throw trivial
  | succ n ih =>
    refine Keeps.bind (keeps_sweep h hc t po hp) (fun new hnew => ?_)
    split
    · exact Keeps.pure (by simp)
    · refine Keeps.bind ih (fun r hr => Keeps.pure (fun b hb => ?_))
      rcases List.mem_append.1 hb with e | e
      · exact hnew b e
      · exact hr b e

theorem keeps_reuse (h : cfg.WellTyped pol ty) (hc : CanCompare cfg) (t : K) (po : List (Block K)) (hp : BlocksOf cfg po) :
    Keeps pol cfg ty (reuseEval cfg.dbg t po) (fun r => BlocksOf cfg r) := by
  refine Keeps.bind (keeps_loop h hc t po hp _) (fun r hr => Keeps.bind Keeps.get (fun w _ => Keeps.bind (Keeps.verify _ _) (fun _ _ => Keeps.pure ?_)))
  intro l hl
  rcases List.mem_append.1 hl with e | e
  · exact hp l (hr _ e)
  · exact hp l (List.mem_filter.1 e).1

theorem keeps_actAll (h : cfg.WellTyped pol ty) (hc : CanCompare cfg) (t : K) (ls : List (Leaf K)) (hl : ∀ l ∈ ls, l ∈ cfg.model.leaves) :
    Keeps pol cfg ty (actAll cfg.dbg t ls) (fun _ => True) := by
  induction ls with
  | nil => exact Keeps.pure trivial
  | cons l ls ih => exact Keeps.bind (keeps_act h hc (hl l (by simp)) t) (fun _ _ => ih (fun l' h' => hl l' (by simp [h'])))

theorem keeps_level (h : cfg.WellTyped pol ty) (hc : CanCompare cfg) (t : K) (ls : List (Leaf K)) (hl : ∀ l ∈ ls, l ∈ cfg.model.leaves) (k : Nat) :
    Keeps pol cfg ty (fastLevel cfg.dbg t k ls) (fun r => ∀ l ∈ r, l ∈ cfg.model.leaves) := by
  induction ls generalizing k with
  | nil => rw [fastLevel]; exact Keeps.pure (by simp)
  | cons l ls ih =>
    have ih := ih (fun l' h' => hl l' (by simp [h']))
    rw [fastLevel]
    split
    · exact Keeps.pure (by simp)
    · refine Keeps.bind (Keeps.getDone _) (fun d _ => Keeps.bind Keeps.get (fun w _ => ?_))
      split
      · exact ih k
      · refine Keeps.bind (keeps_leaf h hc (hl l (by simp)) t) (fun _ _ => Keeps.bind (Keeps.getDone _) (fun d' _ => ?_))
        split
        · refine Keeps.bind (ih _) (fun r hr => Keeps.pure (fun l' h' => ?_))
          rcases List.mem_cons.1 h' with e | e
          · exact e ▸ hl l (by simp)
          · exact hr l' e
        · exact Keeps.pure (by simp)

theorem keeps_order (h : cfg.WellTyped pol ty) (hc : CanCompare cfg) (t : K) (n : Nat) :
    Keeps pol cfg ty (fastOrder cfg.dbg t cfg.model.leaves n) (fun r => ∀ l ∈ r.1.flatten, l ∈ cfg.model.leaves) := by
  induction n with
  | zero => exact Keeps.throw trivial
  | succ n ih =>
    rw [fastOrder]
    refine Keeps.bind Keeps.get (fun w _ => ?_)
    dsimp only
    split
    · exact Keeps.pure (by simp)
    · refine Keeps.bind (keeps_level h hc t _ (fun _ h => h) _) (fun lv hlv => ?_)
      split
      · exact Keeps.pure (by simpa using hlv)
      · refine Keeps.bind ih (fun r hr => Keeps.pure (fun l hl => ?_))
        simp only [List.flatten_cons, List.mem_append] at hl
        rcases hl with e | e
        · exact hlv l e
        · exact hr l e

theorem keeps_applyInput (ps : List (SigId × Val K)) (o : Option Err) (hp : ∀ p ∈ ps, p.2.Goes pol (ty p.1)) (ho : ∀ e, o = some e → e.Fine pol) :
    Keeps pol cfg ty (applyInput true ps o) (fun _ => True) := by
  induction ps with
  | nil => exact Keeps.throwOpt ho
  | cons p ps ih => exact Keeps.bind (Keeps.setv p.1 (hp p (by simp))) (fun _ _ => ih (fun q hq => hp q (by simp [hq])))

theorem keeps_inputs (h : cfg.WellTyped pol ty) (t : K) : Keeps pol cfg ty (callInputs cfg t) (fun _ => True) := by
  have hm : Keeps pol cfg ty (applyInput cfg.dbg (cfg.modelInput t).1 (cfg.modelInput t).2) (fun _ => True) := by
    rw [h.dbg]; exact keeps_applyInput _ _ (h.modelInput t).1 (h.modelInput t).2
  refine Keeps.bind (Keeps.emit _) (fun _ _ => ?_)
  cases hi : cfg.inputs with
  | none => exact hm
  | some f =>
    have hf : Keeps pol cfg ty (applyInput cfg.dbg (f t).1 (f t).2) (fun _ => True) := by
      rw [h.dbg]; exact keeps_applyInput _ _ (h.inputs f hi t).1 (h.inputs f hi t).2
    exact Keeps.bind hf (fun _ _ => hm)

/-! ## The simulator -/

/-- The members of an initialised simulator; with `b`, the state vector has been written. -/
structure Sim.Fine (cfg : Config K) (ty : SigId → Ty) (b : Bool) (s : Sim K) : Prop where
  scalars : ∀ x ∈ s.scalarStates, ty x = .scalar ∧ (cfg.deriv x).isSome = true
  arrays : ∀ x ∈ s.arrayStates, (ty x).isArray = true ∧ (cfg.deriv x).isSome = true
  total : s.scalarStates.length + (s.arrayStates.map (fun x => (ty x).size)).sum = s.nState
  size : s.svSize = s.nState
  unset : s.sv = none → 0 < s.nState
  set : b = true → s.sv.isSome = true
  order : cfg.strategy = .reuse → ∃ po, s.po = some po ∧ BlocksOf cfg po
  fast : ∀ l ∈ s.fast.flatten, l ∈ cfg.model.leaves

/-- As `Keeps`, for the whole machine. -/
def KeepsM (pol : Policy) (cfg : Config K) (ty : SigId → Ty) (b c : Bool) {α : Type} (x : MM K α) (Q : α → Prop) : Prop :=
  Tri (fun m => m.w.Fine pol cfg ty ∧ m.s.Fine cfg ty b) x (fun a m => (m.w.Fine pol cfg ty ∧ m.s.Fine cfg ty c) ∧ Q a)
    (fun e m => Fails pol cfg ty e m.w ∧ m.s.Fine cfg ty false)

theorem Sim.Fine.drop {b : Bool} {s : Sim K} (h : s.Fine cfg ty b) : s.Fine cfg ty false :=
  ⟨h.scalars, h.arrays, h.total, h.size, h.unset, fun e => (by cases e), h.order, h.fast⟩

namespace KeepsM
variable {α β : Type} {b c d : Bool}

theorem bind {x : MM K α} {f : α → MM K β} {Q : α → Prop} {R : β → Prop} (hx : KeepsM pol cfg ty b c x Q) (hf : ∀ a, Q a → KeepsM pol cfg ty c d (f a) R) :
    KeepsM pol cfg ty b d (x >>= f) R := Tri.bind hx (fun a => Tri.pull (hf a))

theorem pure {a : α} {Q : α → Prop} (h : Q a) : KeepsM pol cfg ty b b (Pure.pure a : MM K α) Q := fun _ hw => ⟨hw, h⟩

theorem throw {e : Err} {Q : α → Prop} (h : e.Fine pol) : KeepsM pol cfg ty b c (throwE e : MM K α) Q := fun _ hw => ⟨⟨h, fun _ => hw.1⟩, hw.2.drop⟩

theorem mono {x : MM K α} {Q R : α → Prop} (h : KeepsM pol cfg ty b c x Q) (hq : ∀ a, Q a → R a) : KeepsM pol cfg ty b c x R :=
  Tri.weaken h (fun _ h => h) (fun _ _ h => ⟨h.1, hq _ h.2⟩) (fun _ _ h => h)

theorem lift {x : M K α} {Q : α → Prop} (h : Keeps pol cfg ty x Q) : KeepsM pol cfg ty b b (Pooya.inW x) Q :=
  Tri.weaken (Tri.inW h (Sim.Fine cfg ty b)) (fun _ h => h) (fun _ _ h => ⟨⟨h.1.1, h.2⟩, h.1.2⟩) (fun _ _ h => ⟨h.1, h.2.drop⟩)

theorem getSim : KeepsM pol cfg ty b b (Pooya.getSim : MM K (Sim K)) (fun s => s.Fine cfg ty b) := fun _ h => ⟨h, h.2⟩

theorem setSim {f : Sim K → Sim K} (hf : ∀ s, s.Fine cfg ty b → (f s).Fine cfg ty c) : KeepsM pol cfg ty b c (Pooya.setSim f) (fun _ => True) :=
  fun _ h => ⟨⟨h.1, hf _ h.2⟩, trivial⟩

theorem verify (dd cc : Bool) : KeepsM pol cfg ty b b (debugVerify dd cc .debugVerify : MM K Unit) (fun _ => dd = true → cc = true) :=
  Tri.verify (fun _ h h' => ⟨h, h'⟩) (fun _ h => ⟨⟨trivial, fun _ => h.1⟩, h.2.drop⟩)

theorem exec {n : Nat} {f : K → List K → MM K (List K)} (hf : ∀ t v, v.length = n → KeepsM pol cfg ty b b (f t v) (fun r => r.length = n)) (p : StepProg K) (hp : p.Dim n) :
    KeepsM pol cfg ty b b (p.exec f) (fun r => r.1.length = n) :=
  Tri.execV (I := fun m : Machine K => m.w.Fine pol cfg ty ∧ m.s.Fine cfg ty b) hf p hp

end KeepsM

theorem levelFound_mem (dbg : Bool) (t : K) (k : Nat) (ls : List (Leaf K)) (w : World K) : ∀ l ∈ levelFound dbg t k ls w, l ∈ ls := by
  induction ls generalizing k w with
  | nil => simp [levelFound]
  | cons a ls ih =>
    rw [levelFound]
    split
    · simp
    · split
      · exact fun l hl => .tail _ (ih _ _ l hl)
      · split
        · split
          · exact fun l hl => by
              rcases List.mem_cons.1 hl with rfl | hl
              · exact .head _
              · exact .tail _ (ih _ _ l hl)
          · simp
        · simp

theorem keeps_levels (h : cfg.WellTyped pol ty) (hc : CanCompare cfg) (t : K) :
    KeepsM pol cfg ty false false (levels cfg t) (fun r => ∀ l ∈ r.1.flatten, l ∈ cfg.model.leaves) := by
  have hmem : ∀ (n : Nat) (w : World K), w.Fine pol cfg ty → ∀ l ∈ (fastFound cfg.dbg t cfg.model.leaves n w).flatten, l ∈ cfg.model.leaves := by
    intro n
    induction n with
    | zero => intro w _; simp [fastFound]
    | succ n ih =>
      intro w hw
      rw [fastFound]
      split
      · simp
      · have hl := keeps_level h hc t cfg.model.leaves (fun _ h => h) (fastCount w cfg.model.leaves) w hw
        split
        · rename_i lv w' e
          rw [e] at hl
          split
          · simpa using hl.2
          · intro l hm
            rw [List.flatten_cons, List.mem_append] at hm
            exact hm.elim (hl.2 l) (ih w' hl.1 l)
        · simpa using levelFound_mem cfg.dbg t _ _ w
  intro m hm
  have ho := keeps_order h hc t (cfg.model.leaves.length + 1) m.w hm.1
  unfold levels
  cases hx : fastOrder cfg.dbg t cfg.model.leaves (cfg.model.leaves.length + 1) m.w with
  | ok r w => rw [hx] at ho; exact ⟨⟨ho.1, hm.2⟩, ho.2⟩
  | error e w =>
    rw [hx] at ho
    have g := hm.2
    refine ⟨ho, ⟨g.scalars, g.arrays, g.total, g.size, g.unset, fun e => (by cases e), g.order, fun l hl => ?_⟩⟩
    simp only [List.flatten_append, List.mem_append] at hl
    exact hl.elim (g.fast l) (hmem _ _ hm.1 l)

theorem keeps_eval (h : cfg.WellTyped pol ty) (hc : CanCompare cfg) (t : K) (b : Bool) : KeepsM pol cfg ty b b (evalModel cfg t) (fun _ => True) := by
  unfold evalModel
  cases hs : cfg.strategy with
  | plain => exact KeepsM.bind (KeepsM.lift (keeps_mark _)) (fun _ _ => KeepsM.lift (keeps_plain h hc t _))
  | reuse =>
    refine KeepsM.bind (KeepsM.lift (keeps_mark _)) (fun _ _ => KeepsM.bind KeepsM.getSim (fun s hsf => ?_))
    obtain ⟨po, hpo, hw⟩ := hsf.order hs
    rw [hpo]
    refine KeepsM.bind (KeepsM.lift (keeps_reuse h hc t po hw)) (fun r hr => KeepsM.setSim (fun s g => ?_))
    exact ⟨g.scalars, g.arrays, g.total, g.size, g.unset, g.set, fun _ => ⟨r, rfl, hr⟩, g.fast⟩
  | fast => exact KeepsM.bind KeepsM.getSim (fun s hsf => KeepsM.lift (keeps_actAll h hc t _ hsf.fast))

theorem keeps_processModel (h : cfg.WellTyped pol ty) (hc : CanCompare cfg) (t : K) (pre post : Bool) (b : Bool) :
    KeepsM pol cfg ty b b (processModel cfg t pre post) (fun _ => True) := by
  have hq : KeepsM pol cfg ty b b (if post then inW (cfg.model.postStep cfg.dbg t) else pure ()) (fun _ => True) := by
    split
    · exact KeepsM.lift (keeps_postStep h t _ (fun _ h => h))
    · exact KeepsM.pure trivial
  refine KeepsM.bind (KeepsM.lift (keeps_inputs h t)) (fun _ _ => ?_)
  cases pre with
  | true =>
    exact KeepsM.bind (KeepsM.lift (keeps_preStep h t _ (fun _ h => h))) (fun _ _ => KeepsM.bind (keeps_eval h hc t b) (fun _ _ => hq))
  | false => exact KeepsM.bind (keeps_eval h hc t b) (fun _ _ => hq)

/-! ### State vectors -/

theorem keeps_writeScalars (ss : List SigId) (hs : ∀ s ∈ ss, ty s = .scalar) (d : List K) (hd : ss.length ≤ d.length) :
    Keeps pol cfg ty (writeScalars true ss d) (fun r => r.length + ss.length = d.length) := by
  induction ss generalizing d with
  | nil => exact Keeps.pure (by simp)
  | cons s ss ih =>
    cases d with
    | nil => simp at hd
    | cons x d =>
      refine Keeps.bind (Keeps.setv s (by rw [hs s (by simp)]; exact ⟨rfl, fun _ => rfl⟩)) (fun _ _ => ?_)
      refine (ih (fun s h => hs s (by simp [h])) d (by simpa using hd)).mono (fun r hr => ?_)
      simp only [List.length_cons]; omega

theorem keeps_writeArrays (ss : List SigId) (hs : ∀ s ∈ ss, (ty s).isArray = true) (d : List K) (hd : (ss.map (fun x => (ty x).size)).sum ≤ d.length) :
    Keeps pol cfg ty (writeArrays true ss d) (fun _ => True) := by
  induction ss generalizing d with
  | nil => exact Keeps.pure trivial
  | cons s ss ih =>
    simp only [List.map_cons, List.sum_cons] at hd
    refine Keeps.bind Keeps.get (fun w hw => ?_)
    dsimp only
    rw [hw s, if_neg (by omega)]
    have hst := hs s (by simp)
    refine Keeps.bind (Keeps.setv s ?_) (fun _ _ => ih (fun s h => hs s (by simp [h])) _ (by rw [List.length_drop]; omega))
    cases ht : ty s with
    | array n =>
      rw [ht] at hd
      refine ⟨rfl, fun _ => ?_⟩
      simp only [Val.sizeOk, Ty.size, List.length_take, beq_iff_eq] at hd ⊢
      omega
    | _ => rw [ht] at hst; cases hst

theorem keeps_reset (h : cfg.WellTyped pol ty) (x : List K) (b : Bool) (n : Nat) (hx : x.length = n) :
    Tri (fun m => (m.w.Fine pol cfg ty ∧ m.s.Fine cfg ty b) ∧ m.s.nState = n) (resetWith cfg x) (fun _ m => m.w.Fine pol cfg ty ∧ m.s.Fine cfg ty b)
      (fun e m => Fails pol cfg ty e m.w ∧ m.s.Fine cfg ty false) := by
  have key : ∀ s : Sim K, s.Fine cfg ty b → s.nState = n → KeepsM pol cfg ty b b (do
      inW (clearAll s.valueSigs)
      let d ← inW (writeScalars cfg.dbg s.scalarStates x)
      inW (writeArrays cfg.dbg s.arrayStates d)) (fun _ => True) := by
    intro s hs hn
    have ht := hs.total
    rw [h.dbg]
    refine KeepsM.bind (KeepsM.lift (Keeps.clearAll _)) (fun _ _ => ?_)
    refine KeepsM.bind (KeepsM.lift (keeps_writeScalars _ (fun y hy => (hs.scalars y hy).1) x (by omega))) (fun d hd => ?_)
    exact KeepsM.lift (keeps_writeArrays _ (fun y hy => (hs.arrays y hy).1) d (by omega))
  intro m hm
  have := key m.s hm.1.2 hm.2 m hm.1
  unfold resetWith
  rw [bind_apply]
  simp only [getSim]
  revert this
  cases ((do
      inW (clearAll m.s.valueSigs)
      let d ← inW (writeScalars cfg.dbg m.s.scalarStates x)
      inW (writeArrays cfg.dbg m.s.arrayStates d)) m) with
  | ok a m' => exact fun h => h.1
  | error e m' => exact fun h => h

theorem keeps_readScalars (ss : List SigId) (hs : ∀ s ∈ ss, ty s = .scalar) :
    Keeps pol cfg ty (readScalars true ss) (fun r => r.length = ss.length) := by
  induction ss with
  | nil => exact Keeps.pure rfl
  | cons s ss ih =>
    exact Keeps.bind (Keeps.getScalar s (hs s (by simp))) (fun x _ => Keeps.bind (ih (fun s h => hs s (by simp [h]))) (fun xs hxs => Keeps.pure (by simp [hxs])))

theorem keeps_readArrays (ss : List SigId) (hs : ∀ s ∈ ss, (ty s).isArray = true) :
    Keeps pol cfg ty (readArrays true ss) (fun r => r.length = (ss.map (fun x => (ty x).size)).sum) := by
  induction ss with
  | nil => exact Keeps.pure rfl
  | cons s ss ih =>
    refine Keeps.bind Keeps.get (fun w hw => Keeps.bind (Keeps.getv s) (fun v hv => ?_))
    have hst := hs s (by simp)
    rw [hw s]
    obtain ⟨h1, h2⟩ := hv
    cases ht : ty s with
    | array n =>
      rw [ht] at h1 h2
      cases v with
      | array a =>
        have ha : a.length = n := by simpa [Val.sizeOk] using h2
        have ha' : a.length = (Ty.array n).size := ha
        dsimp only
        rw [if_pos ha']
        refine Keeps.bind (ih (fun s h => hs s (by simp [h]))) (fun xs hxs => Keeps.pure ?_)
        simp [hxs, ht, Ty.size, ha]
      | _ => simp [Val.hasTag] at h1
    | _ => rw [ht] at hst; cases hst

theorem keeps_getStates (h : cfg.WellTyped pol ty) (b : Bool) (n : Nat) :
    Tri (fun m => (m.w.Fine pol cfg ty ∧ m.s.Fine cfg ty b) ∧ m.s.nState = n) (getStates cfg)
      (fun x m => (m.w.Fine pol cfg ty ∧ m.s.Fine cfg ty b) ∧ x.length = n) (fun e m => Fails pol cfg ty e m.w ∧ m.s.Fine cfg ty false) := by
  rintro m ⟨hm, hn⟩
  have hs := hm.2
  have ht := hs.total
  have key : KeepsM pol cfg ty b b (do
      let x ← inW (readScalars cfg.dbg m.s.scalarStates)
      let y ← inW (readArrays cfg.dbg m.s.arrayStates)
      if (x ++ y).length = m.s.svSize then pure (x ++ y) else throwE (.ub .outOfBounds)) (fun x => x.length = n) := by
    rw [h.dbg]
    refine KeepsM.bind (KeepsM.lift (keeps_readScalars _ (fun y hy => (hs.scalars y hy).1))) (fun x hx => ?_)
    refine KeepsM.bind (KeepsM.lift (keeps_readArrays _ (fun y hy => (hs.arrays y hy).1))) (fun y hy => ?_)
    have hl : (x ++ y).length = m.s.svSize := by rw [List.length_append, hs.size]; omega
    rw [if_pos hl]
    exact KeepsM.pure (by rw [hl, hs.size, hn])
  exact key m hm

theorem derivs_typed (h : cfg.WellTyped pol ty) {ss : List SigId} (hs : ∀ s ∈ ss, (cfg.deriv s).isSome = true) :
    ∃ ds, derivsOf cfg ss = some ds ∧ List.Forall₂ (fun s d => ty d = ty s) ss ds := by
  induction ss with
  | nil => exact ⟨[], rfl, .nil⟩
  | cons s ss ih =>
    obtain ⟨ds, h1, h2⟩ := ih (fun s h => hs s (by simp [h]))
    obtain ⟨d, hd⟩ := Option.isSome_iff_exists.1 (hs s (by simp))
    exact ⟨d :: ds, by simp [derivsOf, hd, h1], .cons (h.deriv s d hd).2 h2⟩

theorem forall_right {ss ds : List SigId} {P : Ty → Prop} (h : List.Forall₂ (fun s d => ty d = ty s) ss ds) (hs : ∀ s ∈ ss, P (ty s)) : ∀ d ∈ ds, P (ty d) := by
  induction h with
  | nil => simp
  | @cons s d ss ds e _ ih =>
    intro x hx
    rcases List.mem_cons.1 hx with e1 | e1
    · subst e1; rw [e]; exact hs s (by simp)
    · exact ih (fun s h => hs s (by simp [h])) x e1

theorem sizes_right {ss ds : List SigId} (h : List.Forall₂ (fun s d => ty d = ty s) ss ds) :
    (ds.map (fun x => (ty x).size)).sum = (ss.map (fun x => (ty x).size)).sum := by
  induction h with
  | nil => rfl
  | cons e _ ih => simp [e, ih]

theorem keeps_getDerivs (h : cfg.WellTyped pol ty) (b : Bool) (n : Nat) :
    Tri (fun m => (m.w.Fine pol cfg ty ∧ m.s.Fine cfg ty b) ∧ m.s.nState = n) (getDerivs cfg)
      (fun x m => (m.w.Fine pol cfg ty ∧ m.s.Fine cfg ty b) ∧ x.length = n) (fun e m => Fails pol cfg ty e m.w ∧ m.s.Fine cfg ty false) := by
  rintro m ⟨hm, hn⟩
  have hs := hm.2
  have ht := hs.total
  obtain ⟨ds, e1, f1⟩ := derivs_typed h (fun y hy => (hs.scalars y hy).2)
  obtain ⟨da, e2, f2⟩ := derivs_typed h (fun y hy => (hs.arrays y hy).2)
  have key : KeepsM pol cfg ty b b (do
      let x ← inW (readScalars cfg.dbg ds)
      let y ← inW (readArrays cfg.dbg da)
      if (x ++ y).length = m.s.nState then pure (x ++ y) else throwE (.ub .outOfBounds)) (fun x => x.length = n) := by
    rw [h.dbg]
    refine KeepsM.bind (KeepsM.lift (keeps_readScalars _ (forall_right (P := fun T => T = .scalar) f1 (fun y hy => (hs.scalars y hy).1)))) (fun x hx => ?_)
    refine KeepsM.bind (KeepsM.lift (keeps_readArrays _ (forall_right (P := fun T => T.isArray = true) f2 (fun y hy => (hs.arrays y hy).1)))) (fun y hy => ?_)
    have hl : (x ++ y).length = m.s.nState := by
      rw [List.length_append, hx, hy, sizes_right f2, ← f1.length_eq]; exact ht
    rw [if_pos hl]
    exact KeepsM.pure (by rw [hl, hn])
  have e : getDerivs cfg m = (do
      let x ← inW (readScalars cfg.dbg ds)
      let y ← inW (readArrays cfg.dbg da)
      if (x ++ y).length = m.s.nState then pure (x ++ y) else throwE (.ub .outOfBounds)) m := by
    unfold getDerivs
    rw [bind_apply]
    simp only [getSim, e1, e2]
  rw [e]
  exact key m hm

/-! ### Parts of `run` -/

/-- As `KeepsM`, with `n` state variables. -/
def KeepsN (pol : Policy) (cfg : Config K) (ty : SigId → Ty) (n : Nat) (b c : Bool) {α : Type} (x : MM K α) (Q : α → Prop) : Prop :=
  Tri (fun m => (m.w.Fine pol cfg ty ∧ m.s.Fine cfg ty b) ∧ m.s.nState = n) x (fun a m => ((m.w.Fine pol cfg ty ∧ m.s.Fine cfg ty c) ∧ m.s.nState = n) ∧ Q a)
    (fun e m => Fails pol cfg ty e m.w ∧ m.s.Fine cfg ty false)

namespace KeepsN
variable {α β : Type} {b c d : Bool} {n : Nat}

theorem bind {x : MM K α} {f : α → MM K β} {Q : α → Prop} {R : β → Prop} (hx : KeepsN pol cfg ty n b c x Q) (hf : ∀ a, Q a → KeepsN pol cfg ty n c d (f a) R) :
    KeepsN pol cfg ty n b d (x >>= f) R := Tri.bind hx (fun a => Tri.pull (hf a))

theorem pure {a : α} {Q : α → Prop} (h : Q a) : KeepsN pol cfg ty n b b (Pure.pure a : MM K α) Q := fun _ hw => ⟨hw, h⟩

theorem throw {e : Err} {Q : α → Prop} (h : e.Fine pol) : KeepsN pol cfg ty n b c (throwE e : MM K α) Q := fun _ hw => ⟨⟨h, fun _ => hw.1.1⟩, hw.1.2.drop⟩

theorem drop {x : MM K α} {Q : α → Prop} (h : KeepsN pol cfg ty n b true x Q) : KeepsN pol cfg ty n b false x Q :=
  Tri.weaken h (fun _ h => h) (fun _ _ h => ⟨⟨⟨h.1.1.1, h.1.1.2.drop⟩, h.1.2⟩, h.2⟩) (fun _ _ h => h)

theorem ofFixed {x : MM K α} {Q : α → Prop} (hx : Tri (fun m => (m.w.Fine pol cfg ty ∧ m.s.Fine cfg ty b) ∧ m.s.nState = n) x
      (fun a m => (m.w.Fine pol cfg ty ∧ m.s.Fine cfg ty c) ∧ Q a) (fun e m => Fails pol cfg ty e m.w ∧ m.s.Fine cfg ty false))
    (hf : ∀ m, (stateOf (x m)).s.nState = m.s.nState) : KeepsN pol cfg ty n b c x Q := by
  intro m hm
  have h1 := hx m hm
  have h2 := hf m
  cases hr : x m with
  | ok a m' => rw [hr] at h1 h2; exact ⟨⟨h1.1, h2.trans hm.2⟩, h1.2⟩
  | error e m' => rw [hr] at h1; exact h1

theorem ofM {x : MM K α} {Q : α → Prop} (hx : KeepsM pol cfg ty b c x Q) (hf : ∀ m, (stateOf (x m)).s.nState = m.s.nState) : KeepsN pol cfg ty n b c x Q :=
  ofFixed (fun m hm => hx m hm.1) hf

theorem lift {x : M K α} {Q : α → Prop} (h : Keeps pol cfg ty x Q) : KeepsN pol cfg ty n b b (Pooya.inW x) Q :=
  ofM (KeepsM.lift h) (fun m => by rw [inW_sim])

theorem verify (dd cc : Bool) : KeepsN pol cfg ty n b b (debugVerify dd cc .debugVerify : MM K Unit) (fun _ => dd = true → cc = true) :=
  Tri.verify (fun _ h h' => ⟨h, h'⟩) (fun _ h => ⟨⟨trivial, fun _ => h.1.1⟩, h.1.2.drop⟩)

theorem exec {f : K → List K → MM K (List K)} (hf : ∀ t v, v.length = n → KeepsN pol cfg ty n b b (f t v) (fun r => r.length = n)) (p : StepProg K) (hp : p.Dim n) :
    KeepsN pol cfg ty n b b (p.exec f) (fun r => r.1.length = n) :=
  Tri.execV (I := fun m : Machine K => (m.w.Fine pol cfg ty ∧ m.s.Fine cfg ty b) ∧ m.s.nState = n) hf p hp

theorem reset (h : cfg.WellTyped pol ty) {x : List K} (hx : x.length = n) : KeepsN pol cfg ty n b b (resetWith cfg x) (fun _ => True) :=
  ofFixed (Tri.weaken (keeps_reset h x b n hx) (fun _ h => h) (fun _ _ h => ⟨h, trivial⟩) (fun _ _ h => h)) (fun m => by rw [resetWith_sim])

theorem processModel (h : cfg.WellTyped pol ty) (hc : CanCompare cfg) (t : K) (p q : Bool) : KeepsN pol cfg ty n b b (Pooya.processModel cfg t p q) (fun _ => True) :=
  ofM (keeps_processModel h hc t p q b) (fun m => by rw [processModel_sim])

theorem sv {x : List K} (hx : x.length = n) : KeepsN pol cfg ty n b true (setSim (fun s : Sim K => { s with sv := some x })) (fun _ => True) := by
  rintro m ⟨⟨h1, h2⟩, hn⟩
  refine ⟨⟨⟨h1, ⟨h2.scalars, h2.arrays, h2.total, ?_, fun e => (by cases e), fun _ => rfl, h2.order, h2.fast⟩⟩, hn⟩, trivial⟩
  show x.length = m.s.nState
  rw [hx, hn]

theorem read {x : MM K (List K)} (hx : Tri (fun m => (m.w.Fine pol cfg ty ∧ m.s.Fine cfg ty b) ∧ m.s.nState = n) x
      (fun x m => (m.w.Fine pol cfg ty ∧ m.s.Fine cfg ty b) ∧ x.length = n) (fun e m => Fails pol cfg ty e m.w ∧ m.s.Fine cfg ty false))
    (hs : ∀ n, Tri (SizedN n) x (fun x m => SizedN n m ∧ x.length = n) (fun _ => SizedN n)) : KeepsN pol cfg ty n b b x (fun r => r.length = n) := by
  intro m hm
  have h1 := hx m hm
  have h2 := hs n m ⟨hm.1.2.size.trans hm.2, hm.2⟩
  cases hr : x m with
  | ok a m' => rw [hr] at h1 h2; exact ⟨⟨h1.1, h2.1.2⟩, h1.2⟩
  | error e m' => rw [hr] at h1; exact h1

theorem minor (h : cfg.WellTyped pol ty) (hc : CanCompare cfg) (t : K) (v : List K) (hv : v.length = n) :
    KeepsN pol cfg ty n b b (minorCb cfg t v) (fun r => r.length = n) :=
  bind (reset h hv) (fun _ _ => bind (processModel h hc t false false) (fun _ _ => read (keeps_getDerivs h b n) (fun n => sized_getDerivs cfg)))

theorem begin (h : cfg.WellTyped pol ty) (t : K) : KeepsN pol cfg ty n b b (beginStep cfg t) (fun r => r.length = n) := by
  unfold beginStep
  refine bind (Q := fun _ => True) (fun m hm => ⟨hm, trivial⟩) (fun s _ => ?_)
  exact bind (lift (Keeps.clearAll _)) (fun _ _ => bind (lift (keeps_inputs h t)) (fun _ _ => bind (lift (keeps_preStep h t _ (fun _ h => h)))
    (fun _ _ => read (keeps_getStates h b n) (fun n => sized_getStates cfg))))

end KeepsN

theorem keeps_subLoop (h : cfg.WellTyped pol ty) (hc : CanCompare cfg) (hst : cfg.stepper.isSome = true) {n : Nat} (t minH maxH : K) (k : Nat) (t1 t2 : K) (f : Bool) (b : Bool)
    (hb : b = true ∨ (t1 <. t) = true) : KeepsN pol cfg ty n b true (subLoop cfg t minH maxH k t1 t2 f) (fun _ => True) := by
  induction k generalizing t1 t2 f b with
  | zero => exact KeepsN.throw trivial
  | succ k ih =>
    unfold subLoop
    by_cases hlt : (t1 <. t) = true
    · rw [hlt]
      simp only [Bool.not_true, Bool.false_eq_true, if_false]
      refine KeepsN.bind (KeepsN.begin h t1) (fun orig ho => KeepsN.bind (KeepsN.lift (Keeps.emit _)) (fun _ _ => ?_))
      cases hs : cfg.stepper with
      | none => rw [hs] at hst; cases hst
      | some st =>
        dsimp only
        refine KeepsN.bind (KeepsN.exec (fun s v hv => KeepsN.minor h hc s v hv) _ (ho ▸ h.stepper st hs t1 t2 orig)) (fun r hr => ?_)
        refine KeepsN.bind (KeepsN.sv hr) (fun _ _ => ?_)
        split
        · refine KeepsN.bind (KeepsN.lift (Keeps.emit _)) (fun _ _ => ?_)
          have hk := ih t2 (fmin (t2 +. fmax minH (fmin r.2 maxH)) t) false true (.inl rfl)
          split
          · exact KeepsN.bind (KeepsN.reset h hr) (fun _ _ => KeepsN.bind (KeepsN.processModel h hc _ _ _) (fun _ _ => hk))
          · exact hk
        · exact ih _ _ _ true (.inl rfl)
    · have hb : b = true := hb.resolve_right hlt
      subst hb
      simp only [hlt, Bool.not_false, if_true]
      exact KeepsN.pure trivial

theorem keeps_advance (h : cfg.WellTyped pol ty) (hc : CanCompare cfg) {n : Nat} (fuel : Nat) (t minH maxH : K) (m : Machine K) (hm : m.w.Fine pol cfg ty ∧ m.s.Fine cfg ty false)
    (hn : m.s.nState = n) (ht : Comparable t m.s.tPrev) :
    match advance cfg fuel t minH maxH m with
    | .ok _ m' => (m'.w.Fine pol cfg ty ∧ m'.s.Fine cfg ty true) ∧ m'.s.nState = n
    | .error e m' => Fails pol cfg ty e m'.w ∧ m'.s.Fine cfg ty false := by
  have key : KeepsN pol cfg ty n false true (if t <. m.s.tPrev then throwE (.exc .backInTime)
      else if t ==. m.s.tPrev then do
        inW (emit (.warnRepeated t))
        let x ← beginStep cfg t
        setSim (fun s => { s with sv := some x })
      else do
        debugVerify cfg.dbg cfg.stepper.isSome .debugVerify
        debugVerify cfg.dbg (Arith.lit 0 <. minH) .debugVerify
        debugVerify cfg.dbg (minH <. maxH) .debugVerify
        subLoop cfg t minH maxH fuel m.s.tPrev t false : MM K Unit) (fun _ => True) := by
    by_cases h1 : (t <. m.s.tPrev) = true
    · rw [if_pos h1]; exact KeepsN.throw trivial
    · rw [if_neg h1]
      by_cases h2 : (t ==. m.s.tPrev) = true
      · rw [if_pos h2]
        exact KeepsN.bind (KeepsN.lift (Keeps.emit _)) (fun _ _ => KeepsN.bind (KeepsN.begin h t) (fun x hx => KeepsN.sv hx))
      · rw [if_neg h2]
        have h3 : (m.s.tPrev <. t) = true := (ht.resolve_left h1).resolve_left h2
        refine KeepsN.bind (KeepsN.verify _ _) (fun _ hst => KeepsN.bind (KeepsN.verify _ _) (fun _ _ => KeepsN.bind (KeepsN.verify _ _) (fun _ _ => ?_)))
        exact keeps_subLoop h hc (hst h.dbg) t minH maxH fuel _ _ _ false (.inr h3)
  have := key m ⟨hm, hn⟩
  have e : advance cfg fuel t minH maxH m = (if t <. m.s.tPrev then throwE (.exc .backInTime)
      else if t ==. m.s.tPrev then do
        inW (emit (.warnRepeated t))
        let x ← beginStep cfg t
        setSim (fun s => { s with sv := some x })
      else do
        debugVerify cfg.dbg cfg.stepper.isSome .debugVerify
        debugVerify cfg.dbg (Arith.lit 0 <. minH) .debugVerify
        debugVerify cfg.dbg (minH <. maxH) .debugVerify
        subLoop cfg t minH maxH fuel m.s.tPrev t false : MM K Unit) m := rfl
  rw [e]
  revert this
  cases ((if t <. m.s.tPrev then throwE (.exc .backInTime)
      else if t ==. m.s.tPrev then do
        inW (emit (.warnRepeated t))
        let x ← beginStep cfg t
        setSim (fun s => { s with sv := some x })
      else do
        debugVerify cfg.dbg cfg.stepper.isSome .debugVerify
        debugVerify cfg.dbg (Arith.lit 0 <. minH) .debugVerify
        debugVerify cfg.dbg (minH <. maxH) .debugVerify
        subLoop cfg t minH maxH fuel m.s.tPrev t false : MM K Unit) m) with
  | ok a m' => exact fun h => h.1
  | error e m' => exact fun h => h

theorem keeps_finish (h : cfg.WellTyped pol ty) (hc : CanCompare cfg) {n : Nat} (t : K) : KeepsN pol cfg ty n true true (finish cfg t) (fun _ => True) := by
  intro m hm
  have hs := hm.1.2
  obtain ⟨x, hx⟩ := Option.isSome_iff_exists.1 (hs.set rfl)
  have hl : x.length = n := by
    have := hs.size
    unfold Sim.svSize at this
    rw [hx] at this
    exact this.trans hm.2
  have key : KeepsN pol cfg ty n true true (do
      resetWith cfg x
      processModel cfg t (decide (x.length = 0)) true
      setSim (fun s => { s with tPrev := t }) : MM K Unit) (fun _ => True) := by
    refine KeepsN.bind (KeepsN.reset h hl) (fun _ _ => KeepsN.bind (KeepsN.processModel h hc _ _ _) (fun _ _ => ?_))
    rintro m ⟨⟨h1, h2⟩, hn⟩
    exact ⟨⟨⟨h1, ⟨h2.scalars, h2.arrays, h2.total, h2.size, h2.unset, h2.set, h2.order, h2.fast⟩⟩, hn⟩, trivial⟩
  have e : finish cfg t m = (do
      resetWith cfg x
      processModel cfg t (decide (x.length = 0)) true
      setSim (fun s => { s with tPrev := t }) : MM K Unit) m := by
    unfold finish
    rw [bind_apply]
    simp only [getSim, hx]
  rw [e]
  exact key m hm

theorem sum_map_perm {l1 l2 : List SigId} (h : l1.Perm l2) (f : SigId → Nat) : (l1.map f).sum = (l2.map f).sum := (h.map f).sum_nat

theorem base_fine (h : cfg.WellTyped pol ty) {m : Machine K} (hb : Blank m) (hw : m.w.Fine pol cfg ty) (t : K) :
    ∃ m1, baseInit cfg t m = .ok () m1 ∧ m1.w.Fine pol cfg ty ∧ (∀ po, (po.isSome = true ∨ cfg.strategy ≠ .reuse) → (∀ p, po = some p → BlocksOf cfg p) → Sim.Fine cfg ty false { m1.s with po := po }) ∧
      m1.s.initialized = true ∧ (cfg.strategy = .reuse → 0 < m1.s.svSize) ∧ m1.s.po = none ∧ m1.s.fast = [] ∧ m1.s.nState = stateSize cfg m.w := by
  obtain ⟨lg, _, e⟩ := baseInit_eq cfg t m
  have hsv0 : m.s.svSize = 0 := by simp [Sim.svSize, hb.sv]
  have hsize : ∀ po : Option (List (Block K)), Sim.svSize ({ m.s with
          valueSigs := m.s.valueSigs ++ cfg.hash (linkedSigs cfg.model)
          scalarStates := m.s.scalarStates ++ cfg.hash (scalarStatesOf cfg m.w)
          arrayStates := m.s.arrayStates ++ cfg.hash (arrayStatesOf cfg m.w)
          nState := stateSize cfg m.w
          sv := if stateSize cfg m.w = m.s.svSize then m.s.sv else if stateSize cfg m.w = 0 then some [] else none
          tPrev := t
          initialized := true
          po := po } : Sim K) = stateSize cfg m.w := by
    intro po
    unfold Sim.svSize
    dsimp only
    rw [← Sim.svSize, hsv0, hb.sv]
    by_cases h0 : stateSize cfg m.w = 0
    · simp [h0]
    · simp [h0]
  refine ⟨_, e, ⟨fun s => ?_, fun s => ?_, hw.members⟩, fun po hpo hwi => ⟨?_, ?_, ?_, ?_, ?_, fun e => (by cases e), ?_, ?_⟩, rfl, ?_, hb.po, hb.fast, rfl⟩
  · dsimp only; split
    · exact hw.types s
    · exact hw.types s
  · dsimp only; split
    · exact ⟨fun e => (by cases e), (hw.cells s).fits⟩
    · exact hw.cells s
  · intro x hx
    simp only [hb.scalarStates, List.nil_append, (h.hash _).mem_iff, scalarStatesOf, List.mem_filter, Bool.and_eq_true, decide_eq_true_eq, hw.types] at hx
    exact hx.2
  · intro x hx
    simp only [hb.arrayStates, List.nil_append, (h.hash _).mem_iff, arrayStatesOf, List.mem_filter, Bool.and_eq_true, hw.types] at hx
    exact hx.2
  · simp only [hb.scalarStates, hb.arrayStates, List.nil_append]
    rw [(h.hash _).length_eq, sum_map_perm (h.hash _)]
    simp only [stateSize, hw.types]
  · exact hsize po
  · dsimp only
    rw [hsv0, hb.sv]
    intro e0
    by_cases h0 : stateSize cfg m.w = 0
    · simp [h0] at e0
    · omega
  · intro hr
    rcases hpo with h1 | h1
    · obtain ⟨p, hp⟩ := Option.isSome_iff_exists.1 h1
      exact ⟨p, hp, hwi p hp⟩
    · exact (h1 hr).elim
  · dsimp only; rw [hb.fast]; simp
  · intro hr
    show 0 < Sim.svSize _
    have := hsize m.s.po
    rw [this]
    exact h.states hr m.w hw.types

theorem init_sim (m : Machine K) (x : MM K Unit) (Q : Prop) (h : KeepsM pol cfg ty false false x (fun _ => True)) (hm : m.w.Fine pol cfg ty ∧ m.s.Fine cfg ty false) :
    match x m with
    | .ok _ m' => m'.w.Fine pol cfg ty ∧ m'.s.Fine cfg ty false
    | .error e m' => Fails pol cfg ty e m'.w ∧ m'.s.Fine cfg ty false := by
  have := h m hm
  cases hx : x m with
  | ok a m' => rw [hx] at this; exact this.1
  | error e m' => rw [hx] at this; exact this

/-- `init` of a new simulator. -/
theorem keeps_init (h : cfg.WellTyped pol ty) (hc : CanCompare cfg) {m : Machine K} (hb : Blank m) (hw : m.w.Fine pol cfg ty) (t : K) :
    match simInit cfg t m with
    | .ok _ m' => m'.w.Fine pol cfg ty ∧ m'.s.Fine cfg ty false
    | .error e m' => Fails pol cfg ty e m'.w ∧ m'.s.Fine cfg ty false := by
  obtain ⟨m1, e1, w1, s1, i1, p1, po1, fa1, _⟩ := base_fine h hb hw t
  unfold simInit
  rw [bind_apply, e1]
  dsimp only
  cases hs : cfg.strategy with
  | plain =>
    have hf := s1 m1.s.po (.inr (by rw [hs]; simp)) (fun p e => by rw [po1] at e; cases e)
    exact init_sim m1 _ True (keeps_processModel h hc t true true false) ⟨w1, hf⟩
  | reuse =>
    dsimp only
    rw [bind_apply]
    simp only [getSim, p1 hs, if_true, po1]
    have hw' : BlocksOf cfg cfg.model.all := fun l hl => (leaf_mem_all _ l).2 hl
    have hf := s1 (some cfg.model.all) (.inl rfl) (fun p e => by cases e; exact hw')
    have hv : (debugVerify cfg.dbg (none : Option (List (Block K))).isNone Exc.debugVerify : MM K Unit) m1 = .ok () m1 := by simp [debugVerify]
    rw [bind_apply, hv]
    exact init_sim { m1 with s := { m1.s with po := some cfg.model.all } } _ True (keeps_processModel h hc t true true false) ⟨w1, hf⟩
  | fast =>
    dsimp only
    have hf := s1 m1.s.po (.inr (by rw [hs]; simp)) (fun p e => by rw [po1] at e; cases e)
    refine init_sim m1 _ True ?_ ⟨w1, hf⟩
    refine KeepsM.bind KeepsM.getSim (fun s hsf => KeepsM.bind (KeepsM.verify _ _) (fun _ _ => KeepsM.bind (KeepsM.lift (keeps_inputs h t)) (fun _ _ => ?_)))
    refine KeepsM.bind (KeepsM.lift (keeps_preStep h t _ (fun _ h => h))) (fun _ _ => KeepsM.bind (keeps_levels h hc t) (fun r hr => ?_))
    refine KeepsM.bind (c := false) (KeepsM.setSim (fun s g => ?_)) (fun _ _ => ?_)
    · refine ⟨g.scalars, g.arrays, g.total, g.size, g.unset, g.set, g.order, fun l hl => ?_⟩
      simp only [List.flatten_append, List.mem_append] at hl
      rcases hl with h1 | h1
      · exact g.fast l h1
      · exact hr l h1
    · have hk : KeepsM pol cfg ty false false (do inW (clearAll s.valueSigs); processModel cfg t true true) (fun _ => True) :=
        KeepsM.bind (KeepsM.lift (Keeps.clearAll _)) (fun _ _ => keeps_processModel h hc t true true false)
      split
      · exact KeepsM.bind (Q := fun _ => True) (KeepsM.throw trivial) (fun _ _ => hk)
      · exact hk

/-- The invariant of the calls. -/
structure Machine.Fine (pol : Policy) (cfg : Config K) (ty : SigId → Ty) (m : Machine K) : Prop where
  world : m.w.Fine pol cfg ty
  blank : m.s.initialized = false → Blank m
  sim : m.s.initialized = true → m.s.Fine cfg ty false

theorem call_fine (h : cfg.WellTyped pol ty) (hc : CanCompare cfg) {m : Machine K} (hm : m.Fine pol cfg ty) (c : Call K) (hadm : c.Admissible m) :
    NoUb pol (c.exec cfg m) ∧ ((cfg.Delays → returns (c.exec cfg m) = true) → (stateOf (c.exec cfg m)).Fine pol cfg ty) := by
  have hinit : ∀ t, m.s.initialized = false → NoUb pol (simInit cfg t m) ∧ ((cfg.Delays → returns (simInit cfg t m) = true) → (stateOf (simInit cfg t m)).Fine pol cfg ty) := by
    intro t hi
    have hk := keeps_init h hc (hm.blank hi) hm.world t
    obtain ⟨m1, e1, _, _, i1, _⟩ := base_fine h (hm.blank hi) hm.world t
    obtain ⟨m2, h4, h5⟩ := simInit_fixed cfg t m
    rw [e1] at h4
    cases h4
    have hi2 : (stateOf (simInit cfg t m)).s.initialized = true := by rw [h5.initialized, i1]
    cases hx : simInit cfg t m with
    | ok a m' =>
      rw [hx] at hk hi2
      have hi2 : m'.s.initialized = true := hi2
      exact ⟨trivial, fun _ => ⟨hk.1, fun e => Bool.noConfusion (hi2.symm.trans e), fun _ => hk.2⟩⟩
    | error e m' =>
      rw [hx] at hk hi2
      have hi2 : m'.s.initialized = true := hi2
      refine ⟨hk.1.1, fun hd => ⟨hk.1.2 (fun hd' => ?_), fun e => Bool.noConfusion (hi2.symm.trans e), fun _ => hk.2⟩⟩
      have := hd hd'
      cases this
  cases c with
  | init t => exact hinit t hadm
  | run fuel t a b =>
    cases hi : m.s.initialized with
    | false =>
      have e : Call.exec cfg (.run fuel t a b) m = simInit cfg t m := run_init cfg fuel t a b m hi
      rw [e]
      exact hinit t hi
    | true =>
      have hf := (covers_fixed cfg).run fuel t a b m hi
      have hsim := hm.sim hi
      have hk : match run cfg fuel t a b m with
          | .ok _ m' => m'.w.Fine pol cfg ty ∧ m'.s.Fine cfg ty false
          | .error e m' => Fails pol cfg ty e m'.w ∧ m'.s.Fine cfg ty false := by
        have e : run cfg fuel t a b m = (if 0 < m.s.svSize then (do advance cfg fuel t a b; finish cfg t) m else finish cfg t m) := by
          unfold run
          simp only [bind_apply, getSim, hi, Bool.not_true, Bool.false_eq_true, if_false]
          split
          · rw [bind_apply]
          · rfl
        have hfin : ∀ m1 : Machine K, (m1.w.Fine pol cfg ty ∧ m1.s.Fine cfg ty true) → match finish cfg t m1 with
            | .ok _ m' => m'.w.Fine pol cfg ty ∧ m'.s.Fine cfg ty false
            | .error e m' => Fails pol cfg ty e m'.w ∧ m'.s.Fine cfg ty false := by
          intro m1 h1
          have := keeps_finish h hc (n := m1.s.nState) t m1 ⟨h1, rfl⟩
          cases hx : finish cfg t m1 with
          | ok u m' => rw [hx] at this; exact ⟨this.1.1.1, this.1.1.2.drop⟩
          | error e m' => rw [hx] at this; exact this
        rw [e]
        by_cases h0 : 0 < m.s.svSize
        · rw [if_pos h0, bind_apply]
          have := keeps_advance h hc (n := m.s.nState) fuel t a b m ⟨hm.world, hsim⟩ rfl (hadm hi)
          cases hx : advance cfg fuel t a b m with
          | ok u m1 => rw [hx] at this; exact hfin m1 this.1
          | error e m1 => rw [hx] at this; exact this
        · rw [if_neg h0]
          refine hfin m ⟨hm.world, ⟨hsim.scalars, hsim.arrays, hsim.total, hsim.size, hsim.unset, fun _ => ?_, hsim.order, hsim.fast⟩⟩
          cases hsv : m.s.sv with
          | some v => rfl
          | none =>
            have := hsim.unset hsv
            rw [← hsim.size] at this
            exact (h0 this).elim
      have e : Call.exec cfg (.run fuel t a b) m = run cfg fuel t a b m := rfl
      rw [e]
      have hi2 : (stateOf (run cfg fuel t a b m)).s.initialized = true := by rw [hf.initialized, hi]
      cases hx : run cfg fuel t a b m with
      | ok u m' =>
        rw [hx] at hk hi2
        have hi2 : m'.s.initialized = true := hi2
        exact ⟨trivial, fun _ => ⟨hk.1, fun e => Bool.noConfusion (hi2.symm.trans e), fun _ => hk.2⟩⟩
      | error e m' =>
        rw [hx] at hk hi2
        have hi2 : m'.s.initialized = true := hi2
        refine ⟨hk.1.1, fun hd => ⟨hk.1.2 (fun hd' => ?_), fun e => Bool.noConfusion (hi2.symm.trans e), fun _ => hk.2⟩⟩
        have := hd hd'
        cases this

theorem steered_fine (h : cfg.WellTyped pol ty) (hc : CanCompare cfg) {m : Machine K} (hm : Steered pol cfg ty m) : m.Fine pol cfg ty := by
  induction hm with
  | new w t hw => exact ⟨hw, fun _ => ⟨rfl, rfl, rfl, rfl, rfl, rfl, rfl⟩, fun e => by cases e⟩
  | call c _ ha hd ih => exact (call_fine h hc ih c ha).2 hd
  | user sig _ hs ih =>
    refine ⟨⟨fun s => (hs s).1, fun s => (hs s).2, ih.world.members⟩, fun e => ?_, ih.sim⟩
    have := ih.blank e
    exact ⟨this.1, this.2, this.3, this.4, this.5, this.6, this.7⟩

end Pooya
