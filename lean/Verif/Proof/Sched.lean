import Verif.Proof.Frame
import Verif.Spec.Wiring
import Mathlib.Data.List.Nodup

/-! Any two complete schedules of a proper diagram have the same outcome. -/

namespace Pooya

set_option linter.unusedSectionVars false

variable {K : Type} [Arith K] {dbg : Bool} {t : K} {I : BlkId → Prop}

theorem Wired.inj {L : List (Leaf K)} (hW : Wired L) {l l' : Leaf K} (h : l ∈ L) (h' : l' ∈ L)
    (e : l.id = l'.id) : l = l' := List.inj_on_of_nodup_map hW.ids h h' e

/-- What a successful activation changes. -/
theorem act_within {l : Leaf K} {w w1 : World K} (h : l.act dbg t w = .ok () w1) :
    Within (· ∈ l.outs) l.id { w with log := .act l.id t :: w.log } w1 := by
  have := frame_actBody dbg l t { w with log := .act l.id t :: w.log }
  rw [← act_apply, h] at this
  exact this

theorem act_within_error {l : Leaf K} {w w1 : World K} {e : Err} (h : l.act dbg t w = .error e w1) :
    Within (· ∈ l.outs) l.id { w with log := .act l.id t :: w.log } w1 := by
  have := frame_actBody dbg l t { w with log := .act l.id t :: w.log }
  rw [← act_apply, h] at this
  exact this

/-- Facts about a whole schedule. -/
structure StepsFacts (L : List (Leaf K)) (w : World K) (ls : List (Leaf K)) (w' : World K) : Prop where
  undriven : Undriven L w'
  stable : ∀ s, (w.sig s).assigned = true → w'.sig s = w.sig s
  other : ∀ s, (∀ l ∈ ls, s ∉ l.outs) → w'.sig s = w.sig s
  ty : ∀ s, (w'.sig s).ty = (w.sig s).ty
  done : ∀ l ∈ L, w'.done l.id = true ↔ w.done l.id = true ∨ l ∈ ls
  fresh : ∀ l ∈ ls, w.done l.id = false
  nodup : (ls.map Leaf.id).Nodup
  mem : ∀ b, (∀ l ∈ ls, l.id ≠ b) → w'.mem b = w.mem b
  log : w'.log = (ls.map (fun l => Event.act l.id (t : K))).reverse ++ w.log

theorem undriven_act {L : List (Leaf K)} (hW : Wired L) {l : Leaf K} (hl : l ∈ L) {w w1 : World K}
    (hU : Undriven L w) (h : l.act dbg t w = .ok () w1) :
    Undriven L { w1 with done := upd w1.done l.id true } := by
  have hw := act_within h
  intro l' hl' hd s hs
  by_cases e : l'.id = l.id
  · simp [upd, e] at hd
  · have hd' : w.done l'.id = false := by
      have : upd w1.done l.id true l'.id = w1.done l'.id := by simp [upd, e]
      simp only [this] at hd
      rw [hw.done] at hd; exact hd
    have hns : s ∉ l.outs := fun h' => e (hW.driver l' hl' l hl s hs h')
    show (w1.sig s).assigned = false
    rw [hw.sig s hns]; exact hU l' hl' hd' s hs

theorem Steps.facts {L : List (Leaf K)} (hW : Wired L) (hI : ∀ l ∈ L, I l.id) {w w' : World K}
    {ls : List (Leaf K)} (h : Steps dbg t I w ls w') (hls : ∀ l ∈ ls, l ∈ L) (hU : Undriven L w) :
    StepsFacts (t := t) L w ls w' := by
  induction h with
  | nil w =>
    exact ⟨hU, fun _ _ => rfl, fun _ _ => rfl, fun _ => rfl, fun l _ => by simp, by simp, by simp,
      fun _ _ => rfl, by simp⟩
  | @act l w w1 w' ls hen hact _ ih =>
    have hl : l ∈ L := hls l (by simp)
    have hw := act_within hact
    have ih := ih (fun l hl => hls l (by simp [hl])) (undriven_act hW hl hU hact)
    refine ⟨ih.undriven, ?_, ?_, ?_, ?_, ?_, ?_, ?_, ?_⟩
    · intro s hs
      have hs1 : (w1.sig s).assigned = true := hw.mono s hs
      have hns : s ∉ l.outs := fun h' => by
        have := hU l hl hen.1 s h'
        rw [this] at hs; cases hs
      rw [ih.stable s hs1]; exact hw.sig s hns
    · intro s hs
      rw [ih.other s (fun l' hl' => hs l' (by simp [hl']))]
      exact hw.sig s (hs l (by simp))
    · intro s; rw [ih.ty s]; exact hw.ty s
    · intro l' hl'
      rw [ih.done l' hl']
      have hd : w1.done = w.done := hw.done
      by_cases e : l'.id = l.id
      · have : l' = l := hW.inj hl' hl e
        subst this
        simp [upd]
      · have : l' ≠ l := fun h => e (by rw [h])
        simp [upd, e, hd, this]
    · intro l' hl'
      rcases List.mem_cons.1 hl' with rfl | hl'
      · exact hen.1
      · have := ih.fresh l' hl'
        have hd : w1.done = w.done := hw.done
        by_cases e : l'.id = l.id
        · simp [upd, e] at this
        · simpa [upd, e, hd] using this
    · simp only [List.map_cons]
      refine List.nodup_cons.2 ⟨?_, ih.nodup⟩
      intro hm
      obtain ⟨l', hl', e⟩ := List.mem_map.1 hm
      have := ih.fresh l' hl'
      simp [upd, e] at this
    · intro b hb
      rw [ih.mem b (fun l' hl' => hb l' (by simp [hl']))]
      exact hw.mem b (fun e => hb l (by simp) e.symm)
    · rw [ih.log]
      have : w1.log = .act l.id t :: w.log := hw.log
      simp [this]
  | @flag i d w w' ls hi _ ih =>
    have hid : ∀ l ∈ L, upd w.done i d l.id = w.done l.id := by
      intro l hl
      have : l.id ≠ i := fun e => hi (e ▸ hI l hl)
      simp [upd, this]
    have ih := ih hls (by
      intro l hl hd s hs
      refine hU l hl ?_ s hs
      rw [← hid l hl]; exact hd)
    refine ⟨ih.undriven, ih.stable, ih.other, ih.ty, ?_, ?_, ih.nodup, ih.mem, ih.log⟩
    · intro l hl; rw [ih.done l hl]; simp only [hid l hl]
    · intro l hl; have := ih.fresh l hl; simpa only [hid l (hls l hl)] using this

/-- Where a leaf of a schedule runs. -/
theorem Steps.split {L : List (Leaf K)} (hW : Wired L) (hI : ∀ l ∈ L, I l.id) {w w' : World K}
    {ls : List (Leaf K)} (h : Steps dbg t I w ls w') (hls : ∀ l ∈ ls, l ∈ L) (hU : Undriven L w)
    {l : Leaf K} (hl : l ∈ ls) :
    ∃ wl wl', Enabled l wl ∧ l.act dbg t wl = .ok () wl' ∧ Undriven L wl ∧
      wl.mem l.id = w.mem l.id ∧ (∀ s, (wl.sig s).ty = (w.sig s).ty) ∧
      (∀ s, (wl.sig s).assigned = true → w'.sig s = wl.sig s) ∧
      (∀ s ∈ l.outs, w'.sig s = wl'.sig s) ∧ w'.mem l.id = wl'.mem l.id := by
  induction h with
  | nil w => cases hl
  | @act l0 w w1 w' ls hen hact hrest ih =>
    have hl0 : l0 ∈ L := hls l0 (by simp)
    have hw := act_within hact
    have hU1 := undriven_act hW hl0 hU hact
    have hf := hrest.facts hW hI (fun l hl => hls l (by simp [hl])) hU1
    by_cases e : l.id = l0.id
    · have : l = l0 := hW.inj (hls l hl) hl0 e
      subst this
      have hnot : ∀ l' ∈ ls, l'.id ≠ l.id := by
        intro l' hl' e'
        have := hf.fresh l' hl'
        simp [upd, e'] at this
      refine ⟨w, w1, hen, hact, hU, rfl, fun _ => rfl, ?_, ?_, ?_⟩
      · intro s hs
        have hns : s ∉ l.outs := fun h' => by
          have := hU l hl0 hen.1 s h'
          rw [this] at hs; cases hs
        rw [hf.stable s (hw.mono s hs)]; exact hw.sig s hns
      · intro s hs
        refine hf.other s (fun l' hl' hs' => ?_)
        exact hnot l' hl' (hW.driver l' (hls l' (by simp [hl'])) l hl0 s hs' hs)
      · exact hf.mem l.id hnot
    · have hl' : l ∈ ls := by
        rcases List.mem_cons.1 hl with rfl | h'
        · exact (e rfl).elim
        · exact h'
      obtain ⟨wl, wl', h1, h2, h3, h4, h5, h6, h7, h8⟩ :=
        ih (fun l hl => hls l (by simp [hl])) hU1 hl'
      refine ⟨wl, wl', h1, h2, h3, ?_, ?_, h6, h7, h8⟩
      · rw [h4]; exact hw.mem l.id e
      · intro s; rw [h5 s]; exact hw.ty s
  | @flag i d w w' ls hi _ ih =>
    have hid : ∀ l ∈ L, upd w.done i d l.id = w.done l.id := by
      intro l hl
      have : l.id ≠ i := fun e => hi (e ▸ hI l hl)
      simp [upd, this]
    exact ih hls (by
      intro l hl hd s hs
      refine hU l hl ?_ s hs
      rw [← hid l hl]; exact hd) hl

/-- `w` has got no further than `w1'`, the result of a complete schedule from `w1`. -/
structure Below (L : List (Leaf K)) (w1 w1' w : World K) : Prop where
  undriven : Undriven L w
  ty : ∀ s, (w.sig s).ty = (w1.sig s).ty
  sig : ∀ s, (w.sig s).assigned = true → CellEq (w.sig s) (w1'.sig s)
  done : ∀ l ∈ L, w.done l.id = true → w1'.done l.id = true
  start : ∀ l ∈ L, w1.done l.id = true → w.done l.id = true
  memNot : ∀ l ∈ L, w.done l.id = false → w.mem l.id = w1.mem l.id
  memDone : ∀ l ∈ L, w.done l.id = true → w.mem l.id = w1'.mem l.id

theorem below_start {L : List (Leaf K)} (hW : Wired L) (hI : ∀ l ∈ L, I l.id) {w1 w1' w2 : World K}
    {σ : List (Leaf K)} (h : Steps dbg t I w1 σ w1') (hσ : ∀ l ∈ σ, l ∈ L) (hU : Undriven L w1)
    (hS : Same L w1 w2) : Below L w1 w1' w2 := by
  have hf := h.facts hW hI hσ hU
  refine ⟨?_, fun s => (hS.ty s).symm, ?_, ?_, ?_, ?_, ?_⟩
  · intro l hl hd s hs
    rw [← hS.assigned]; exact hU l hl (by rw [hS.done l hl]; exact hd) s hs
  · intro s hs
    have hs1 : (w1.sig s).assigned = true := by rw [hS.assigned]; exact hs
    rw [hf.stable s hs1]
    exact ⟨(hS.ty s).symm, (hS.assigned s).symm, fun _ => (hS.value s hs1).symm⟩
  · intro l hl hd
    exact (hf.done l hl).2 (Or.inl (by rw [hS.done l hl]; exact hd))
  · intro l hl hd; rw [← hS.done l hl]; exact hd
  · intro l _ _; exact (hS.mem _).symm
  · intro l hl hd
    rw [hf.mem l.id, hS.mem]
    intro l' hl' e
    have := hf.fresh l' hl'
    rw [e, hS.done l hl, hd] at this; cases this

/-- An enabled leaf runs successfully and stays below. -/
theorem below_step {L : List (Leaf K)} (hW : Wired L) (hI : ∀ l ∈ L, I l.id) {w1 w1' w : World K}
    {σ : List (Leaf K)} (h : Steps dbg t I w1 σ w1') (hσ : ∀ l ∈ σ, l ∈ L) (hU : Undriven L w1)
    (hstuck : Stuck L w1') (hB : Below L w1 w1' w) {l : Leaf K} (hl : l ∈ L) (hen : Enabled l w) :
    ∃ wn, l.act dbg t w = .ok () wn ∧ Below L w1 w1' { wn with done := upd wn.done l.id true } := by
  have hf := h.facts hW hI hσ hU
  -- the leaf also ran in the complete schedule
  have hd' : w1'.done l.id = true := by
    cases hd : w1'.done l.id with
    | true => rfl
    | false =>
      refine (hstuck l hl ⟨hd, fun s hs => ?_⟩).elim
      have := hen.2 s hs
      rw [← (hB.sig s this).assigned]; exact this
  have hlσ : l ∈ σ := by
    rcases (hf.done l hl).1 hd' with h1 | h1
    · have := hB.start l hl h1
      rw [hen.1] at this; cases this
    · exact h1
  obtain ⟨wl, wl', e1, e2, e3, e4, e5, e6, e7, e8⟩ := h.split hW hI hσ hU hlσ
  -- same view of reads and outputs
  have hsim : Alike (· ∈ l.reads) (fun s => s ∈ l.reads ∨ s ∈ l.outs) l.id
      { wl with log := .act l.id t :: wl.log } { w with log := .act l.id t :: w.log } := by
    refine ⟨?_, ?_, ?_⟩
    · intro s hs
      by_cases hr : s ∈ l.reads
      · have hq := hW.reads l hl s hr
        have a1 := e1.2 s hq
        have a2 := hen.2 s hq
        have := hB.sig s a2
        rw [e6 s a1] at this
        exact this.symm
      · have ho : s ∈ l.outs := by tauto
        have a1 := e3 l hl e1.1 s ho
        have a2 := hB.undriven l hl hen.1 s ho
        exact ⟨by show (wl.sig s).ty = (w.sig s).ty; rw [e5, hB.ty], by show (wl.sig s).assigned = _; rw [a1, a2],
          fun h' => by simp only at h'; rw [a1] at h'; cases h'⟩
    · intro s hs; exact e1.2 s (hW.reads l hl s hs)
    · show wl.mem l.id = w.mem l.id
      rw [e4, hB.memNot l hl hen.1]
  have hrel := rel_actBody dbg l t (R := (· ∈ l.reads)) (S := fun s => s ∈ l.reads ∨ s ∈ l.outs)
    (fun s hs => ⟨Or.inl hs, Or.inr hs⟩) (fun s hs => Or.inr hs) _ _ hsim
  rw [← act_apply, ← act_apply, e2] at hrel
  obtain ⟨wn, hn, hsim'⟩ := hrel.ok_inv
  refine ⟨wn, hn, ?_⟩
  have hw := act_within hn
  have hwd : wn.done = w.done := hw.done
  refine ⟨undriven_act hW hl hB.undriven hn, ?_, ?_, ?_, ?_, ?_, ?_⟩
  · intro s; show (wn.sig s).ty = _; rw [hw.ty s]; exact hB.ty s
  · intro s hs
    show CellEq (wn.sig s) (w1'.sig s)
    by_cases ho : s ∈ l.outs
    · rw [e7 s ho]; exact (hsim'.cell s (Or.inr ho)).symm
    · have e := hw.sig s ho
      rw [e]
      have : (w.sig s).assigned = true := by
        have hs' : (wn.sig s).assigned = true := hs
        rw [e] at hs'; exact hs'
      exact hB.sig s this
  · intro l' hl' hd
    by_cases e : l'.id = l.id
    · rw [e]; exact hd'
    · exact hB.done l' hl' (by simpa [upd, e, hwd] using hd)
  · intro l' hl' hd
    have := hB.start l' hl' hd
    by_cases e : l'.id = l.id
    · simp [upd, e]
    · simp [upd, e, hwd, this]
  · intro l' hl' hd
    by_cases e : l'.id = l.id
    · simp [upd, e] at hd
    · show wn.mem l'.id = _
      rw [hw.mem l'.id e]
      exact hB.memNot l' hl' (by simpa [upd, e, hwd] using hd)
  · intro l' hl' hd
    show wn.mem l'.id = _
    by_cases e : l'.id = l.id
    · rw [e, e8]; exact hsim'.mem.symm
    · rw [hw.mem l'.id e]
      exact hB.memDone l' hl' (by simpa [upd, e, hwd] using hd)

theorem below_steps {L : List (Leaf K)} (hW : Wired L) (hI : ∀ l ∈ L, I l.id) {w1 w1' w w' : World K}
    {σ τ : List (Leaf K)} (h : Steps dbg t I w1 σ w1') (hσ : ∀ l ∈ σ, l ∈ L) (hU : Undriven L w1)
    (hstuck : Stuck L w1') (hB : Below L w1 w1' w) (hτ : ∀ l ∈ τ, l ∈ L) (h2 : Steps dbg t I w τ w') :
    Below L w1 w1' w' := by
  induction h2 with
  | nil w => exact hB
  | @act l w wn w' ls hen hact _ ih =>
    obtain ⟨wn', h3, h4⟩ := below_step hW hI h hσ hU hstuck hB (hτ l (by simp)) hen
    rw [hact] at h3
    cases h3
    exact ih h4 (fun l hl => hτ l (by simp [hl]))
  | @flag i d w w' ls hi _ ih =>
    have hid : ∀ l ∈ L, upd w.done i d l.id = w.done l.id := by
      intro l hl
      have : l.id ≠ i := fun e => hi (e ▸ hI l hl)
      simp [upd, this]
    refine ih ⟨?_, hB.ty, hB.sig, ?_, ?_, ?_, ?_⟩ hτ
    · intro l hl hd; exact hB.undriven l hl (by rw [← hid l hl]; exact hd)
    · intro l hl hd; exact hB.done l hl (by rw [← hid l hl]; exact hd)
    · intro l hl hd; show upd w.done i d l.id = true; rw [hid l hl]; exact hB.start l hl hd
    · intro l hl hd; exact hB.memNot l hl (by rw [← hid l hl]; exact hd)
    · intro l hl hd; exact hB.memDone l hl (by rw [← hid l hl]; exact hd)

theorem Same.symm {L : List (Leaf K)} {w1 w2 : World K} (h : Same L w1 w2) : Same L w2 w1 :=
  ⟨fun s => (h.ty s).symm, fun s => (h.assigned s).symm,
   fun s hs => (h.value s (by rw [h.assigned]; exact hs)).symm, fun b => (h.mem b).symm,
   fun l hl => (h.done l hl).symm⟩

theorem Same.refl (L : List (Leaf K)) (w : World K) : Same L w w :=
  ⟨fun _ => rfl, fun _ => rfl, fun _ _ => rfl, fun _ => rfl, fun _ _ => rfl⟩

theorem Same.trans {L : List (Leaf K)} {w1 w2 w3 : World K} (h : Same L w1 w2) (h' : Same L w2 w3) :
    Same L w1 w3 :=
  ⟨fun s => (h.ty s).trans (h'.ty s), fun s => (h.assigned s).trans (h'.assigned s),
   fun s hs => (h.value s hs).trans (h'.value s (by rw [← h.assigned]; exact hs)),
   fun b => (h.mem b).trans (h'.mem b), fun l hl => (h.done l hl).trans (h'.done l hl)⟩

theorem undriven_same {L : List (Leaf K)} {w1 w2 : World K} (h : Same L w1 w2) (hU : Undriven L w1) :
    Undriven L w2 := by
  intro l hl hd s hs
  rw [← h.assigned]; exact hU l hl (by rw [h.done l hl]; exact hd) s hs

/-- Two complete schedules run the same leaves and end in the same visible state. -/
theorem complete_unique {L : List (Leaf K)} (hW : Wired L) (hI : ∀ l ∈ L, I l.id)
    {w1 w1' w2 w2' : World K} {σ τ : List (Leaf K)} (hU : Undriven L w1) (hS : Same L w1 w2)
    (h1 : Steps dbg t I w1 σ w1') (hσ : ∀ l ∈ σ, l ∈ L) (hs1 : Stuck L w1')
    (h2 : Steps dbg t I w2 τ w2') (hτ : ∀ l ∈ τ, l ∈ L) (hs2 : Stuck L w2') :
    Same L w1' w2' ∧ σ.Perm τ := by
  have hU2 := undriven_same hS hU
  have b2 := below_steps hW hI h1 hσ hU hs1 (below_start hW hI h1 hσ hU hS) hτ h2
  have b1 := below_steps hW hI h2 hτ hU2 hs2 (below_start hW hI h2 hτ hU2 hS.symm) hσ h1
  have f1 := h1.facts hW hI hσ hU
  have f2 := h2.facts hW hI hτ hU2
  have hdone : ∀ l ∈ L, w1'.done l.id = w2'.done l.id := by
    intro l hl
    have e1 := b2.done l hl
    have e2 := b1.done l hl
    cases h3 : w1'.done l.id <;> cases h4 : w2'.done l.id <;> simp_all
  have hty : ∀ s, (w1'.sig s).ty = (w2'.sig s).ty := by
    intro s; rw [f1.ty, f2.ty, hS.ty]
  refine ⟨⟨hty, ?_, ?_, ?_, hdone⟩, ?_⟩
  · intro s
    cases h3 : (w1'.sig s).assigned <;> cases h4 : (w2'.sig s).assigned
    · rfl
    · have := (b2.sig s h4).assigned; rw [h3, h4] at this; exact this.symm
    · have := (b1.sig s h3).assigned; rw [h3, h4] at this; exact this
    · rfl
  · intro s hs; exact (b1.sig s hs).value hs
  · intro b
    by_cases hb : ∃ l ∈ L, l.id = b
    · obtain ⟨l, hl, rfl⟩ := hb
      cases h3 : w2'.done l.id with
      | true => exact (b2.memDone l hl h3).symm
      | false =>
        have h4 : w1'.done l.id = false := by rw [hdone l hl]; exact h3
        rw [b2.memNot l hl h3, b1.memNot l hl h4, hS.mem]
    · have hb' : ∀ l ∈ L, l.id ≠ b := fun l hl e => hb ⟨l, hl, e⟩
      rw [f1.mem b (fun l hl => hb' l (hσ l hl)), f2.mem b (fun l hl => hb' l (hτ l hl)), hS.mem]
  · have n1 : σ.Nodup := List.Nodup.of_map _ f1.nodup
    have n2 : τ.Nodup := List.Nodup.of_map _ f2.nodup
    rw [List.perm_ext_iff_of_nodup n1 n2]
    intro l
    constructor
    · intro hl
      have hlL := hσ l hl
      have h3 : w2'.done l.id = true := by
        rw [← hdone l hlL]; exact (f1.done l hlL).2 (Or.inr hl)
      rcases (f2.done l hlL).1 h3 with h4 | h4
      · have := f1.fresh l hl
        rw [hS.done l hlL, h4] at this; cases this
      · exact h4
    · intro hl
      have hlL := hτ l hl
      have h3 : w1'.done l.id = true := by
        rw [hdone l hlL]; exact (f2.done l hlL).2 (Or.inr hl)
      rcases (f1.done l hlL).1 h3 with h4 | h4
      · have := f2.fresh l hl
        rw [← hS.done l hlL, h4] at this; cases this
      · exact h4

/-- If some complete schedule succeeds, no schedule can run into a failing leaf. -/
theorem complete_no_failure {L : List (Leaf K)} (hW : Wired L) (hI : ∀ l ∈ L, I l.id)
    {w1 w1' w2 w2' w3 : World K} {σ τ : List (Leaf K)} {e : Err} (hU : Undriven L w1) (hS : Same L w1 w2)
    (h1 : Steps dbg t I w1 σ w1') (hσ : ∀ l ∈ σ, l ∈ L) (hs1 : Stuck L w1')
    (h2 : Steps dbg t I w2 τ w2') (hτ : ∀ l ∈ τ, l ∈ L) : ¬ FailsAt dbg t L w2' e w3 := by
  rintro ⟨l, hl, hen, hf⟩
  have b2 := below_steps hW hI h1 hσ hU hs1 (below_start hW hI h1 hσ hU hS) hτ h2
  obtain ⟨wn, h3, _⟩ := below_step hW hI h1 hσ hU hs1 b2 hl hen
  rw [hf] at h3; cases h3

end Pooya
