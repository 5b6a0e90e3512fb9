import Verif.Proof.Clear
import Verif.Proof.EvalLog
import Verif.Proof.Assign

/-! Ranked diagrams and algebraic loops. -/

namespace Pooya

set_option linter.unusedSectionVars false

variable {K : Type} [Arith K] {dbg : Bool} {t : K} {I : BlkId → Prop}

/-- After a schedule the outputs of the leaves that ran are assigned. -/
theorem Steps.assigned {w w' : World K} {ls : List (Leaf K)} (h : Steps dbg t I w ls w') (hI : ∀ l ∈ ls, I l.id)
    {l : Leaf K} (hl : l ∈ ls) (ha : l.Assigns) {s : SigId} (hs : s ∈ l.outs) : (w'.sig s).assigned = true := by
  induction h with
  | nil w => cases hl
  | @act l0 w w1 w' ls hen hact hrest ih =>
    rcases List.mem_cons.1 hl with rfl | hl
    · have := ha dbg t w w1 hact s hs
      exact (hrest.basic (fun l hl => hI l (by simp [hl]))).mono s this
    · exact ih (fun l hl => hI l (by simp [hl])) hl
  | flag _ _ ih => exact ih hI hl

/-- A complete schedule of a ranked diagram runs all leaves. -/
theorem ranked_done {L : List (Leaf K)} {rank : BlkId → Nat} {w w' : World K} {ls : List (Leaf K)}
    (hI : ∀ l ∈ L, I l.id) (h : Steps dbg t I w ls w') (hls : ∀ l ∈ ls, l ∈ L) (hs : Stuck L w')
    (hid : (L.map Leaf.id).Nodup) (h0 : ∀ l ∈ L, w.done l.id = true → l.outs = [])
    (hr : ∀ l ∈ L, ∀ s, l.Requires s → (w.sig s).assigned = true ∨
      ∃ l' ∈ L, s ∈ l'.outs ∧ l'.Assigns ∧ rank l'.id < rank l.id) :
    ∀ l ∈ L, w'.done l.id = true := by
  have hb := h.basic (fun l hl => hI l (hls l hl))
  have key : ∀ n, ∀ l ∈ L, rank l.id < n → w'.done l.id = true := by
    intro n
    induction n with
    | zero => intro l _ hn; omega
    | succ n ih =>
      intro l hl hn
      cases hd : w'.done l.id with
      | true => rfl
      | false =>
        refine (hs l hl ⟨hd, fun s hreq => ?_⟩).elim
        rcases hr l hl s hreq with h1 | ⟨l', hl', h1, h2, h3⟩
        · exact hb.mono s h1
        · have h4 := ih l' hl' (by omega)
          rcases (hb.done _ (hI l' hl')).1 h4 with h5 | h5
          · rw [h0 l' hl' h5] at h1; cases h1
          · obtain ⟨l2, hl2, e⟩ := List.mem_map.1 h5
            have : l2 = l' := List.inj_on_of_nodup_map hid (hls l2 hl2) hl' e
            subst this
            exact h.assigned (fun l hl => hI l (hls l hl)) hl2 h2 h1
  exact fun l hl => key (rank l.id + 1) l hl (by omega)

/-- Leaves that wait for each other do not run. -/
theorem loop_steps {L : List (Leaf K)} {C : Leaf K → Prop} {w w' : World K} {ls : List (Leaf K)}
    (h : Steps dbg t I w ls w') (hls : ∀ l ∈ ls, l ∈ L)
    (hC : ∀ l ∈ L, C l → ∃ s, l.Requires s ∧ (w.sig s).assigned = false ∧ ∀ l' ∈ L, s ∈ l'.outs → C l') :
    (∀ l ∈ ls, ¬ C l) ∧
      ∀ l ∈ L, C l → ∃ s, l.Requires s ∧ (w'.sig s).assigned = false ∧ ∀ l' ∈ L, s ∈ l'.outs → C l' := by
  induction h with
  | nil w => exact ⟨by simp, hC⟩
  | @act l0 w w1 w' ls hen hact hrest ih =>
    have hl0 : l0 ∈ L := hls l0 (by simp)
    have hn : ¬ C l0 := by
      intro hc
      obtain ⟨s, h1, h2, _⟩ := hC l0 hl0 hc
      rw [hen.2 s h1] at h2; cases h2
    have hw := act_within hact
    obtain ⟨h1, h2⟩ := ih (fun l hl => hls l (by simp [hl])) (by
      intro l hl hc
      obtain ⟨s, g1, g2, g3⟩ := hC l hl hc
      refine ⟨s, g1, ?_, g3⟩
      have : s ∉ l0.outs := fun h' => hn (g3 l0 hl0 h')
      show (w1.sig s).assigned = false
      rw [hw.sig s this]; exact g2)
    refine ⟨?_, h2⟩
    intro l hl
    rcases List.mem_cons.1 hl with rfl | hl
    · exact hn
    · exact h1 l hl
  | flag _ _ ih => exact ih hls hC

end Pooya
