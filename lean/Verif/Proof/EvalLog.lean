import Verif.Proof.Order

/-! What one evaluation of the model records. -/

namespace Pooya

set_option linter.unusedSectionVars false

variable {K : Type} [Arith K]

/-- The world after `actAll` records a prefix of the list. -/
theorem actAll_log (dbg : Bool) (t : K) (ls : List (Leaf K)) (w : World K) :
    ∃ p, p <+: ls ∧ (stateOf (actAll dbg t ls w)).log = (p.map (fun l => Event.act l.id t)).reverse ++ w.log := by
  induction ls generalizing w with
  | nil => exact ⟨[], by simp, by simp [actAll, stateOf]⟩
  | cons l ls ih =>
    simp only [actAll, bind_apply]
    cases hx : l.act dbg t w with
    | ok u w1 =>
      obtain ⟨p, hp, he⟩ := ih w1
      refine ⟨l :: p, by simpa using hp, ?_⟩
      simp only [he, (act_within hx).log, List.map_cons, List.reverse_cons, List.append_assoc, List.singleton_append]
    | error e w1 =>
      refine ⟨[l], by simp, ?_⟩
      simp [stateOf, (act_within_error hx).log]

/-- A schedule that ends in a failing leaf. -/
theorem failing_ids {dbg : Bool} {t : K} {I : BlkId → Prop} {L ls : List (Leaf K)} {w wm w' : World K} {e : Err}
    (hI : ∀ l ∈ L, I l.id) (h1 : ∀ l ∈ ls, l ∈ L) (h2 : Steps dbg t I w ls wm) (h3 : FailsAt dbg t L wm e w') :
    ∃ ls' : List (Leaf K), (∀ l ∈ ls', l ∈ L) ∧ (ls'.map Leaf.id).Nodup ∧
      w'.log = (ls'.map (fun l => Event.act l.id t)).reverse ++ w.log := by
  obtain ⟨l, hl, hen, ha⟩ := h3
  have hb := h2.basic (fun l hl => hI l (h1 l hl))
  refine ⟨ls ++ [l], ?_, ?_, ?_⟩
  · intro l' hl'
    rcases List.mem_append.1 hl' with hl' | hl'
    · exact h1 l' hl'
    · rw [List.mem_singleton] at hl'; subst hl'; exact hl
  · rw [List.map_append, List.nodup_append]
    refine ⟨hb.nodup, by simp, ?_⟩
    intro x hx y hy e
    simp only [List.map_cons, List.map_nil, List.mem_singleton] at hy
    subst hy; subst e
    have := (hb.done l.id (hI l hl)).2 (Or.inr hx)
    rw [hen.1] at this; cases this
  · rw [(act_within_error ha).log]
    simp [hb.log]

/-- One evaluation records activations of different leaves only. -/
theorem eval_log (cfg : Config K) (hp : cfg.model.Proper) {m : Machine K} (hi : OrderInv cfg m) (t : K) :
    ∃ ls : List (Leaf K), (∀ l ∈ ls, l ∈ cfg.model.leaves) ∧ (ls.map Leaf.id).Nodup ∧
      (stateOf (evalModel cfg t m)).w.log = (ls.map (fun l => Event.act l.id t)).reverse ++ m.w.log := by
  unfold evalModel
  have hI : ∀ l ∈ cfg.model.leaves, cfg.model.leafId l.id := fun l hl => List.mem_map_of_mem hl
  cases hs : cfg.strategy with
  | plain =>
    obtain ⟨w1, hw, hm⟩ := mark_ok cfg.model hp m.w
    have h := plainLoop_completes (dbg := cfg.dbg) (t := t) hp (Nat.lt_succ_self _) w1 (marked_closed hm)
    simp only [bind_apply, inW, hw]
    unfold Completes Evals at h
    cases hx : plainLoop cfg.dbg t cfg.model (cfg.model.leaves.length + 1) w1 with
    | ok u w' =>
      rw [Nat.succ_eq_add_one, hx] at h
      obtain ⟨ls, h1, h2, _⟩ := h
      have hb := h2.basic (fun l hl => hI l (h1 l hl))
      exact ⟨ls, h1, hb.nodup, by simp only [stateOf]; rw [hb.log, hm.log]⟩
    | error e w' =>
      rw [Nat.succ_eq_add_one, hx] at h
      obtain ⟨ls, wm, h1, h2, h3⟩ := h
      obtain ⟨ls', g1, g2, g3⟩ := failing_ids hI h1 h2 h3
      exact ⟨ls', g1, g2, by simp only [stateOf]; rw [g3, hm.log]⟩
  | reuse =>
    obtain ⟨w1, hw, hm⟩ := mark_ok cfg.model hp m.w
    simp only [bind_apply, inW, hw, getSim]
    cases hpo : m.s.po with
    | none => exact ⟨[], by simp, by simp, by simp [throwE, stateOf, hm.log]⟩
    | some po =>
      have hsub := hi.poSub po hpo
      have hL : ∀ l ∈ leavesOf po, l ∈ cfg.model.leaves := by
        intro l hl
        rw [leaf_mem_all]; exact hsub _ (mem_leavesOf.1 hl)
      have h := reuseEval_spec (dbg := cfg.dbg) (t := t) (I := cfg.model.leafId) po (hi.poNodup po hpo)
        (sorted_of_sub hp hsub) w1
      simp only [bind_apply, inW]
      cases hx : reuseEval cfg.dbg t po w1 with
      | ok po' w' =>
        rw [hx] at h
        obtain ⟨⟨ls, h1, h2, _⟩, _⟩ := h
        have hb := h2.basic (fun l hl => hI l (hL l (h1 l hl)))
        exact ⟨ls, fun l hl => hL l (h1 l hl), hb.nodup, by simp only [stateOf, setSim]; rw [hb.log, hm.log]⟩
      | error e w' =>
        rw [hx] at h
        rcases h with ⟨ls, wm, h1, h2, h3⟩ | ⟨⟨ls, h1, h2, _⟩, _⟩
        · obtain ⟨ls', g1, g2, g3⟩ := failing_ids (fun l hl => hI l (hL l hl)) h1 h2 h3
          exact ⟨ls', fun l hl => hL l (g1 l hl), g2, by simp only [stateOf]; rw [g3, hm.log]⟩
        · have hb := h2.basic (fun l hl => hI l (hL l (h1 l hl)))
          exact ⟨ls, fun l hl => hL l (h1 l hl), hb.nodup, by simp only [stateOf]; rw [hb.log, hm.log]⟩
  | fast =>
    simp only [bind_apply, getSim, inW]
    obtain ⟨p, hpre, he⟩ := actAll_log cfg.dbg t m.s.fast.flatten m.w
    refine ⟨p, fun l hl => hi.fastSub l (hpre.subset hl), hi.fastNodup.sublist (hpre.sublist.map _), ?_⟩
    cases hx : actAll cfg.dbg t m.s.fast.flatten m.w <;> (rw [hx] at he; exact he)

/-- Events other than activations and calls of the input callback. -/
def Event.isQuiet : Event K → Bool
  | .input _ => false
  | .act _ _ => false
  | _ => true

theorem quiet_pre (dbg : Bool) (t : K) (b : Block K) :
    Moves (Logs (fun e : Event K => e.isQuiet = true)) (b.preStep dbg t) :=
  moves_preStep dbg t b (fun l _ => moves_pre dbg t l (fun w w' h => ⟨[.pre l.id t], h.log, by simp [Event.isQuiet]⟩))

theorem quiet_post (dbg : Bool) (t : K) (b : Block K) :
    Moves (Logs (fun e : Event K => e.isQuiet = true)) (b.postStep dbg t) :=
  moves_postStep dbg t b (fun l _ => moves_post dbg t l (fun w w' h => ⟨[.post l.id t], h.log, by simp [Event.isQuiet]⟩))

/-- The log is only extended. -/
def SameLog (w w' : World K) : Prop := w'.log = w.log
instance : PreO (SameLog (K := K)) := ⟨fun _ => rfl, fun h h' => Eq.trans h' h⟩

/-- Every outcome of the call of the inputs records exactly the call. -/
theorem inputs_log (cfg : Config K) (t : K) (w : World K) :
    (stateOf (callInputs cfg t w)).log = .input t :: w.log := by
  have h : Moves SameLog (do
      match cfg.inputs with
      | some f => applyInput cfg.dbg (f t).1 (f t).2
      | none => pure ()
      applyInput cfg.dbg (cfg.modelInput t).1 (cfg.modelInput t).2 : M K Unit) := by
    dsimp only
    split
    · exact Moves.bind (moves_applyInput _ _ _ (fun _ _ _ => rfl)) (fun _ => moves_applyInput _ _ _ (fun _ _ _ => rfl))
    · exact moves_applyInput _ _ _ (fun _ _ _ => rfl)
  exact h { w with log := .input t :: w.log }

end Pooya
