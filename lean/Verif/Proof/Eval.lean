import Verif.Proof.Order

/-! One evaluation by `Simulator`, with or without `reuse_order`. -/

namespace Pooya

set_option linter.unusedSectionVars false

variable {K : Type} [Arith K]

/-- The model contains a `BusBlockBuilder`. -/
def HasBuilder (cfg : Config K) : Prop := ∃ b ∈ cfg.model.all, b.isBuilder = true

/-- Outcome of an evaluation that returns. -/
structure EvalOk (cfg : Config K) (t : K) (m m' : Machine K) (w1 : World K) (ls : List (Leaf K)) : Prop where
  marked : Marked cfg.model.all m.w w1
  sub : ∀ l ∈ ls, l ∈ cfg.model.leaves
  steps : Steps cfg.dbg t cfg.model.leafId w1 ls m'.w
  stuck : Stuck cfg.model.leaves m'.w
  plain : cfg.strategy = .plain → m'.s = m.s ∧ Exact cfg.model.all m'.w
  reuse : cfg.strategy = .reuse → ∃ po po', m.s.po = some po ∧ m'.s = { m.s with po := some po' } ∧
    po'.Perm (po.filter (fun b => !b.isBuilder)) ∧ (cfg.dbg = true → ∀ b ∈ po, b.isBuilder = false)

/-- Outcomes of an evaluation that throws. -/
inductive EvalFails (cfg : Config K) (t : K) (m m' : Machine K) (w1 : World K) (e : Err) : Prop
  /-- the activation function of an enabled leaf throws -/
  | act (ls : List (Leaf K)) (wm : World K) : (∀ l ∈ ls, l ∈ cfg.model.leaves) →
      Steps cfg.dbg t cfg.model.leafId w1 ls wm → FailsAt cfg.dbg t cfg.model.leaves wm e m'.w → m'.s = m.s →
      EvalFails cfg t m m' w1 e
  /-- no order is remembered -/
  | null : cfg.strategy = .reuse → m.s.po = none → e = .ub .nullDeref → m' = { m with w := w1 } → EvalFails cfg t m m' w1 e
  /-- the check of the remembered order -/
  | check (po : List (Block K)) (ls : List (Leaf K)) : cfg.strategy = .reuse → m.s.po = some po → cfg.dbg = true → (∃ b ∈ po, b.isBuilder = true) →
      e = .exc .debugVerify → m'.s = m.s → (∀ l ∈ ls, l ∈ cfg.model.leaves) →
      Steps cfg.dbg t cfg.model.leafId w1 ls m'.w → EvalFails cfg t m m' w1 e

theorem eval_spec (cfg : Config K) (hs : cfg.strategy ≠ .fast) (hp : cfg.model.Proper) {m : Machine K}
    (hinv : cfg.strategy = .reuse → OrderInv cfg m) (t : K) :
    match evalModel cfg t m with
    | .ok _ m' => ∃ w1 ls, EvalOk cfg t m m' w1 ls
    | .error e m' => ∃ w1, Marked cfg.model.all m.w w1 ∧ EvalFails cfg t m m' w1 e := by
  obtain ⟨w1, hw, hm⟩ := mark_ok cfg.model hp m.w
  have hI : ∀ l ∈ cfg.model.leaves, cfg.model.leafId l.id := fun l hl => List.mem_map_of_mem hl
  unfold evalModel
  cases hst : cfg.strategy with
  | fast => exact (hs hst).elim
  | plain =>
    have h := plainLoop_completes (dbg := cfg.dbg) (t := t) hp (Nat.lt_succ_self _) w1 (marked_closed hm)
    simp only [bind_apply, inW, hw]
    unfold Completes Evals at h
    cases hx : plainLoop cfg.dbg t cfg.model (cfg.model.leaves.length + 1) w1 with
    | ok u w' =>
      rw [Nat.succ_eq_add_one, hx] at h
      obtain ⟨ls, h1, h2, h3, h4⟩ := h
      exact ⟨w1, ls, hm, h1, h2, h3, fun _ => ⟨rfl, h4⟩, fun e => by rw [hst] at e; cases e⟩
    | error e w' =>
      rw [Nat.succ_eq_add_one, hx] at h
      obtain ⟨ls, wm, h1, h2, h3⟩ := h
      exact ⟨w1, hm, .act ls wm h1 h2 h3 rfl⟩
  | reuse =>
    have hi := hinv hst
    simp only [bind_apply, inW, hw, getSim]
    cases hpo : m.s.po with
    | none => exact ⟨w1, hm, .null hst hpo rfl rfl⟩
    | some po =>
      have hsub := hi.poSub po hpo
      have hL : ∀ l ∈ leavesOf po, l ∈ cfg.model.leaves := by
        intro l hl
        rw [leaf_mem_all]; exact hsub _ (mem_leavesOf.1 hl)
      have h := reuseEval_spec (dbg := cfg.dbg) (t := t) (I := cfg.model.leafId) po (hi.poNodup po hpo)
        (sorted_of_sub hp hsub) w1
      have hdone : ∀ b ∈ po, w1.done b.id = b.isBuilder := fun b hb => hm.done b (hsub b hb)
      simp only [bind_apply, inW]
      cases hx : reuseEval cfg.dbg t po w1 with
      | ok po' w' =>
        rw [hx] at h
        obtain ⟨⟨ls, h1, h2, h3⟩, h4, h5⟩ := h
        have hb := h2.basic (fun l hl => hI l (hL l (h1 l hl)))
        refine ⟨w1, ls, hm, fun l hl => hL l (h1 l hl), h2, ?_, (fun e => by rw [hst] at e; cases e), ?_⟩
        · intro l hl hen
          cases hbl : (Block.leaf l).isBuilder with
          | false =>
            exact h3 l (mem_leavesOf.2 (hi.poAll po hpo _ ((leaf_mem_all _ l).1 hl) hbl)) hen
          | true =>
            have h6 := hm.done _ ((leaf_mem_all _ l).1 hl)
            rw [hbl] at h6
            have h7 := (hb.done l.id (hI l hl)).2 (Or.inl h6)
            exact absurd hen.1 (by simp [h7])
        · intro _
          refine ⟨po, po', hpo, rfl, ?_, fun hd b hb => (hdone b hb).symm.trans (h5 hd b hb)⟩
          have : po.filter (fun b => !w1.done b.id) = po.filter (fun b => !b.isBuilder) :=
            List.filter_congr (fun b hb => by rw [hdone b hb])
          rw [← this]; exact h4
      | error e w' =>
        rw [hx] at h
        rcases h with ⟨ls, wm, h1, h2, l, h3, h4⟩ | ⟨⟨ls, h1, h2, _⟩, h4, h5, b, hb, hbd⟩
        · exact ⟨w1, hm, .act ls wm (fun l hl => hL l (h1 l hl)) h2 ⟨l, hL l h3, h4⟩ rfl⟩
        · exact ⟨w1, hm, .check po ls hst hpo h5 ⟨b, hb, by rw [← hdone b hb]; exact hbd⟩ h4 rfl
            (fun l hl => hL l (h1 l hl)) h2⟩

/-- Passes beyond the number of leaves change nothing. -/
theorem plainLoop_fuel {dbg : Bool} {t : K} {b : Block K} (hp : b.Proper) (n : Nat) (w : World K) (hc : Closed b.all w) :
    (∃ ls w', (∀ l ∈ ls, l ∈ b.leaves) ∧ Steps dbg t b.leafId w ls w' ∧ n ≤ ls.length) ∨
      ∀ k, plainLoop dbg t b (n + k) w = plainLoop dbg t b n w := by
  induction n generalizing w with
  | zero => exact Or.inl ⟨[], w, by simp, .nil w, by simp⟩
  | succ n ih =>
    have h := evals_process (dbg := dbg) (t := t) b w hp hp.sorted hc
    unfold Evals at h
    have e : ∀ n, plainLoop dbg t b (n + 1) w = (do
        let k ← b.process dbg t
        if k = 0 then pure () else plainLoop dbg t b n) w := fun n => rfl
    have e' : ∀ k, n + 1 + k = n + k + 1 := fun k => by omega
    simp only [e, e', bind_apply]
    cases hx : b.process dbg t w with
    | error e w' => exact Or.inr (fun _ => rfl)
    | ok j w1 =>
      rw [hx] at h
      obtain ⟨ls, h1, h2, h3⟩ := h
      by_cases hk : j = 0
      · exact Or.inr (fun _ => by simp [hk])
      · simp only [hk, if_false]
        have hlen : 1 ≤ ls.length := by rw [← h3.count]; omega
        rcases ih w1 h3.closed with ⟨ls', w', g1, g2, g3⟩ | hr
        · refine Or.inl ⟨ls ++ ls', w', ?_, h2.append g2, by rw [List.length_append]; omega⟩
          intro l hl
          rcases List.mem_append.1 hl with hl | hl
          · exact h1 l hl
          · exact g1 l hl
        · exact Or.inr hr

theorem plainLoop_stops {dbg : Bool} {t : K} {b : Block K} (hp : b.Proper) (w : World K) (hc : Closed b.all w)
    {n : Nat} (hn : b.leaves.length < n) : plainLoop dbg t b n w = plainLoop dbg t b (b.leaves.length + 1) w := by
  rcases plainLoop_fuel (dbg := dbg) (t := t) hp (b.leaves.length + 1) w hc with ⟨ls, w', h1, h2, h3⟩ | h
  · exfalso
    have hb := h2.basic (fun l hl => List.mem_map_of_mem (h1 l hl))
    have := length_le_of_nodup hb.nodup h1
    omega
  · have := h (n - (b.leaves.length + 1))
    rwa [show b.leaves.length + 1 + (n - (b.leaves.length + 1)) = n by omega] at this

/-- Sweeps beyond the number of blocks change nothing. -/
theorem reuseLoop_fuel {dbg : Bool} {t : K} {I : BlkId → Prop} (po : List (Block K)) (hn : (po.map Block.id).Nodup)
    (hs : Sorted I po) (n : Nat) (w : World K) :
    (∃ new : List (Block K), (∀ b ∈ new, b ∈ po) ∧ (new.map Block.id).Nodup ∧ (∀ b ∈ new, w.done b.id = false) ∧ n ≤ new.length) ∨
      ∀ k, reuseLoop dbg t po (n + k) w = reuseLoop dbg t po n w := by
  induction n generalizing w with
  | zero => exact Or.inl ⟨[], by simp, by simp, by simp, by simp⟩
  | succ n ih =>
    have h := sweep_evals (dbg := dbg) (t := t) po hn hs w
    unfold Evals at h
    have e : ∀ n, reuseLoop dbg t po (n + 1) w = (do
        let new ← reuseSweep dbg t po
        if new.isEmpty then pure []
        else
          let rest ← reuseLoop dbg t po n
          pure (new ++ rest)) w := fun n => rfl
    have e' : ∀ k, n + 1 + k = n + k + 1 := fun k => by omega
    simp only [e, e', bind_apply]
    cases hx : reuseSweep dbg t po w with
    | error e w' => exact Or.inr (fun _ => rfl)
    | ok new w1 =>
      rw [hx] at h
      obtain ⟨ls, h1, h2, h3⟩ := h
      by_cases hk : new = []
      · exact Or.inr (fun _ => by simp [hk])
      · have hkf : new.isEmpty = false := by cases new <;> simp_all
        have hlen : 1 ≤ new.length := by cases new <;> simp_all
        simp only [hkf, Bool.false_eq_true, if_false, bind_apply]
        rcases ih w1 with ⟨new', g1, g2, g3, g4⟩ | hr
        · have hdisj : ∀ b ∈ po, w1.done b.id = false → w.done b.id = false ∧ b.id ∉ new.map Block.id := by
            intro b hb hd
            constructor
            · cases h' : w.done b.id with
              | false => rfl
              | true => rw [(h3.done b hb).2 (Or.inl h')] at hd; cases hd
            · intro h'
              rw [(h3.done b hb).2 (Or.inr h')] at hd; cases hd
          refine Or.inl ⟨new ++ new', ?_, ?_, ?_, by rw [List.length_append]; omega⟩
          · intro b hb
            rcases List.mem_append.1 hb with hb | hb
            · exact h3.sub b hb
            · exact g1 b hb
          · rw [List.map_append, List.nodup_append]
            refine ⟨h3.nodup, g2, ?_⟩
            intro x hx y hy e
            subst e
            obtain ⟨b, hb, rfl⟩ := List.mem_map.1 hy
            exact (hdisj b (g1 b hb) (g3 b hb)).2 hx
          · intro b hb
            rcases List.mem_append.1 hb with hb | hb
            · exact h3.fresh b hb
            · exact (hdisj b (g1 b hb) (g3 b hb)).1
        · exact Or.inr (fun k => by rw [hr k])

theorem reuseLoop_stops {dbg : Bool} {t : K} {I : BlkId → Prop} (po : List (Block K)) (hn : (po.map Block.id).Nodup)
    (hs : Sorted I po) (w : World K) {n : Nat} (hlen : po.length < n) :
    reuseLoop dbg t po n w = reuseLoop dbg t po (po.length + 1) w := by
  rcases reuseLoop_fuel (dbg := dbg) (t := t) po hn hs (po.length + 1) w with ⟨new, h1, h2, h3, h4⟩ | h
  · exfalso
    have := length_le_of_nodup h2 h1
    omega
  · have := h (n - (po.length + 1))
    rwa [show po.length + 1 + (n - (po.length + 1)) = n by omega] at this

/-- Levels beyond the number of leaves change nothing. -/
theorem fastOrder_fuel {dbg : Bool} {t : K} {I : BlkId → Prop} (po : List (Leaf K)) (hn : (po.map Leaf.id).Nodup)
    (hI : ∀ l ∈ po, I l.id) (n : Nat) (w : World K) :
    (∃ ls w', (∀ l ∈ ls, l ∈ po) ∧ Steps dbg t I w ls w' ∧ n ≤ ls.length) ∨
      ∀ k, fastOrder dbg t po (n + k) w = fastOrder dbg t po n w := by
  induction n generalizing w with
  | zero => exact Or.inl ⟨[], w, by simp, .nil w, by simp⟩
  | succ n ih =>
    have e' : ∀ k, n + 1 + k = n + k + 1 := fun k => by omega
    simp only [e', fastOrder, bind_apply, get_apply]
    by_cases hk : fastCount w po = 0
    · exact Or.inr (fun _ => by simp [hk])
    · simp only [hk, if_false, bind_apply]
      have h := fastLevel_evals (dbg := dbg) (t := t) (fastCount w po) po hn hI w
      unfold Evals at h
      cases hx : fastLevel dbg t (fastCount w po) po w with
      | error e w' => exact Or.inr (fun _ => rfl)
      | ok lv w1 =>
        rw [hx] at h
        obtain ⟨ls, h1, h2, h3⟩ := h
        have hfull := h3.full (Nat.le_refl _)
        have hrun := h3.run
        subst hrun
        simp only [hfull, ne_eq, not_true_eq_false, if_false, bind_apply]
        rcases ih w1 with ⟨ls', w', g1, g2, g3⟩ | hr
        · refine Or.inl ⟨ls ++ ls', w', ?_, h2.append g2, by rw [List.length_append]; omega⟩
          intro l hl
          rcases List.mem_append.1 hl with hl | hl
          · exact h1 l hl
          · exact g1 l hl
        · exact Or.inr (fun k => by rw [hr k])

theorem fastOrder_stops {dbg : Bool} {t : K} (po : List (Leaf K)) (hn : (po.map Leaf.id).Nodup) (w : World K) {n : Nat}
    (hlen : po.length < n) : fastOrder dbg t po n w = fastOrder dbg t po (po.length + 1) w := by
  rcases fastOrder_fuel (dbg := dbg) (t := t) (I := fun _ => True) po hn (fun _ _ => trivial) (po.length + 1) w with
    ⟨ls, w', h1, h2, h3⟩ | h
  · exfalso
    have hb := h2.basic (fun l hl => trivial)
    have := length_le_of_nodup hb.nodup h1
    omega
  · have := h (n - (po.length + 1))
    rwa [show po.length + 1 + (n - (po.length + 1)) = n by omega] at this

end Pooya
