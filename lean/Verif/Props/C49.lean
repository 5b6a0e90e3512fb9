import Verif.Props.C48

/-! # C49 — History stays in bounds and keeps its size

Full statement: *no update accesses memory outside the buffers; nrows() is one more than the largest recorded index (0 if none);
shrink_to_fit keeps exactly the first nrows() rows unchanged and is idempotent* — for all growth increments and all sequences.

False in two ways: with growth increment 0 the first update writes out of bounds (`C49_refuted_growth_zero`); and if
`shrink_to_fit` is called before anything was recorded, a later `shrink_to_fit` may leave more than `nrows()` rows in the
matrices of the signals (`C49_refuted_early_shrink`). Otherwise it holds (`C49_in_bounds_partial`, `C49_nrows_partial`,
`C49_shrink_partial`, `C49_shrink_tables_partial`, `C49_idempotent`). -/

namespace Pooya.C49

set_option linter.unusedSectionVars false

variable {K : Type} [Arith K]

/-- Part of C49 (growth at least 1, indices in the range of `uint`): no sequence of updates and shrinks accesses memory out of
bounds, or fails in any other way. -/
theorem C49_in_bounds_partial (ty : SigId → Ty) (grow : Nat) (hg : 1 ≤ grow) (sigs : List SigId) (hn : sigs.Nodup) (ops : List (HOp K))
    (hp : Proper ty grow sigs ops) : ∃ h, runOps ops (Hist.tracking grow sigs) = .ok () h := by
  by_cases hs : sigs = []
  · subst hs
    have : ∀ (ops : List (HOp K)) (h : Hist K), h.sigs = [] → h.tab = [] → ∃ h', runOps ops h = .ok () h' := by
      intro ops
      induction ops with
      | nil => intro h _ _; exact ⟨h, rfl⟩
      | cons o ops ih =>
        intro h h1 h2
        cases o with
        | shrink =>
          have : runOps (.shrink :: ops) h = runOps ops (histShrink h) := rfl
          rw [this]
          apply ih
          · unfold histShrink; dsimp only; split <;> exact h1
          · unfold histShrink; dsimp only; split
            · exact h2
            · simp [h2]
        | update w k t =>
          have : histUpdate w k t h = .ok () h := by
            unfold histUpdate
            rw [get_bind, h1, h2]
            rfl
          have e : runOps (.update w k t :: ops) h = runOps ops h := by
            show (do histUpdate w k t; runOps ops : HM K Unit) h = _
            rw [bind_of_ok this]
          rw [e]
          exact ih h h1 h2
    exact this ops _ rfl rfl
  · obtain ⟨h, h1, _⟩ := runOps_ok hg hs hn ops hp
    exact ⟨h, h1⟩

/-- Part of C49: `nrows()` is 0 if nothing was recorded, otherwise one more than the largest recorded index. -/
theorem C49_nrows_partial (ty : SigId → Ty) (grow : Nat) (hg : 1 ≤ grow) (sigs : List SigId) (hs : sigs ≠ []) (hn : sigs.Nodup)
    (ops : List (HOp K)) (hp : Proper ty grow sigs ops) (h : Hist K) (hr : runOps ops (Hist.tracking grow sigs) = .ok () h) :
    (h.nrows = 0 ↔ ∀ k, lastAt ops k = none) ∧ (∀ n, h.nrows = n + 1 ↔ lastAt ops n ≠ none ∧ ∀ k, lastAt ops k ≠ none → k ≤ n) := by
  obtain ⟨h', h1, hi⟩ := runOps_ok hg hs hn ops hp
  rw [hr] at h1
  cases h1
  by_cases hu : Used ops
  · obtain ⟨b1, ⟨p, b2⟩, b3⟩ := hi.bottom hu
    have hn := (nrows_eq hi).2 hu
    refine ⟨⟨fun h0 => by omega, fun h0 => by rw [h0] at b2; cases b2⟩, fun n => ⟨fun e => ?_, fun ⟨e1, e2⟩ => ?_⟩⟩
    · have : n = h.bottom := by omega
      subst this
      exact ⟨by rw [b2]; simp, b3⟩
    · have := b3 n e1
      have := e2 h.bottom (by rw [b2]; simp)
      omega
  · have hn := (nrows_eq hi).1 hu
    refine ⟨⟨fun _ k => lastAt_none hu k, fun _ => hn⟩, fun n => ⟨fun e => by omega, fun ⟨e1, _⟩ => (e1 (lastAt_none hu n)).elim⟩⟩

/-- Part of C49: after `shrink_to_fit` there are exactly `nrows()` times, the first `nrows()` ones there were; the first `nrows()` rows of
every signal are unchanged, too. -/
theorem C49_shrink_partial (ty : SigId → Ty) (grow : Nat) (hg : 1 ≤ grow) (sigs : List SigId) (hs : sigs ≠ []) (hn : sigs.Nodup)
    (ops : List (HOp K)) (hp : Proper ty grow sigs ops) (h : Hist K) (hr : runOps ops (Hist.tracking grow sigs) = .ok () h) :
    (histShrink h).time = h.time.take h.nrows ∧ (histShrink h).nrows = h.nrows ∧
      ∀ i ∈ sigs, ∀ k, k < h.nrows → ∃ r r', tabGet h.tab i = some r ∧ tabGet (histShrink h).tab i = some r' ∧ r'[k]? = r[k]? := by
  obtain ⟨h', h1, hi⟩ := runOps_ok hg hs hn ops hp
  rw [hr] at h1
  cases h1
  have hle := nrows_le_time hi
  refine ⟨?_, ?_, fun i hm k hk => ?_⟩
  · unfold histShrink
    dsimp only
    split
    · rename_i h2
      rw [List.take_of_length_le h2]
    · rename_i h2
      dsimp only
      unfold resizeRows
      have : h.nrows - h.time.length = 0 := by omega
      rw [this]
      simp
  · unfold histShrink
    dsimp only
    split <;> rfl
  · have hu : Used ops := by
      apply Classical.byContradiction
      intro hu
      rw [(nrows_eq hi).1 hu] at hk
      omega
    obtain ⟨r, hr1⟩ := tabGet_isSome (tab := h.tab) (i := i) (by rw [hi.keys hu]; exact hm)
    refine ⟨r, ?_⟩
    unfold histShrink
    dsimp only
    split
    · exact ⟨r, hr1, hr1, rfl⟩
    · refine ⟨resizeRows r h.nrows, hr1, ?_, resizeRows_get hk (nrows_le_tab hi hm hu hr1)⟩
      dsimp only
      rw [tabGet_map h.tab (fun r => resizeRows r h.nrows), hr1]
      rfl

/-- Part of C49: if `shrink_to_fit` is not called before anything was recorded, it leaves exactly the first `nrows()` rows of every
signal. -/
theorem C49_shrink_tables_partial (ty : SigId → Ty) (grow : Nat) (hg : 1 ≤ grow) (sigs : List SigId) (hs : sigs ≠ []) (hn : sigs.Nodup)
    (ops : List (HOp K)) (hp : Proper ty grow sigs ops) (he : ¬ Early ops) (hu : Used ops) (h : Hist K)
    (hr : runOps ops (Hist.tracking grow sigs) = .ok () h) :
    ∀ i ∈ sigs, ∃ r, tabGet h.tab i = some r ∧ tabGet (histShrink h).tab i = some (r.take h.nrows) ∧ (r.take h.nrows).length = h.nrows := by
  obtain ⟨h', h1, hi, hev⟩ := runOps_even hg hs hn ops hp he
  rw [hr] at h1
  cases h1
  intro i hm
  obtain ⟨r, hr1⟩ := tabGet_isSome (tab := h.tab) (i := i) (by rw [hi.keys hu]; exact hm)
  have hl := hev.used hu i hm r hr1
  have hle := nrows_le_time hi
  refine ⟨r, hr1, ?_, by rw [List.length_take]; omega⟩
  unfold histShrink
  dsimp only
  split
  · rw [hr1, List.take_of_length_le (by omega)]
  · dsimp only
    rw [tabGet_map h.tab (fun r => resizeRows r h.nrows), hr1, Option.map_some]
    unfold resizeRows
    have : h.nrows - r.length = 0 := by omega
    rw [this]
    simp

/-- `shrink_to_fit` is idempotent, in any state. -/
theorem C49_idempotent (h : Hist K) : histShrink (histShrink h) = histShrink h := by
  by_cases h1 : h.time.length ≤ h.nrows
  · have : histShrink h = h := by unfold histShrink; dsimp only; rw [if_pos h1]
    rw [this, this]
  · have e : histShrink h = { h with time := resizeRows h.time h.nrows, tab := h.tab.map (fun p => (p.1, resizeRows p.2 h.nrows)) } := by
      unfold histShrink; dsimp only; rw [if_neg h1]
    have h2 : (histShrink h).time.length ≤ (histShrink h).nrows := by
      rw [e]
      show (resizeRows h.time h.nrows).length ≤ h.nrows
      rw [resizeRows_length]
    generalize histShrink h = h' at h2
    unfold histShrink
    dsimp only
    rw [if_pos h2]

/-! ## The refutations -/

/-- With growth increment 0 the first update always writes out of bounds. -/
theorem C49_refuted_growth_zero (sigs : List SigId) (hs : sigs ≠ []) (w : World K) (k : Nat) (hk : k < 4294967296) (t : K) :
    ∃ h, histUpdate w k t (Hist.tracking 0 sigs) = .error (.ub .outOfBounds) h := by
  have hne : ((Hist.tracking 0 sigs : Hist K).tab.isEmpty && (Hist.tracking 0 sigs : Hist K).sigs.isEmpty) = false := by
    cases sigs with
    | nil => exact (hs rfl).elim
    | cons => rfl
  have hput : putRow 0 (Hist.tracking 0 sigs : Hist K).time k t = .error (.ub .outOfBounds) := by
    unfold putRow
    rw [if_pos (by simp [Hist.tracking, Hist.new])]
    unfold setRow
    rw [resizeRows_length, if_neg (by unfold u32; omega)]
  refine ⟨{ Hist.tracking 0 sigs with tab := sigs.map (fun i => (i, List.replicate 0 none)) }, ?_⟩
  unfold histUpdate
  rw [get_bind]
  simp only [hne, Bool.false_eq_true, if_false]
  rw [set_bind]
  have : (Hist.tracking 0 sigs : Hist K).grow = 0 := rfl
  rw [this, hput]
  rfl

/-- `shrink_to_fit` on an empty history, then updates with the indices 5, 12 and 14: the second `shrink_to_fit` does nothing, because the
time column happens to be full, and the matrix of the signal keeps 22 rows instead of `nrows() = 15`. -/
theorem C49_refuted_early_shrink :
    ∃ (ops : List (HOp ℚ)) (h : Hist ℚ), Proper C48.types 10 [0] ops ∧ runOps ops (Hist.tracking 10 [0]) = .ok () h ∧ h.nrows = 15 ∧
      ∃ r, tabGet (histShrink h).tab 0 = some r ∧ r.length = 22 := by
  refine ⟨[.shrink, .update (C48.world 1 true) 5 0, .update (C48.world 1 true) 12 1, .update (C48.world 1 true) 14 2], _, ?_,
    eq_of_returns (by decide +kernel), by decide +kernel, ?_⟩
  · intro w k t hm
    simp only [List.mem_cons, HOp.update.injEq, reduceCtorEq, List.not_mem_nil, or_false, false_or] at hm
    rcases hm with ⟨rfl, rfl, rfl⟩ | ⟨rfl, rfl, rfl⟩ | ⟨rfl, rfl, rfl⟩
    · exact ⟨by omega, fun i hi => C48.world_proper _ _ i (by simp at hi; simp [hi])⟩
    · exact ⟨by omega, fun i hi => C48.world_proper _ _ i (by simp at hi; simp [hi])⟩
    · exact ⟨by omega, fun i hi => C48.world_proper _ _ i (by simp at hi; simp [hi])⟩
  · exact ⟨_, Option.eq_some_of_isSome (by decide +kernel), by decide +kernel⟩

/-- The hypotheses of the partial theorems are met by the example of C48. -/
example : ∃ h, runOps C48.ops (Hist.tracking 1 [0, 1]) = .ok () h ∧ h.nrows = 4 := by
  obtain ⟨h, h1⟩ := C49_in_bounds_partial C48.types 1 (by omega) [0, 1] (by decide) C48.ops (C48.ops_proper 1 (by omega))
  refine ⟨h, h1, ((C49_nrows_partial C48.types 1 (by omega) [0, 1] (by simp) (by decide) C48.ops (C48.ops_proper 1 (by omega)) h h1).2 3).2 ⟨by decide +kernel, fun k hk => ?_⟩⟩
  cases hl : lastAt C48.ops k with
  | none => exact (hk hl).elim
  | some p =>
    have := lastAt_used hl
    simp only [C48.ops, List.mem_cons, HOp.update.injEq, reduceCtorEq, List.not_mem_nil, or_false, false_or] at this
    omega

example : ¬ Early C48.ops ∧ Used C48.ops := by
  refine ⟨?_, ⟨_, _, _, List.mem_cons_self⟩⟩
  rintro ⟨a, b, h, hu⟩
  cases a with
  | nil => cases h
  | cons o a =>
    simp only [C48.ops, List.cons_append, List.cons.injEq] at h
    exact hu ⟨_, _, _, by rw [← h.1]; exact List.mem_cons_self⟩

end Pooya.C49
