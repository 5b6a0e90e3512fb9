import Verif.Spec.Recorder
import Verif.Proof.Monad
import Mathlib.Data.List.Induction

/-! The invariant of `History`. -/

namespace Pooya

set_option linter.unusedSectionVars false

theorem set_bind {σ β : Type} (s' s : σ) (f : PUnit → EStateM Err σ β) : ((set s' : EStateM Err σ PUnit) >>= f) s = f ⟨⟩ s' := rfl

theorem get_bind {σ β : Type} (s : σ) (f : σ → EStateM Err σ β) : ((get : EStateM Err σ σ) >>= f) s = f s s := rfl

section
variable {α : Type}

theorem resizeRows_length (r : Rows α) (n : Nat) : (resizeRows r n).length = n := by
  unfold resizeRows
  simp only [List.length_append, List.length_take, List.length_replicate]
  omega

theorem resizeRows_view (r : Rows α) (n j : Nat) : (resizeRows r n)[j]?.join = if j < n then r[j]?.join else none := by
  unfold resizeRows
  rw [List.getElem?_append]
  simp only [List.length_take]
  split
  · rw [List.getElem?_take]
    rw [if_pos (by omega), if_pos (by omega)]
  · rw [List.getElem?_replicate]
    split
    · split
      · rw [List.getElem?_eq_none (by omega)]; rfl
      · rfl
    · split
      · rw [List.getElem?_eq_none (by omega)]
      · rfl

theorem resizeRows_get {r : Rows α} {n j : Nat} (h : j < n) (hn : n ≤ r.length) : (resizeRows r n)[j]? = r[j]? := by
  unfold resizeRows
  rw [List.getElem?_append_left (by simp; omega), List.getElem?_take, if_pos h]

theorem putRow_ok {grow k : Nat} (hg : 1 ≤ grow) (hk : k + grow < 4294967296) (r : Rows α) (a : α) :
    ∃ r', putRow grow r k a = .ok r' ∧ (∀ j, r'[j]?.join = if j = k then some a else r[j]?.join) ∧
      r'.length = if r.length ≤ k then k + grow else r.length := by
  unfold putRow setRow u32
  rw [Nat.mod_eq_of_lt hk]
  split
  · rename_i h
    rw [resizeRows_length, if_pos (by omega)]
    refine ⟨_, rfl, fun j => ?_, by rw [List.length_set, resizeRows_length]⟩
    rw [List.getElem?_set, resizeRows_length]
    split
    · rename_i hj; subst hj; rw [if_pos (by omega), if_pos rfl]; rfl
    · rename_i hj
      rw [resizeRows_view, if_neg (Ne.symm hj)]
      split
      · rfl
      · rw [List.getElem?_eq_none (by omega)]; rfl
  · rename_i h
    rw [if_pos (by omega)]
    refine ⟨_, rfl, fun j => ?_, by rw [List.length_set]⟩
    rw [List.getElem?_set]
    split
    · rename_i hj; subst hj; rw [if_pos (by omega), if_pos rfl]; rfl
    · rename_i hj; rw [if_neg (Ne.symm hj)]

end

variable {K : Type}

theorem tabGet_isSome {tab : List (SigId × Rows (List K))} {i : SigId} (h : i ∈ tab.map Prod.fst) : ∃ r, tabGet tab i = some r := by
  induction tab with
  | nil => simp at h
  | cons p tab ih =>
    obtain ⟨j, r⟩ := p
    unfold tabGet
    by_cases hj : j = i
    · exact ⟨r, by rw [if_pos hj]⟩
    · rw [if_neg hj]
      simp only [List.map_cons, List.mem_cons] at h
      exact ih (h.resolve_left (Ne.symm hj))

theorem tabGet_mem {tab : List (SigId × Rows (List K))} {i : SigId} {r : Rows (List K)} (h : tabGet tab i = some r) : (i, r) ∈ tab := by
  induction tab with
  | nil => cases h
  | cons p tab ih =>
    obtain ⟨j, s⟩ := p
    unfold tabGet at h
    split at h
    · cases h; rename_i hj; subst hj; simp
    · exact List.mem_cons_of_mem _ (ih h)

theorem tabGet_of_mem {tab : List (SigId × Rows (List K))} (hn : (tab.map Prod.fst).Nodup) {i : SigId} {r : Rows (List K)} (h : (i, r) ∈ tab) :
    tabGet tab i = some r := by
  induction tab with
  | nil => cases h
  | cons p tab ih =>
    obtain ⟨j, s⟩ := p
    unfold tabGet
    simp only [List.map_cons, List.nodup_cons] at hn
    rcases List.mem_cons.1 h with h1 | h1
    · cases h1; rw [if_pos rfl]
    · rw [if_neg, ih hn.2 h1]
      rintro rfl
      exact hn.1 (List.mem_map.2 ⟨_, h1, rfl⟩)

theorem tabSet_keys (tab : List (SigId × Rows (List K))) (i : SigId) (r : Rows (List K)) :
    (tabSet tab i r).map Prod.fst = tab.map Prod.fst := by
  unfold tabSet
  rw [List.map_map]
  apply List.map_congr_left
  intro p _
  simp only [Function.comp]
  split
  · rename_i h; exact h.symm
  · rfl

theorem tabGet_tabSet {tab : List (SigId × Rows (List K))} {i : SigId} (hi : i ∈ tab.map Prod.fst) (r : Rows (List K)) (j : SigId) :
    tabGet (tabSet tab i r) j = if j = i then some r else tabGet tab j := by
  induction tab with
  | nil => simp at hi
  | cons p tab ih =>
    obtain ⟨k, s⟩ := p
    unfold tabSet
    simp only [List.map_cons]
    by_cases hk : k = i
    · subst hk
      rw [if_pos rfl]
      simp only [tabGet]
      by_cases hj : k = j
      · subst hj; simp
      · rw [if_neg hj, if_neg (Ne.symm hj)]
        by_cases hm : k ∈ tab.map Prod.fst
        · have := ih hm
          unfold tabSet at this
          rw [this, if_neg (Ne.symm hj), if_neg hj]
        · have : tab.map (fun p => if p.1 = k then (k, r) else p) = tab := by
            have hc : tab.map (fun p => if p.1 = k then (k, r) else p) = tab.map id := by
              apply List.map_congr_left
              intro p hp
              have : ¬ p.1 = k := by
                intro he
                exact hm (List.mem_map.2 ⟨p, hp, he⟩)
              simp [this]
            rw [hc, List.map_id]
          rw [this, if_neg hj]
    · rw [if_neg hk]
      simp only [List.map_cons, List.mem_cons] at hi
      have := ih (hi.resolve_left (Ne.symm hk))
      unfold tabSet at this
      simp only [tabGet]
      rw [this]
      by_cases hj : k = j
      · subst hj; rw [if_pos rfl, if_neg hk, if_pos rfl]
      · rw [if_neg hj, if_neg hj]

variable [Arith K]

theorem rowOf_sample {c : Cell K} (h : c.proper) : rowOf c = .ok (sample c) := by
  unfold rowOf sample
  cases ha : c.assigned with
  | false =>
    simp only [Bool.false_eq_true, if_false]
    cases c.ty <;> rfl
  | true =>
    obtain ⟨v, h1, h2, h3⟩ := h ha
    simp only [h1, if_true]
    cases v with
    | scalar x => rfl
    | int n => rfl
    | bool b => cases b <;> rfl
    | array xs =>
      simp only [Val.coeffs]
      rw [if_pos]
      cases hty : c.ty with
      | array n => rw [hty] at h3; simpa [Val.sizeOk, Ty.cols] using h3
      | scalar => rw [hty] at h2; simp [Val.hasTag] at h2
      | int => rw [hty] at h2; simp [Val.hasTag] at h2
      | bool => rw [hty] at h2; simp [Val.hasTag] at h2

/-- The new number of rows. -/
def grown (grow k n : Nat) : Nat := if n ≤ k then k + grow else n

theorem histRows_ok {w : World K} {k : Nat} {grow : Nat} (hg : 1 ≤ grow) (hk : k + grow < 4294967296) (is : List SigId) (hn : is.Nodup) :
    ∀ h : Hist K, h.grow = grow → (∀ i ∈ is, i ∈ h.tab.map Prod.fst) → (∀ i ∈ is, (w.sig i).proper) →
    ∃ tab', histRows w k is h = .ok () { h with tab := tab' } ∧ tab'.map Prod.fst = h.tab.map Prod.fst ∧
      (∀ i, i ∉ is → tabGet tab' i = tabGet h.tab i) ∧
      ∀ i ∈ is, ∀ r, tabGet h.tab i = some r → ∃ r', tabGet tab' i = some r' ∧
        (∀ j, r'[j]?.join = if j = k then some (sample (w.sig i)) else r[j]?.join) ∧ r'.length = grown grow k r.length := by
  induction is with
  | nil => intro h _ _ _; exact ⟨h.tab, rfl, rfl, fun _ _ => rfl, by simp⟩
  | cons i is ih =>
    intro h hgr hm hp
    rw [List.nodup_cons] at hn
    obtain ⟨r, hr⟩ := tabGet_isSome (hm i (by simp))
    obtain ⟨r', h1, h2, h3⟩ := putRow_ok hg hk r (sample (w.sig i))
    have hkeys := tabSet_keys h.tab i r'
    obtain ⟨tab', e1, e2, e3, e4⟩ := ih hn.2 { h with tab := tabSet h.tab i r' } hgr
      (fun j hj => by rw [hkeys]; exact hm j (by simp [hj])) (fun j hj => hp j (by simp [hj]))
    dsimp only at e1 e2 e3 e4
    refine ⟨tab', ?_, e2.trans hkeys, fun j hj => ?_, fun j hj s hs => ?_⟩
    · unfold histRows
      rw [get_bind]
      simp only [hr]
      rw [rowOf_sample (hp i (by simp))]
      have h1' : putRow h.grow r k (sample (w.sig i)) = .ok r' := by rw [hgr]; exact h1
      rw [bind_of_ok (liftE_ok _ _), h1', bind_of_ok (liftE_ok _ _)]
      rw [set_bind]
      exact e1
    · simp only [List.mem_cons, not_or] at hj
      rw [e3 j hj.2, tabGet_tabSet (hm i (by simp)), if_neg hj.1]
    · by_cases hji : j = i
      · subst hji
        rw [hr] at hs
        cases hs
        refine ⟨r', by rw [e3 j hn.1, tabGet_tabSet (hm j (by simp)), if_pos rfl], h2, h3⟩
      · have hj' : j ∈ is := (List.mem_cons.1 hj).resolve_left hji
        exact e4 j hj' s (by rw [tabGet_tabSet (hm i (by simp)), if_neg hji]; exact hs)

/-- Some update is among the operations. -/
def Used (ops : List (HOp K)) : Prop := ∃ w k t, HOp.update w k t ∈ ops

/-- The state of a history that tracks `sigs` after the operations `ops`. -/
structure HInv (grow : Nat) (sigs : List SigId) (ops : List (HOp K)) (h : Hist K) : Prop where
  grow_eq : h.grow = grow
  sigs_eq : h.sigs = sigs
  time : ∀ k, h.timeAt k = (lastAt ops k).map (·.2)
  unused : ¬ Used ops → h.tab = [] ∧ h.bottom = noRow
  keys : Used ops → h.tab.map Prod.fst = sigs
  rows : Used ops → ∀ i ∈ sigs, ∀ k, h.rowAt i k = (lastAt ops k).map (fun p => sample (p.1.sig i))
  bottom : Used ops → h.bottom < noRow ∧ (∃ p, lastAt ops h.bottom = some p) ∧ ∀ k, lastAt ops k ≠ none → k ≤ h.bottom

theorem lastAt_snoc (ops : List (HOp K)) (o : HOp K) (k : Nat) :
    lastAt (ops ++ [o]) k = match o with
      | .update w j t => if j = k then some (w, t) else lastAt ops k
      | .shrink => lastAt ops k := by
  unfold lastAt
  rw [List.foldl_append]
  rfl

theorem lastAt_used {ops : List (HOp K)} {k : Nat} {p : World K × K} (h : lastAt ops k = some p) : HOp.update p.1 k p.2 ∈ ops := by
  induction ops using List.reverseRecOn with
  | nil => cases h
  | append_singleton ops o ih =>
    rw [lastAt_snoc] at h
    cases o with
    | shrink => exact List.mem_append_left _ (ih h)
    | update w j t =>
      dsimp only at h
      split at h
      · cases h; rename_i hj; subst hj; simp
      · exact List.mem_append_left _ (ih h)

theorem lastAt_none {ops : List (HOp K)} (h : ¬ Used ops) (k : Nat) : lastAt ops k = none := by
  cases hl : lastAt ops k with
  | none => rfl
  | some p => exact (h ⟨_, _, _, lastAt_used hl⟩).elim

theorem used_snoc (ops : List (HOp K)) (o : HOp K) : Used (ops ++ [o]) ↔ Used ops ∨ ∃ w k t, o = .update w k t := by
  constructor
  · rintro ⟨w, k, t, h⟩
    rcases List.mem_append.1 h with h | h
    · exact .inl ⟨w, k, t, h⟩
    · exact .inr ⟨w, k, t, (List.mem_singleton.1 h).symm⟩
  · rintro (⟨w, k, t, h⟩ | ⟨w, k, t, rfl⟩)
    · exact ⟨w, k, t, List.mem_append_left _ h⟩
    · exact ⟨w, k, t, by simp⟩

theorem hinv_start (grow : Nat) (sigs : List SigId) : HInv (K := K) grow sigs [] (Hist.tracking grow sigs) := by
  have hu : ¬ Used ([] : List (HOp K)) := fun ⟨_, _, _, h⟩ => by cases h
  refine ⟨rfl, rfl, fun k => ?_, fun _ => ⟨rfl, rfl⟩, fun h => (hu h).elim, fun h => (hu h).elim, fun h => (hu h).elim⟩
  simp only [Hist.timeAt, Hist.tracking, Hist.new, List.getElem?_replicate, lastAt, List.foldl_nil, Option.map_none]
  split <;> rfl

theorem tab_fresh (sigs : List SigId) (f : Rows (List K)) (i : SigId) (hi : i ∈ sigs) : tabGet (sigs.map (fun i => (i, f))) i = some f := by
  induction sigs with
  | nil => cases hi
  | cons j js ih =>
    simp only [List.map_cons, tabGet]
    split
    · rfl
    · rename_i hj
      exact ih ((List.mem_cons.1 hi).resolve_left (fun h => hj h.symm))

variable {grow : Nat} {sigs : List SigId} {ops : List (HOp K)} {h : Hist K}

/-- The tables at the beginning of an update. -/
def Hist.tabs (h : Hist K) : List (SigId × Rows (List K)) :=
  if h.tab.isEmpty then h.sigs.map (fun i => (i, List.replicate h.grow none)) else h.tab

theorem tabs_keys (hs : sigs ≠ []) (hi : HInv grow sigs ops h) : h.tabs.map Prod.fst = sigs := by
  unfold Hist.tabs
  by_cases hu : Used ops
  · have := hi.keys hu
    rw [if_neg, this]
    intro he
    rw [List.isEmpty_iff.1 he] at this
    exact hs this.symm
  · rw [if_pos (by rw [(hi.unused hu).1]; rfl), hi.sigs_eq, List.map_map]
    exact List.map_id sigs

theorem tabs_view (hs : sigs ≠ []) (hi : HInv grow sigs ops h) {i : SigId} (hm : i ∈ sigs) (r : Rows (List K)) (hr : tabGet h.tabs i = some r) (k : Nat) :
    r[k]?.join = (lastAt ops k).map (fun p => sample (p.1.sig i)) := by
  unfold Hist.tabs at hr
  by_cases hu : Used ops
  · have hk := hi.keys hu
    rw [if_neg] at hr
    · have := hi.rows hu i hm k
      unfold Hist.rowAt at this
      rw [hr] at this
      exact this
    · intro he
      rw [List.isEmpty_iff.1 he] at hk
      exact hs hk.symm
  · rw [if_pos (by rw [(hi.unused hu).1]; rfl), hi.sigs_eq, tab_fresh _ _ _ hm] at hr
    cases hr
    rw [lastAt_none hu, List.getElem?_replicate]
    split <;> rfl

/-- An update: it returns and has the effect it should have; the numbers of rows. -/
theorem update_ok (hg : 1 ≤ grow) (hs : sigs ≠ []) (hn : sigs.Nodup) (hi : HInv grow sigs ops h) {w : World K} {k : Nat} (t : K)
    (hk : k + grow < 4294967296) (hp : ∀ i ∈ sigs, (w.sig i).proper) :
    ∃ h', histUpdate w k t h = .ok () h' ∧ HInv grow sigs (ops ++ [.update w k t]) h' ∧
      h'.time.length = grown grow k h.time.length ∧
      ∀ i ∈ sigs, ∀ r, tabGet h.tabs i = some r → ∃ r', tabGet h'.tab i = some r' ∧ r'.length = grown grow k r.length := by
  obtain ⟨tm, t1, t2, t3⟩ := putRow_ok hg hk h.time t
  have hkeys := tabs_keys hs hi
  obtain ⟨tab', e1, e2, e3, e4⟩ := histRows_ok (w := w) hg hk sigs hn { h with tab := h.tabs, time := tm } hi.grow_eq
    (fun i hm => by dsimp only; rw [hkeys]; exact hm) hp
  dsimp only at e1 e2 e3 e4
  rw [hkeys] at e2
  have hne : (h.tab.isEmpty && h.sigs.isEmpty) = false := by
    rw [hi.sigs_eq]
    cases hsig : sigs with
    | nil => exact (hs hsig).elim
    | cons => simp
  have hu : Used (ops ++ [.update w k t]) := ⟨w, k, t, by simp⟩
  refine ⟨{ h with tab := tab', time := tm, bottom := if h.bottom = noRow ∨ h.bottom < k then k else h.bottom }, ?_, ?_, t3, ?_⟩
  · unfold histUpdate
    rw [get_bind]
    simp only [hne, Bool.false_eq_true, if_false]
    have t1' : putRow h.grow h.time k t = .ok tm := by rw [hi.grow_eq]; exact t1
    have e1' : histRows w k h.sigs { h with tab := h.tabs, time := tm } = .ok () { h with tab := tab', time := tm } := by
      have := e1
      rw [← hi.sigs_eq] at this
      exact this
    change (do
      set { h with tab := h.tabs }
      let time ← liftE (putRow h.grow h.time k t)
      set { h with tab := h.tabs, time := time }
      histRows w k h.sigs
      modify (fun h => { h with bottom := if h.bottom = noRow ∨ h.bottom < k then k else h.bottom }) : HM K Unit) h = _
    rw [set_bind, t1', bind_of_ok (liftE_ok _ _), set_bind, bind_of_ok e1']
    rfl
  · refine ⟨hi.grow_eq, hi.sigs_eq, fun j => ?_, fun h => (h hu).elim, fun _ => e2, fun _ i hm j => ?_, fun _ => ?_⟩
    · unfold Hist.timeAt
      rw [t2, lastAt_snoc]
      by_cases hj : j = k
      · subst hj; simp
      · rw [if_neg hj]
        dsimp only
        rw [if_neg (Ne.symm hj)]
        exact hi.time j
    · obtain ⟨r, hr⟩ := tabGet_isSome (tab := h.tabs) (i := i) (by rw [hkeys]; exact hm)
      obtain ⟨r', f1, f2, f3⟩ := e4 i hm r hr
      unfold Hist.rowAt
      rw [f1, Option.getD_some, f2, lastAt_snoc]
      by_cases hj : j = k
      · subst hj; simp
      · rw [if_neg hj]
        dsimp only
        rw [if_neg (Ne.symm hj)]
        exact tabs_view hs hi hm r hr j
    · dsimp only
      have hkn : k < noRow := by unfold noRow; omega
      by_cases hub : Used ops
      · obtain ⟨b1, ⟨p, b2⟩, b3⟩ := hi.bottom hub
        have hbe : (if h.bottom = noRow ∨ h.bottom < k then k else h.bottom) = if h.bottom < k then k else h.bottom := by
          split <;> split <;> omega
        rw [hbe]
        refine ⟨by split <;> assumption, ?_, fun j hj => ?_⟩
        · simp only [lastAt_snoc]
          split
          · exact ⟨_, by rw [if_pos rfl]⟩
          · split
            · exact ⟨_, rfl⟩
            · exact ⟨p, b2⟩
        · simp only [lastAt_snoc] at hj
          split at hj
          · rename_i h1; subst h1; split <;> omega
          · have := b3 j hj; split <;> omega
      · rw [if_pos (.inl (hi.unused hub).2)]
        refine ⟨hkn, ⟨(w, t), by rw [lastAt_snoc]; exact if_pos rfl⟩, fun j hj => ?_⟩
        simp only [lastAt_snoc] at hj
        split at hj
        · omega
        · exact (hj (lastAt_none hub j)).elim
  · intro i hm r hr
    obtain ⟨r', f1, f2, f3⟩ := e4 i hm r hr
    exact ⟨r', f1, f3⟩

theorem nrows_eq (hi : HInv grow sigs ops h) : (¬ Used ops → h.nrows = 0) ∧ (Used ops → h.nrows = h.bottom + 1) := by
  unfold Hist.nrows u32
  constructor
  · intro hu; rw [(hi.unused hu).2]; rfl
  · intro hu; have := (hi.bottom hu).1; unfold noRow at this; omega

theorem lastAt_lt_nrows (hi : HInv grow sigs ops h) {k : Nat} (hk : lastAt ops k ≠ none) : k < h.nrows := by
  by_cases hu : Used ops
  · rw [(nrows_eq hi).2 hu]; have := (hi.bottom hu).2.2 k hk; omega
  · exact (hk (lastAt_none hu k)).elim

theorem tabGet_map (tab : List (SigId × Rows (List K))) (f : Rows (List K) → Rows (List K)) (i : SigId) :
    tabGet (tab.map (fun p => (p.1, f p.2))) i = (tabGet tab i).map f := by
  induction tab with
  | nil => rfl
  | cons p tab ih =>
    simp only [List.map_cons, tabGet]
    split
    · rfl
    · exact ih

theorem shrink_inv (hi : HInv grow sigs ops h) : HInv grow sigs (ops ++ [.shrink]) (histShrink h) := by
  have hu : Used (ops ++ [HOp.shrink]) ↔ Used ops := by
    rw [used_snoc]; simp
  have hl : ∀ k, lastAt (ops ++ [HOp.shrink]) k = lastAt ops k := fun k => by rw [lastAt_snoc]
  unfold histShrink
  dsimp only
  split
  · refine ⟨hi.grow_eq, hi.sigs_eq, fun k => ?_, fun h1 => ?_, fun h1 => ?_, fun h1 i hm k => ?_, fun h1 => ?_⟩
    · rw [hl]; exact hi.time k
    · rw [hu] at h1; exact hi.unused h1
    · rw [hu] at h1; exact hi.keys h1
    · rw [hu] at h1; rw [hl]; exact hi.rows h1 i hm k
    · rw [hu] at h1; simp only [hl]; exact hi.bottom h1
  · refine ⟨hi.grow_eq, hi.sigs_eq, fun k => ?_, fun h1 => ?_, fun h1 => ?_, fun h1 i hm k => ?_, fun h1 => ?_⟩
    · rw [hl]
      unfold Hist.timeAt
      dsimp only
      rw [resizeRows_view]
      split
      · exact hi.time k
      · rename_i hlt
        cases hlk : lastAt ops k with
        | none => rfl
        | some p => exact (hlt (lastAt_lt_nrows hi (by rw [hlk]; simp))).elim
    · rw [hu] at h1
      exact ⟨by simp [(hi.unused h1).1], (hi.unused h1).2⟩
    · rw [hu] at h1
      dsimp only
      rw [List.map_map]
      exact hi.keys h1
    · rw [hu] at h1
      rw [hl]
      have := hi.rows h1 i hm k
      unfold Hist.rowAt at this ⊢
      dsimp only
      rw [tabGet_map h.tab (fun r => resizeRows r h.nrows)]
      obtain ⟨r, hr⟩ := tabGet_isSome (tab := h.tab) (i := i) (by rw [hi.keys h1]; exact hm)
      rw [hr, Option.getD_some] at this
      rw [hr, Option.map_some, Option.getD_some, resizeRows_view]
      split
      · exact this
      · rename_i hlt
        cases hlk : lastAt ops k with
        | none => rfl
        | some p => exact (hlt (lastAt_lt_nrows hi (by rw [hlk]; simp))).elim
    · rw [hu] at h1; simp only [hl]; exact hi.bottom h1

theorem runOps_append (a b : List (HOp K)) (h : Hist K) : runOps (a ++ b) h = (do runOps a; runOps b : HM K Unit) h := by
  induction a generalizing h with
  | nil => rfl
  | cons o a ih =>
    simp only [List.cons_append, runOps, bind_apply]
    cases o.exec h with
    | ok u h1 => simp only [ih, bind_apply]
    | error e h1 => rfl

/-- Any sequence of operations returns, and the invariant holds afterwards. -/
theorem runOps_ok {ty : SigId → Ty} (hg : 1 ≤ grow) (hs : sigs ≠ []) (hn : sigs.Nodup) (ops : List (HOp K)) (hp : Proper ty grow sigs ops) :
    ∃ h, runOps ops (Hist.tracking grow sigs) = .ok () h ∧ HInv grow sigs ops h := by
  induction ops using List.reverseRecOn with
  | nil => exact ⟨_, rfl, hinv_start _ _⟩
  | append_singleton ops o ih =>
    obtain ⟨h, h1, h2⟩ := ih (fun w k t hm => hp w k t (List.mem_append_left _ hm))
    cases o with
    | shrink =>
      refine ⟨histShrink h, ?_, shrink_inv h2⟩
      rw [runOps_append, bind_of_ok h1]
      rfl
    | update w k t =>
      obtain ⟨hk, hw⟩ := hp w k t (by simp)
      obtain ⟨h', h3, h4, _⟩ := update_ok hg hs hn h2 t hk (fun i hm => (hw i hm).1)
      refine ⟨h', ?_, h4⟩
      rw [runOps_append, bind_of_ok h1]
      show (do histUpdate w k t; pure () : HM K Unit) h = _
      rw [bind_of_ok h3]
      rfl

end Pooya

namespace Pooya

set_option linter.unusedSectionVars false

variable {K : Type} [Arith K] {grow : Nat} {sigs : List SigId} {ops : List (HOp K)} {h : Hist K}

/-- `shrink_to_fit` was called before anything was recorded. -/
def Early (ops : List (HOp K)) : Prop := ∃ a b, ops = a ++ .shrink :: b ∧ ¬ Used a

/-- All matrices have the same number of rows. -/
structure Even (grow : Nat) (sigs : List SigId) (ops : List (HOp K)) (h : Hist K) : Prop where
  unused : ¬ Used ops → h.time.length = grow
  used : Used ops → ∀ i ∈ sigs, ∀ r, tabGet h.tab i = some r → r.length = h.time.length

theorem early_snoc {o : HOp K} (h : ¬ Early (ops ++ [o])) : ¬ Early ops ∧ (o = .shrink → Used ops) := by
  constructor
  · rintro ⟨a, b, rfl, hu⟩
    exact h ⟨a, b ++ [o], by simp, hu⟩
  · rintro rfl
    apply Classical.byContradiction
    intro hu
    exact h ⟨ops, [], rfl, hu⟩

theorem runOps_even {ty : SigId → Ty} (hg : 1 ≤ grow) (hs : sigs ≠ []) (hn : sigs.Nodup) (ops : List (HOp K)) (hp : Proper ty grow sigs ops)
    (he : ¬ Early ops) : ∃ h, runOps ops (Hist.tracking grow sigs) = .ok () h ∧ HInv grow sigs ops h ∧ Even grow sigs ops h := by
  induction ops using List.reverseRecOn with
  | nil =>
    refine ⟨_, rfl, hinv_start _ _, ⟨fun _ => by simp [Hist.tracking, Hist.new], fun ⟨_, _, _, hm⟩ => by cases hm⟩⟩
  | append_singleton ops o ih =>
    obtain ⟨he1, he2⟩ := early_snoc he
    obtain ⟨h, h1, h2, h3⟩ := ih (fun w k t hm => hp w k t (List.mem_append_left _ hm)) he1
    cases o with
    | shrink =>
      refine ⟨histShrink h, ?_, shrink_inv h2, ?_⟩
      · rw [runOps_append, bind_of_ok h1]
        rfl
      · have hu := he2 rfl
        refine ⟨fun hnu => (hnu ((used_snoc _ _).2 (.inl hu))).elim, fun _ i hm r hr => ?_⟩
        unfold histShrink at hr ⊢
        dsimp only at hr ⊢
        split at hr
        · rename_i hle
          rw [if_pos hle]
          exact h3.used hu i hm r hr
        · rename_i hle
          rw [if_neg hle]
          dsimp only at hr ⊢
          rw [tabGet_map h.tab (fun r => resizeRows r h.nrows)] at hr
          cases ht : tabGet h.tab i with
          | none => rw [ht] at hr; cases hr
          | some r0 => rw [ht] at hr; cases hr; rw [resizeRows_length, resizeRows_length]
    | update w k t =>
      obtain ⟨hk, hw⟩ := hp w k t (by simp)
      obtain ⟨h', e3, e4, e5, e6⟩ := update_ok hg hs hn h2 t hk (fun i hm => (hw i hm).1)
      refine ⟨h', ?_, e4, ?_⟩
      · rw [runOps_append, bind_of_ok h1]
        show (do histUpdate w k t; pure () : HM K Unit) h = _
        rw [bind_of_ok e3]
        rfl
      · refine ⟨fun hnu => (hnu ⟨w, k, t, by simp⟩).elim, fun _ i hm r hr => ?_⟩
        obtain ⟨r0, hr0⟩ := tabGet_isSome (tab := h.tabs) (i := i) (by rw [tabs_keys hs h2]; exact hm)
        obtain ⟨r', f1, f2⟩ := e6 i hm r0 hr0
        rw [f1] at hr
        cases hr
        rw [f2, e5]
        congr 1
        by_cases hu : Used ops
        · have hkey := h2.keys hu
          unfold Hist.tabs at hr0
          rw [if_neg] at hr0
          · exact h3.used hu i hm r0 hr0
          · intro hemp
            rw [List.isEmpty_iff.1 hemp] at hkey
            exact hs hkey.symm
        · unfold Hist.tabs at hr0
          rw [if_pos (by rw [(h2.unused hu).1]; rfl), h2.sigs_eq, tab_fresh _ _ _ hm] at hr0
          cases hr0
          rw [List.length_replicate, h2.grow_eq, h3.unused hu]

theorem nrows_le_time (hi : HInv grow sigs ops h) : h.nrows ≤ h.time.length := by
  by_cases hu : Used ops
  · obtain ⟨_, ⟨p, hp⟩, _⟩ := hi.bottom hu
    rw [(nrows_eq hi).2 hu]
    have := hi.time h.bottom
    rw [hp] at this
    unfold Hist.timeAt at this
    apply Classical.byContradiction
    intro hcon
    rw [List.getElem?_eq_none (by omega)] at this
    cases this
  · rw [(nrows_eq hi).1 hu]; omega

theorem nrows_le_tab (hi : HInv grow sigs ops h) {i : SigId} (hm : i ∈ sigs) (hu : Used ops) {r : Rows (List K)}
    (hr : tabGet h.tab i = some r) : h.nrows ≤ r.length := by
  obtain ⟨_, ⟨p, hp⟩, _⟩ := hi.bottom hu
  rw [(nrows_eq hi).2 hu]
  have := hi.rows hu i hm h.bottom
  rw [hp] at this
  unfold Hist.rowAt at this
  rw [hr, Option.getD_some] at this
  apply Classical.byContradiction
  intro hcon
  rw [List.getElem?_eq_none (by omega)] at this
  cases this

end Pooya
