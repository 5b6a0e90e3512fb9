import Verif.Model.BusBlocks
import Verif.Spec.BusLeaves
import Verif.Props.C03

/-! Lemmas about `BusBlockBuilder::visit_bus`. -/

namespace Pooya

set_option linter.unusedSectionVars false

variable {K σ : Type}

theorem dotted_single (l : Str) : dotted [l] = l := by simp [dotted, List.intercalate]

theorem dotted_cons (l : Str) {ls : List Str} (h : ls ≠ []) : dotted (l :: ls) = l ++ 46 :: dotted ls := intercalate_cons l ls h

theorem leaf_ne {es : Entries} {lf : BusLeaf} (h : lf ∈ busLeaves es) : lf.segs ≠ [] := by
  match es with
  | [] => simp [busLeaves] at h
  | (l, .val i t) :: rest =>
    simp only [busLeaves, List.mem_cons] at h
    rcases h with rfl | h
    · simp
    · exact leaf_ne h
  | (l, .bus i es') :: rest =>
    simp only [busLeaves, List.mem_append, List.mem_map] at h
    rcases h with ⟨lf', _, rfl⟩ | h
    · simp
    · exact leaf_ne h

theorem leaf_noDot {es : Entries} (hp : PlainBus es) {lf : BusLeaf} (h : lf ∈ busLeaves es) : ∀ l ∈ lf.segs, (46 : UInt8) ∉ l := by
  match es with
  | [] => simp [busLeaves] at h
  | (l, .val i t) :: rest =>
    unfold PlainBus at hp
    simp only [busLeaves, List.mem_cons] at h
    rcases h with rfl | h
    · simpa using hp.1
    · exact leaf_noDot hp.2.2 h
  | (l, .bus i es') :: rest =>
    unfold PlainBus at hp
    simp only [busLeaves, List.mem_append, List.mem_map] at h
    rcases h with ⟨lf', h', rfl⟩ | h
    · have := leaf_noDot hp.2.2.1 h'
      simp only [List.mem_cons, forall_eq_or_imp]
      exact ⟨hp.1, this⟩
    · exact leaf_noDot hp.2.2.2 h

theorem leaf_head {es : Entries} {lf : BusLeaf} (h : lf ∈ busLeaves es) : ∃ p ∈ es, lf.segs.head? = some p.1 := by
  match es with
  | [] => simp [busLeaves] at h
  | (l, .val i t) :: rest =>
    simp only [busLeaves, List.mem_cons] at h
    rcases h with rfl | h
    · exact ⟨_, List.mem_cons_self, rfl⟩
    · obtain ⟨p, h1, h2⟩ := leaf_head h
      exact ⟨p, List.mem_cons_of_mem _ h1, h2⟩
  | (l, .bus i es') :: rest =>
    simp only [busLeaves, List.mem_append, List.mem_map] at h
    rcases h with ⟨lf', h', rfl⟩ | h
    · exact ⟨_, List.mem_cons_self, rfl⟩
    · obtain ⟨p, h1, h2⟩ := leaf_head h
      exact ⟨p, List.mem_cons_of_mem _ h1, h2⟩

theorem FirstWith.cons {es : Entries} {l : Str} {s : Signal} (h : FirstWith es l s) {q : Str × Signal} (hq : q.1 ≠ l) :
    FirstWith (q :: es) l s := by
  obtain ⟨pre, post, e, hp⟩ := h
  exact ⟨q :: pre, post, by rw [e]; rfl, by simpa [hq] using hp⟩

theorem Reaches.cons {es : Entries} {segs : List Str} {s : Signal} (h : Reaches es segs s) {q : Str × Signal} (hq : segs.head? ≠ some q.1) :
    Reaches (q :: es) segs s := by
  cases h with
  | last h => exact .last (h.cons fun e => hq (by rw [e]; rfl))
  | step h h' => exact .step (h.cons fun e => hq (by rw [e]; rfl)) h'

theorem leaf_reaches {es : Entries} (hp : PlainBus es) {lf : BusLeaf} (h : lf ∈ busLeaves es) : Reaches es lf.segs (.val lf.id lf.ty) := by
  match es with
  | [] => simp [busLeaves] at h
  | (l, .val i t) :: rest =>
    unfold PlainBus at hp
    simp only [busLeaves, List.mem_cons] at h
    rcases h with rfl | h
    · exact .last ⟨[], rest, rfl, by simp⟩
    · refine (leaf_reaches hp.2.2 h).cons fun e => ?_
      obtain ⟨p, h1, h2⟩ := leaf_head h
      rw [h2] at e
      exact hp.2.1 p h1 (Option.some.inj e)
  | (l, .bus i es') :: rest =>
    unfold PlainBus at hp
    simp only [busLeaves, List.mem_append, List.mem_map] at h
    rcases h with ⟨lf', h', rfl⟩ | h
    · exact .step (i := i) ⟨[], rest, rfl, by simp⟩ (leaf_reaches hp.2.2.1 h')
    · refine (leaf_reaches hp.2.2.2 h).cons fun e => ?_
      obtain ⟨p, h1, h2⟩ := leaf_head h
      rw [h2] at e
      exact hp.2.1 p h1 (Option.some.inj e)

theorem leaves_nodup {es : Entries} (hp : PlainBus es) : ((busLeaves es).map BusLeaf.segs).Nodup := by
  match es with
  | [] => simp [busLeaves]
  | (l, .val i t) :: rest =>
    unfold PlainBus at hp
    simp only [busLeaves, List.map_cons, List.nodup_cons]
    refine ⟨fun h => ?_, leaves_nodup hp.2.2⟩
    obtain ⟨lf, h1, h2⟩ := List.mem_map.1 h
    obtain ⟨p, h3, h4⟩ := leaf_head h1
    rw [h2] at h4
    exact hp.2.1 p h3 (Option.some.inj h4).symm
  | (l, .bus i es') :: rest =>
    unfold PlainBus at hp
    simp only [busLeaves, List.map_append, List.map_map]
    rw [List.nodup_append]
    refine ⟨?_, leaves_nodup hp.2.2.2, ?_⟩
    · have h1 := leaves_nodup hp.2.2.1
      have : ((busLeaves es').map (BusLeaf.segs ∘ fun lf => { lf with segs := l :: lf.segs })) =
          ((busLeaves es').map BusLeaf.segs).map (l :: ·) := by simp [List.map_map, Function.comp_def]
      rw [this]
      exact List.Pairwise.map _ (fun a b h e => h (List.cons.inj e).2) h1
    · intro a ha b hb e
      subst e
      obtain ⟨lf, h1, h2⟩ := List.mem_map.1 hb
      obtain ⟨lf', _, h2'⟩ := List.mem_map.1 ha
      obtain ⟨p, h3, h4⟩ := leaf_head h1
      rw [h2, ← h2'] at h4
      exact hp.2.1 p h3 (Option.some.inj h4).symm

theorem leaf_path {es : Entries} (hp : PlainBus es) {lf : BusLeaf} (h : lf ∈ busLeaves es) : IsPath (dotted lf.segs) lf.segs :=
  ⟨leaf_ne h, leaf_noDot hp h, rfl⟩

theorem dotted_inj {es : Entries} (hp : PlainBus es) {a b : BusLeaf} (ha : a ∈ busLeaves es) (hb : b ∈ busLeaves es)
    (h : dotted a.segs = dotted b.segs) : a.segs = b.segs :=
  isPath_unique (leaf_path hp ha) (by rw [h]; exact leaf_path hp hb)

/-! ## Exclusion -/

/-- Exclusion as `visit_bus` tests it, below prefix `path`. -/
def skips (excl : List Str) : Str → List Str → Bool
  | _, [] => false
  | path, [l] => decide (path ++ l ∈ excl)
  | path, l :: m :: ls => decide (path ++ l ++ [46] ∈ excl) || skips excl (path ++ l ++ [46]) (m :: ls)

theorem skips_iff (excl : List Str) (path : Str) (segs : List Str) (hne : segs ≠ []) :
    skips excl path segs = true ↔ path ++ dotted segs ∈ excl ∨ ∃ k, 0 < k ∧ k < segs.length ∧ path ++ dotted (segs.take k) ++ [46] ∈ excl := by
  induction segs generalizing path with
  | nil => exact (hne rfl).elim
  | cons l ls ih =>
    cases ls with
    | nil =>
      simp only [skips, decide_eq_true_eq, dotted_single]
      constructor
      · exact .inl
      · rintro (h | ⟨k, h1, h2, _⟩)
        · exact h
        · simp at h2; omega
    | cons m ls =>
      simp only [skips, Bool.or_eq_true, decide_eq_true_eq]
      rw [ih (path ++ l ++ [46]) (by simp)]
      have e1 : path ++ l ++ [46] ++ dotted (m :: ls) = path ++ dotted (l :: m :: ls) := by
        rw [dotted_cons l (by simp)]; simp
      rw [e1]
      have e2 : ∀ k, 0 < k → path ++ l ++ [46] ++ dotted ((m :: ls).take k) = path ++ dotted ((l :: m :: ls).take (k + 1)) := by
        intro k hk
        rw [List.take_succ_cons, dotted_cons l]
        · simp
        · obtain ⟨j, rfl⟩ : ∃ j, k = j + 1 := ⟨k - 1, by omega⟩
          simp
      constructor
      · rintro (h | h | ⟨k, h1, h2, h3⟩)
        · exact .inr ⟨1, by omega, by simp, by simpa [dotted_single] using h⟩
        · exact .inl h
        · exact .inr ⟨k + 1, by omega, by simpa using h2, by rw [← e2 k h1]; exact h3⟩
      · rintro (h | ⟨k, h1, h2, h3⟩)
        · exact .inr (.inl h)
        · by_cases hk : k = 1
          · subst hk
            exact .inl (by simpa [dotted_single] using h3)
          · obtain ⟨j, rfl⟩ : ∃ j, k = j + 1 := ⟨k - 1, by omega⟩
            refine .inr (.inr ⟨j, by omega, by simpa using h2, ?_⟩)
            rw [e2 j (by omega)]
            exact h3

theorem excluded_iff {excl : List Str} (h0 : [] ∉ excl) {segs : List Str} (hne : segs ≠ []) : skips excl [] segs = true ↔ Excluded excl segs := by
  rw [skips_iff excl [] segs hne]
  unfold Excluded
  simp only [List.nil_append, h0, false_or, List.mem_range]
  constructor
  · rintro (h | ⟨k, h1, h2, h3⟩)
    · exact .inl h
    · exact .inr ⟨k, h2, h1, h3⟩
  · rintro (h | ⟨k, h1, h2, h3⟩)
    · exact .inl h
    · exact .inr ⟨k, h2, h1, h3⟩

/-- What `visit_bus` does for a value signal. -/
def visitLeaf (ibus obus : Entries) (build : Builder K σ) (r : List (Built K) × σ) (p : Str) : Except Err (List (Built K) × σ) := do
  let si ← busAt ibus p
  let so ← busAt obus p
  let b ← build p si so r.2
  .ok (r.1 ++ [b.1], b.2)

theorem except_foldlM_append {α β : Type} (f : β → α → Except Err β) (b : β) (l l' : List α) :
    List.foldlM f b (l ++ l') = List.foldlM f b l >>= fun b => List.foldlM f b l' := by
  rw [List.foldlM_append]

theorem leaf_filter_cons (excl : List Str) (path l : Str) (ls : List BusLeaf) (hne : ∀ lf ∈ ls, lf.segs ≠ [])
    (hn : path ++ l ++ [46] ∉ excl) :
    ((ls.map (fun lf => { lf with segs := l :: lf.segs })).filter (fun lf => !skips excl path lf.segs)).map (fun lf => path ++ dotted lf.segs) =
    (ls.filter (fun lf => !skips excl (path ++ l ++ [46]) lf.segs)).map (fun lf => path ++ l ++ [46] ++ dotted lf.segs) := by
  induction ls with
  | nil => rfl
  | cons lf ls ih =>
    have hlf := hne lf (by simp)
    have hs : skips excl path (l :: lf.segs) = skips excl (path ++ l ++ [46]) lf.segs := by
      cases h : lf.segs with
      | nil => exact (hlf h).elim
      | cons m ms =>
        rw [skips, decide_eq_false hn, Bool.false_or]
    have hi := ih (fun x hx => hne x (by simp [hx]))
    rw [List.map_cons, List.filter_cons, List.filter_cons]
    dsimp only
    rw [hs]
    split
    · rw [List.map_cons, List.map_cons, hi]
      congr 1
      dsimp only
      rw [dotted_cons l hlf]
      simp
    · exact hi

theorem leaf_filter_all (excl : List Str) (path l : Str) (ls : List BusLeaf) (hne : ∀ lf ∈ ls, lf.segs ≠ [])
    (hn : path ++ l ++ [46] ∈ excl) :
    (ls.map (fun lf => { lf with segs := l :: lf.segs })).filter (fun lf => !skips excl path lf.segs) = [] := by
  rw [List.filter_eq_nil_iff]
  intro lf hm
  obtain ⟨lf', h1, rfl⟩ := List.mem_map.1 hm
  cases h : lf'.segs with
  | nil => exact (hne lf' h1 h).elim
  | cons m ms =>
    dsimp only
    rw [skips, decide_eq_true hn]
    simp

/-- `visit_bus` treats the value signals that are not excluded one after the other. -/
theorem visitBus_eq (excl : List Str) (ibus obus : Entries) (build : Builder K σ) (path : Str) (es : Entries) (r : List (Built K) × σ) :
    visitBus excl ibus obus build path es r =
      List.foldlM (visitLeaf ibus obus build) r
        (((busLeaves es).filter (fun lf => !skips excl path lf.segs)).map (fun lf => path ++ dotted lf.segs)) := by
  match es with
  | [] => rw [visitBus, busLeaves]; rfl
  | (l, .val i t) :: rest =>
    rw [visitBus, busLeaves, List.filter_cons]
    dsimp only
    rw [skips]
    by_cases hx : path ++ l ∈ excl
    · rw [if_pos hx, decide_eq_true hx]
      simp only [Bool.not_true, Bool.false_eq_true, if_false]
      rw [← visitBus_eq excl ibus obus build path rest r]
      rfl
    · rw [if_neg hx, decide_eq_false hx]
      simp only [Bool.not_false, if_true, List.map_cons, List.foldlM_cons, dotted_single]
      show (visitLeaf ibus obus build r (path ++ l) >>= _) = _
      congr 1
      funext r1
      exact visitBus_eq excl ibus obus build path rest r1
  | (l, .bus i es') :: rest =>
    rw [visitBus, busLeaves, List.filter_append, List.map_append, except_foldlM_append]
    by_cases hx : path ++ l ++ [46] ∈ excl
    · rw [if_pos hx, leaf_filter_all excl path l _ (fun lf h => leaf_ne h) hx]
      rw [List.map_nil]
      show visitBus excl ibus obus build path rest r = _
      rw [visitBus_eq excl ibus obus build path rest r]
      rfl
    · rw [if_neg hx, leaf_filter_cons excl path l _ (fun lf h => leaf_ne h) hx]
      rw [visitBus_eq excl ibus obus build (path ++ l ++ [46]) es' r]
      congr 1
      funext r1
      exact visitBus_eq excl ibus obus build path rest r1

/-- The value signals that are not excluded. -/
theorem skips_kept {excl : List Str} (h0 : [] ∉ excl) (es : Entries) :
    (busLeaves es).filter (fun lf => !skips excl [] lf.segs) = keptLeaves excl es := by
  unfold keptLeaves
  apply List.filter_congr
  intro lf hm
  have := excluded_iff h0 (leaf_ne hm)
  by_cases hx : Excluded excl lf.segs
  · rw [this.2 hx]; simp [hx]
  · rw [Bool.eq_false_iff.2 (fun e => hx (this.1 e))]; simp [hx]

theorem kept_all {excl : List Str} (h0 : [] ∈ excl) (es : Entries) : keptLeaves excl es = [] := by
  unfold keptLeaves
  rw [List.filter_eq_nil_iff]
  intro lf _
  have hx : Excluded excl lf.segs := .inr (.inl h0)
  simp [hx]

end Pooya
