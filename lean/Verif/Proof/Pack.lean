import Verif.Proof.LeafRun
import Verif.Proof.NoReCall
import Verif.Proof.History
import Verif.Spec.Pack

/-! Writing and reading the state variables. -/

namespace Pooya

set_option linter.unusedSectionVars false

variable {K : Type} [Arith K]

theorem readScalars_ok {dbg : Bool} {ss : List SigId} {a : List K} {w w' : World K} (h : readScalars dbg ss w = .ok a w') :
    w' = w ∧ List.Forall₂ (fun s v => (w.sig s).value = some (.scalar v)) ss a := by
  induction ss generalizing a w' with
  | nil => cases h; exact ⟨rfl, .nil⟩
  | cons s ss ih =>
    unfold readScalars at h
    obtain ⟨x, w1, h1, h2⟩ := ok_bind h
    unfold getScalar at h1
    obtain ⟨v, w2, h3, h4⟩ := ok_bind h1
    obtain ⟨e1, e2⟩ := getv_ok h3
    obtain ⟨xs, w3, h5, h6⟩ := ok_bind h2
    subst e1
    cases v with
    | scalar y =>
      cases h4
      obtain ⟨e3, e4⟩ := ih h5
      cases h6
      exact ⟨e3, .cons e2 e4⟩
    | int _ => cases h4
    | bool _ => cases h4
    | array _ => cases h4

theorem readArrays_ok {dbg : Bool} {sa : List SigId} {a : List K} {w w' : World K} (h : readArrays dbg sa w = .ok a w') :
    w' = w ∧ ∃ b : List (List K), List.Forall₂ (fun s v => (w.sig s).value = some (.array v) ∧ v.length = (w.sig s).ty.size) sa b ∧ a = b.flatten := by
  induction sa generalizing a w' with
  | nil => cases h; exact ⟨rfl, [], .nil, rfl⟩
  | cons s ss ih =>
    unfold readArrays at h
    obtain ⟨w0, w1, h1, h2⟩ := ok_bind h
    cases h1
    obtain ⟨v, w2, h3, h4⟩ := ok_bind h2
    obtain ⟨e1, e2⟩ := getv_ok h3
    subst e1
    cases v with
    | array y =>
      dsimp only at h4
      by_cases hl : y.length = (w2.sig s).ty.size
      · rw [if_pos hl] at h4
        obtain ⟨xs, w3, h5, h6⟩ := ok_bind h4
        obtain ⟨e3, b, e4, e5⟩ := ih h5
        cases h6
        exact ⟨e3, y :: b, .cons ⟨e2, hl⟩ e4, by rw [e5]; rfl⟩
      · rw [if_neg hl] at h4; cases h4
    | int _ => cases h4
    | bool _ => cases h4
    | scalar _ => cases h4

/-- What `get_state_variables` returns is what the state signals hold. -/
theorem getStates_ok {cfg : Config K} {m m' : Machine K} {x : List K} (h : getStates cfg m = .ok x m') : m' = m ∧ m.holds x ∧ x.length = m.s.svSize := by
  unfold getStates at h
  rw [bind_apply] at h
  simp only [getSim] at h
  obtain ⟨a, m1, h1, h2⟩ := ok_bind h
  obtain ⟨w1, g1, e1⟩ := inW_ok h1
  subst e1
  obtain ⟨b, m2, h3, h4⟩ := ok_bind h2
  obtain ⟨w2, g2, e2⟩ := inW_ok h3
  subst e2
  obtain ⟨i1, i2⟩ := readScalars_ok g1
  obtain ⟨j1, bb, j2, j3⟩ := readArrays_ok g2
  have j1 : w2 = w1 := j1
  subst j1 i1
  by_cases hl : (a ++ b).length = m.s.svSize
  · rw [if_pos hl] at h4
    cases h4
    exact ⟨rfl, ⟨a, bb, i2, j2, by rw [j3]⟩, hl⟩
  · rw [if_neg hl] at h4; cases h4

theorem readScalars_of {dbg : Bool} {ss : List SigId} {a : List K} {w : World K}
    (h : List.Forall₂ (fun s v => (w.sig s).value = some (.scalar v)) ss a) (ha : ∀ s ∈ ss, (w.sig s).assigned = true) :
    readScalars dbg ss w = .ok a w := by
  induction h with
  | nil => rfl
  | @cons s v ss a h1 _ ih =>
    have hg : getv dbg s w = .ok (.scalar v) w := by
      unfold getv
      rw [if_neg (by rw [ha s (by simp)]; simp), h1]
    have ih := ih (fun s hs => ha s (by simp [hs]))
    unfold readScalars
    have h2 : getScalar dbg s w = .ok v w := by
      unfold getScalar
      rw [bind_of_ok hg]; rfl
    rw [bind_of_ok h2, bind_of_ok ih]; rfl

theorem readArrays_of {dbg : Bool} {sa : List SigId} {b : List (List K)} {w : World K}
    (h : List.Forall₂ (fun s v => (w.sig s).value = some (.array v) ∧ v.length = (w.sig s).ty.size) sa b) (ha : ∀ s ∈ sa, (w.sig s).assigned = true) :
    readArrays dbg sa w = .ok b.flatten w := by
  induction h with
  | nil => rfl
  | @cons s v ss a h1 _ ih =>
    have hg : getv dbg s w = .ok (.array v) w := by
      unfold getv
      rw [if_neg (by rw [ha s (by simp)]; simp), h1.1]
    have ih := ih (fun s hs => ha s (by simp [hs]))
    unfold readArrays
    show (getv dbg s >>= _) w = _
    rw [bind_of_ok hg]
    dsimp only
    rw [if_pos h1.2, bind_of_ok ih]; rfl

theorem writeScalars_ok {dbg : Bool} {ss : List SigId} {x d : List K} {w w' : World K} (hn : ss.Nodup) (h : writeScalars dbg ss x w = .ok d w') :
    ∃ a, x = a ++ d ∧ List.Forall₂ (fun s v => (w'.sig s).value = some (.scalar v) ∧ (w'.sig s).assigned = true) ss a ∧
      (∀ s, s ∉ ss → w'.sig s = w.sig s) ∧ (∀ s, (w'.sig s).ty = (w.sig s).ty) := by
  induction ss generalizing x w with
  | nil =>
    have : writeScalars dbg [] x w = .ok x w := by unfold writeScalars; rfl
    rw [this] at h
    cases h
    exact ⟨[], rfl, .nil, fun _ _ => rfl, fun _ => rfl⟩
  | cons s ss ih =>
    cases x with
    | nil => unfold writeScalars at h; cases h
    | cons y x =>
      unfold writeScalars at h
      obtain ⟨_, w1, h1, h2⟩ := ok_bind h
      have e := setv_ok h1
      obtain ⟨hns, hn⟩ := List.nodup_cons.1 hn
      obtain ⟨a, h3, h4, h5, h6⟩ := ih hn h2
      refine ⟨y :: a, by rw [h3]; rfl, .cons ?_ h4, ?_, ?_⟩
      · rw [h5 s hns, e]; simp [upd]
      · intro s' hs'
        simp only [List.mem_cons, not_or] at hs'
        rw [h5 s' hs'.2, e]
        simp [upd, hs'.1]
      · intro s'
        rw [h6 s', e]
        by_cases hs' : s' = s <;> simp [upd, hs']

theorem writeArrays_ok {dbg : Bool} {sa : List SigId} {d : List K} {w w' : World K} (hn : sa.Nodup) (h : writeArrays dbg sa d w = .ok () w') :
    ∃ (b : List (List K)) (r : List K), d = b.flatten ++ r ∧
      List.Forall₂ (fun s v => ((w'.sig s).value = some (.array v) ∧ v.length = (w'.sig s).ty.size) ∧ (w'.sig s).assigned = true) sa b ∧
      (∀ s, s ∉ sa → w'.sig s = w.sig s) ∧ (∀ s, (w'.sig s).ty = (w.sig s).ty) := by
  induction sa generalizing d w with
  | nil =>
    have : writeArrays dbg [] d w = .ok () w := by unfold writeArrays; rfl
    rw [this] at h
    cases h
    exact ⟨[], d, rfl, .nil, fun _ _ => rfl, fun _ => rfl⟩
  | cons s ss ih =>
    unfold writeArrays at h
    rw [get_bind] at h
    by_cases hl : d.length < (w.sig s).ty.size
    · rw [if_pos hl] at h; cases h
    · rw [if_neg hl] at h
      obtain ⟨_, w1, h1, h2⟩ := ok_bind h
      have e := setv_ok h1
      obtain ⟨hns, hn⟩ := List.nodup_cons.1 hn
      obtain ⟨b, r, h3, h4, h5, h6⟩ := ih hn h2
      refine ⟨d.take (w.sig s).ty.size :: b, r, ?_, .cons ?_ h4, ?_, ?_⟩
      · rw [List.flatten_cons, List.append_assoc, ← h3, List.take_append_drop]
      · rw [h5 s hns, e]
        refine ⟨⟨by simp [upd], ?_⟩, by simp [upd]⟩
        simp only [upd, if_true]
        rw [List.length_take]; omega
      · intro s' hs'
        simp only [List.mem_cons, not_or] at hs'
        rw [h5 s' hs'.2, e]
        simp [upd, hs'.1]
      · intro s'
        rw [h6 s', e]
        by_cases hs' : s' = s <;> simp [upd, hs']

theorem clearAll_facts {ss : List SigId} {w w' : World K} (h : clearAll ss w = .ok () w') :
    (∀ s, (w'.sig s).value = (w.sig s).value) ∧ (∀ s, (w'.sig s).ty = (w.sig s).ty) ∧ (∀ s ∈ ss, (w'.sig s).assigned = false) ∧
      (∀ s, s ∉ ss → w'.sig s = w.sig s) := by
  rw [clearAll_ok] at h
  cases h
  refine ⟨fun s => ?_, fun s => ?_, fun s hs => ?_, fun s hs => ?_⟩
  · dsimp only; split <;> rfl
  · dsimp only; split <;> rfl
  · simp [hs]
  · simp [hs]

/-- After `reset_with_state_variables` the state signals hold the vector (of the right size), are assigned, and other signals of the diagram
are not. -/
theorem resetWith_holds {cfg : Config K} {x : List K} {m m' : Machine K} (hn : (m.s.scalarStates ++ m.s.arrayStates).Nodup)
    (hx : x.length = slots m.w.size m.s.scalarStates m.s.arrayStates) (h : resetWith cfg x m = .ok () m') :
    m'.holds x ∧ (∀ s ∈ m.s.scalarStates ++ m.s.arrayStates, (m'.w.sig s).assigned = true) ∧
      (∀ s ∈ m.s.valueSigs, s ∉ m.s.scalarStates ++ m.s.arrayStates → (m'.w.sig s).assigned = false) ∧
      (∀ s, s ∉ m.s.valueSigs → s ∉ m.s.scalarStates ++ m.s.arrayStates → m'.w.sig s = m.w.sig s) ∧
      (∀ s, (m'.w.sig s).ty = (m.w.sig s).ty) := by
  obtain ⟨w1, w2, w3, d, h1, h2, h3, rfl⟩ := resetWith_ok h
  obtain ⟨c1, c2, c3, c4⟩ := clearAll_facts h1
  rw [List.nodup_append] at hn
  obtain ⟨n1, n2, n3⟩ := hn
  obtain ⟨a, g1, g2, g3, g4⟩ := writeScalars_ok n1 h2
  obtain ⟨b, r, k1, k2, k3, k4⟩ := writeArrays_ok n2 h3
  have hty : ∀ s, (w3.sig s).ty = (m.w.sig s).ty := fun s => by rw [k4, g4, c2]
  have hr : r = [] := by
    have hb : b.flatten.length = (m.s.arrayStates.map m.w.size).sum := by
      clear k1 k3 h3 n3 n2 hx h
      generalize m.s.arrayStates = sa at k2
      induction k2 with
      | nil => rfl
      | cons e _ ih => simp only [List.flatten_cons, List.length_append, List.map_cons, List.sum_cons, ih]; rw [e.1.2, hty]; rfl
    have ha := g2.length_eq
    rw [g1, k1] at hx
    unfold slots at hx
    simp only [List.length_append] at hx
    exact List.length_eq_zero_iff.1 (by omega)
  have hS : ∀ s ∈ m.s.scalarStates, w3.sig s = w2.sig s := fun s hs => k3 s (fun hs' => n3 s hs s hs' rfl)
  refine ⟨⟨a, b, ?_, ?_, by rw [g1, k1, hr]; simp⟩, ?_, ?_, ?_, hty⟩
  · clear g1
    show List.Forall₂ _ m.s.scalarStates a
    refine List.Forall₂.imp (fun s v hv => ?_) (List.forall₂_iff_get.2 ?_ : List.Forall₂ (fun s v => (w3.sig s).value = some (.scalar v)) _ a)
    · exact hv
    · rw [List.forall₂_iff_get] at g2
      refine ⟨g2.1, fun i hi hj => ?_⟩
      rw [hS _ (List.get_mem _ _)]
      exact (g2.2 i hi hj).1
  · exact k2.imp (fun _ _ h => h.1)
  · intro s hs
    rcases List.mem_append.1 hs with hs | hs
    · show (w3.sig s).assigned = true
      rw [hS s hs]
      obtain ⟨i, rfl⟩ := List.get_of_mem hs
      rw [List.forall₂_iff_get] at g2
      exact (g2.2 i.1 i.2 (by rw [← g2.1]; exact i.2)).2
    · obtain ⟨i, rfl⟩ := List.get_of_mem hs
      rw [List.forall₂_iff_get] at k2
      exact (k2.2 i.1 i.2 (by rw [← k2.1]; exact i.2)).2
  · intro s hs hns
    simp only [List.mem_append, not_or] at hns
    show (w3.sig s).assigned = false
    rw [k3 s hns.2, g3 s hns.1]
    exact c3 s hs
  · intro s hs hns
    simp only [List.mem_append, not_or] at hns
    show w3.sig s = _
    rw [k3 s hns.2, g3 s hns.1]
    exact c4 s hs

theorem setv_succ {dbg : Bool} {s : SigId} {v : Val K} {w : World K} (ht : v.hasTag (w.sig s).ty = true) (ha : (w.sig s).assigned = false)
    (hz : v.sizeOk (w.sig s).ty = true) : ∃ w', setv dbg s v w = .ok () w' := by
  unfold setv
  rw [if_neg (by simp [ht]), if_neg (by simp [ha]), if_neg (by simp [hz])]
  exact ⟨_, rfl⟩

theorem writeScalars_succ {dbg : Bool} {ss : List SigId} {x : List K} {w : World K} (hn : ss.Nodup) (ht : ∀ s ∈ ss, (w.sig s).ty = .scalar)
    (ha : ∀ s ∈ ss, (w.sig s).assigned = false) (hx : ss.length ≤ x.length) : ∃ w', writeScalars dbg ss x w = .ok (x.drop ss.length) w' := by
  induction ss generalizing x w with
  | nil => unfold writeScalars; exact ⟨w, rfl⟩
  | cons s ss ih =>
    cases x with
    | nil => simp at hx
    | cons y x =>
      obtain ⟨hns, hn⟩ := List.nodup_cons.1 hn
      unfold writeScalars
      obtain ⟨w1, h1⟩ := setv_succ (dbg := dbg) (s := s) (v := .scalar y) (w := w) (by rw [ht s (by simp)]; rfl) (ha s (by simp))
        (by rw [ht s (by simp)]; rfl)
      have e := setv_ok h1
      have hne : ∀ s' ∈ ss, s' ≠ s := fun s' hs' he => hns (he ▸ hs')
      obtain ⟨w2, h2⟩ := ih (x := x) (w := w1) hn (fun s' hs' => by rw [e]; simp [upd, hne s' hs', ht s' (by simp [hs'])])
        (fun s' hs' => by rw [e]; simp [upd, hne s' hs', ha s' (by simp [hs'])]) (by simpa using hx)
      exact ⟨w2, by rw [bind_of_ok h1]; exact h2⟩

theorem writeArrays_succ {dbg : Bool} {sa : List SigId} {d : List K} {w : World K} (hn : sa.Nodup) (ht : ∀ s ∈ sa, (w.sig s).ty.isArray = true)
    (ha : ∀ s ∈ sa, (w.sig s).assigned = false) (hx : (sa.map w.size).sum ≤ d.length) : ∃ w', writeArrays dbg sa d w = .ok () w' := by
  induction sa generalizing d w with
  | nil => unfold writeArrays; exact ⟨w, rfl⟩
  | cons s ss ih =>
    obtain ⟨hns, hn⟩ := List.nodup_cons.1 hn
    simp only [List.map_cons, List.sum_cons] at hx
    have hsz : w.size s = (w.sig s).ty.size := rfl
    unfold writeArrays
    rw [get_bind]
    show ∃ w', (if d.length < (w.sig s).ty.size then (throwE (.ub .outOfBounds) : M K Unit) else _) w = _
    rw [if_neg (by omega)]
    obtain ⟨k, hk⟩ : ∃ k, (w.sig s).ty = .array k := by
      have := ht s (by simp)
      cases hty : (w.sig s).ty with
      | array k => exact ⟨k, rfl⟩
      | scalar => rw [hty] at this; cases this
      | int => rw [hty] at this; cases this
      | bool => rw [hty] at this; cases this
    obtain ⟨w1, h1⟩ := setv_succ (dbg := dbg) (s := s) (v := .array (d.take (w.sig s).ty.size)) (w := w) (by rw [hk]; rfl) (ha s (by simp))
      (by rw [hk] at hsz ⊢; simp only [Val.sizeOk, List.length_take, Ty.size, beq_iff_eq] at hsz ⊢; omega)
    have e := setv_ok h1
    have hne : ∀ s' ∈ ss, s' ≠ s := fun s' hs' he => hns (he ▸ hs')
    have hsize : w1.size = w.size := by
      funext s'
      rw [e]
      by_cases h' : s' = s <;> simp [World.size, upd, h']
    obtain ⟨w2, h2⟩ := ih (d := d.drop (w.sig s).ty.size) (w := w1) hn (fun s' hs' => by rw [e]; simp [upd, hne s' hs', ht s' (by simp [hs'])])
      (fun s' hs' => by rw [e]; simp [upd, hne s' hs', ha s' (by simp [hs'])]) (by rw [hsize, List.length_drop]; omega)
    exact ⟨w2, by rw [bind_of_ok h1]; exact h2⟩

/-- `reset_with_state_variables` succeeds with a vector of the right size. -/
theorem resetWith_succ {cfg : Config K} {x : List K} {m : Machine K} (hn : (m.s.scalarStates ++ m.s.arrayStates).Nodup)
    (hv : ∀ s ∈ m.s.scalarStates ++ m.s.arrayStates, s ∈ m.s.valueSigs)
    (hs : ∀ s ∈ m.s.scalarStates, (m.w.sig s).ty = .scalar) (ha : ∀ s ∈ m.s.arrayStates, (m.w.sig s).ty.isArray = true)
    (hx : x.length = slots m.w.size m.s.scalarStates m.s.arrayStates) : ∃ m', resetWith cfg x m = .ok () m' := by
  rw [List.nodup_append] at hn
  obtain ⟨n1, n2, n3⟩ := hn
  have hc := clearAll_ok m.s.valueSigs m.w
  obtain ⟨c1, c2, c3, c4⟩ := clearAll_facts hc
  generalize hw1 : ({ m.w with sig := _ } : World K) = w1 at hc c1 c2 c3 c4
  unfold slots at hx
  obtain ⟨w2, h2⟩ := writeScalars_succ (dbg := cfg.dbg) (x := x) (w := w1) n1 (fun s h => by rw [c2]; exact hs s h)
    (fun s h => c3 s (hv s (by simp [h]))) (by omega)
  obtain ⟨a, _, _, g3, g4⟩ := writeScalars_ok n1 h2
  have hsize : w2.size = m.w.size := funext (fun s => by show (w2.sig s).ty.size = _; rw [g4, c2]; rfl)
  obtain ⟨w3, h3⟩ := writeArrays_succ (dbg := cfg.dbg) (d := x.drop m.s.scalarStates.length) (w := w2) n2
    (fun s h => by rw [g4, c2]; exact ha s h) (fun s h => by rw [g3 s (fun h' => n3 s h' s h rfl)]; exact c3 s (hv s (by simp [h])))
    (by rw [hsize, List.length_drop]; omega)
  refine ⟨{ m with w := w3 }, ?_⟩
  unfold resetWith
  rw [bind_apply]
  simp only [getSim]
  have e1 : inW (clearAll m.s.valueSigs) m = .ok () { m with w := w1 } := by unfold inW; rw [hc]
  have e2 : inW (writeScalars cfg.dbg m.s.scalarStates x) { m with w := w1 } = .ok (x.drop m.s.scalarStates.length) { m with w := w2 } := by
    unfold inW; dsimp only; rw [h2]
  rw [bind_of_ok e1, bind_of_ok e2]
  unfold inW; dsimp only; rw [h3]

/-- `get_state_variables` succeeds when the state signals are assigned. -/
theorem getStates_of {cfg : Config K} {m : Machine K} {x : List K} (h : m.holds x) (hx : x.length = m.s.svSize)
    (ha : ∀ s ∈ m.s.scalarStates ++ m.s.arrayStates, (m.w.sig s).assigned = true) : getStates cfg m = .ok x m := by
  obtain ⟨a, b, h1, h2, rfl⟩ := h
  unfold getStates
  rw [bind_apply]
  simp only [getSim]
  have e1 : inW (readScalars cfg.dbg m.s.scalarStates) m = .ok a m := by
    unfold inW; rw [readScalars_of h1 (fun s hs => ha s (by simp [hs]))]
  have e2 : inW (readArrays cfg.dbg m.s.arrayStates) m = .ok b.flatten m := by
    unfold inW; rw [readArrays_of h2 (fun s hs => ha s (by simp [hs]))]
  rw [bind_of_ok e1, bind_of_ok e2, if_pos hx]; rfl

omit [Arith K] in
/-- The vector is determined by the values of the signals, and the other way round. -/
theorem packed_unique {v1 v2 : SigId → Option (Val K)} {n1 n2 : SigId → Nat} {ss sa : List SigId} {x y : List K} (hx : Packed v1 n1 ss sa x)
    (hy : Packed v2 n2 ss sa y) (h : ∀ s ∈ ss ++ sa, v1 s = v2 s) : x = y := by
  obtain ⟨a, b, h1, h2, rfl⟩ := hx
  obtain ⟨a', b', h3, h4, rfl⟩ := hy
  have ea : a = a' := by
    clear h2 h4
    induction h1 generalizing a' with
    | nil => cases h3; rfl
    | @cons s v ss a e _ ih =>
      cases h3 with
      | cons e' h3 =>
        have := h s (by simp)
        rw [e, e'] at this
        cases this
        rw [ih (fun s hs => h s (by simp only [List.cons_append, List.mem_cons]; exact Or.inr hs)) _ h3]
  have eb : b = b' := by
    clear h1 h3 ea
    induction h2 generalizing b' with
    | nil => cases h4; rfl
    | @cons s v ss a e _ ih =>
      cases h4 with
      | cons e' h4 =>
        have := h s (by simp)
        rw [e.1, e'.1] at this
        cases this
        rw [ih (fun s hs => h s (by rcases List.mem_append.1 hs with hs | hs <;> simp [hs])) _ h4]
  rw [ea, eb]

omit [Arith K] in
theorem packed_inj {v1 v2 : SigId → Option (Val K)} {n : SigId → Nat} {ss sa : List SigId} {x : List K} (hx : Packed v1 n ss sa x)
    (hy : Packed v2 n ss sa x) : ∀ s ∈ ss ++ sa, v1 s = v2 s := by
  obtain ⟨a, b, h1, h2, rfl⟩ := hx
  obtain ⟨a', b', h3, h4, e⟩ := hy
  have hl : a.length = a'.length := by rw [← h1.length_eq, ← h3.length_eq]
  obtain ⟨ea, eb⟩ := List.append_inj e hl
  subst ea
  have ebb : b = b' := by
    clear e h1 h3 hl
    induction h2 generalizing b' with
    | nil => cases h4; rfl
    | @cons s v ss bs e _ ih =>
      cases h4 with
      | @cons _ v' _ bs' e' h4 =>
        simp only [List.flatten_cons] at eb
        have hlv : v.length = v'.length := by rw [e.2, e'.2]
        obtain ⟨e1, e2⟩ := List.append_inj eb hlv
        rw [e1, ih _ h4 e2]
  subst ebb
  intro s hs
  rcases List.mem_append.1 hs with hs | hs
  · obtain ⟨i, rfl⟩ := List.get_of_mem hs
    rw [List.forall₂_iff_get] at h1 h3
    have hi : i.1 < a.length := by rw [← h1.1]; exact i.2
    rw [h1.2 i.1 i.2 hi, h3.2 i.1 i.2 hi]
  · obtain ⟨i, rfl⟩ := List.get_of_mem hs
    rw [List.forall₂_iff_get] at h2 h4
    have hi : i.1 < b.length := by rw [← h2.1]; exact i.2
    rw [(h2.2 i.1 i.2 hi).1, (h4.2 i.1 i.2 hi).1]

omit [Arith K] in
theorem Packed.congr {v1 v2 : SigId → Option (Val K)} {n1 n2 : SigId → Nat} {ss sa : List SigId} {x : List K} (hx : Packed v1 n1 ss sa x)
    (h : ∀ s ∈ ss ++ sa, v2 s = v1 s) (hn : ∀ s ∈ sa, n2 s = n1 s) : Packed v2 n2 ss sa x := by
  obtain ⟨a, b, h1, h2, rfl⟩ := hx
  refine ⟨a, b, ?_, ?_, rfl⟩
  · rw [List.forall₂_iff_get] at h1 ⊢
    refine ⟨h1.1, fun i hi hj => ?_⟩
    rw [h _ (List.mem_append_left _ (List.get_mem _ _))]
    exact h1.2 i hi hj
  · rw [List.forall₂_iff_get] at h2 ⊢
    refine ⟨h2.1, fun i hi hj => ?_⟩
    rw [h _ (List.mem_append_right _ (List.get_mem _ _)), hn _ (List.get_mem _ _)]
    exact h2.2 i hi hj

omit [Arith K] in
theorem Packed.length {v : SigId → Option (Val K)} {n : SigId → Nat} {ss sa : List SigId} {x : List K} (hx : Packed v n ss sa x) :
    x.length = slots n ss sa := by
  obtain ⟨a, b, h1, h2, rfl⟩ := hx
  have hb : b.flatten.length = (sa.map n).sum := by
    clear h1
    induction h2 with
    | nil => rfl
    | cons e _ ih => simp only [List.flatten_cons, List.length_append, List.map_cons, List.sum_cons, ih, e.2]
  rw [List.length_append, hb, ← h1.length_eq]; rfl

/-- The remembered state signals are different, linked and of the right types; `nState` is their number of components. -/
structure StatesOk (m : Machine K) : Prop where
  nodup : (m.s.scalarStates ++ m.s.arrayStates).Nodup
  linked : ∀ s ∈ m.s.scalarStates ++ m.s.arrayStates, s ∈ m.s.valueSigs
  scalar : ∀ s ∈ m.s.scalarStates, (m.w.sig s).ty = .scalar
  array : ∀ s ∈ m.s.arrayStates, (m.w.sig s).ty.isArray = true
  slots : m.s.nState = slots m.w.size m.s.scalarStates m.s.arrayStates

theorem Layout.statesOk {cfg : Config K} {m : Machine K} (h : Layout cfg m) (hash : ∀ l, (cfg.hash l).Perm l) : StatesOk m := by
  have hsm : ∀ s, s ∈ m.s.scalarStates ↔ s ∈ scalarStatesOf cfg m.w := fun s => by rw [h.scalarStates]; exact (hash _).mem_iff
  have ham : ∀ s, s ∈ m.s.arrayStates ↔ s ∈ arrayStatesOf cfg m.w := fun s => by rw [h.arrayStates]; exact (hash _).mem_iff
  have hsc : ∀ s ∈ m.s.scalarStates, s ∈ linkedSigs cfg.model ∧ (m.w.sig s).ty = .scalar := fun s hs => by
    have := (hsm s).1 hs
    simp only [scalarStatesOf, List.mem_filter, Bool.and_eq_true, decide_eq_true_eq] at this
    exact ⟨this.1, this.2.1⟩
  have har : ∀ s ∈ m.s.arrayStates, s ∈ linkedSigs cfg.model ∧ (m.w.sig s).ty.isArray = true := fun s hs => by
    have := (ham s).1 hs
    simp only [arrayStatesOf, List.mem_filter, Bool.and_eq_true] at this
    exact ⟨this.1, this.2.1⟩
  have hl : ∀ s, s ∈ m.s.valueSigs ↔ s ∈ linkedSigs cfg.model := fun s => by rw [h.valueSigs]; exact (hash _).mem_iff
  refine ⟨?_, ?_, fun s hs => (hsc s hs).2, fun s hs => (har s hs).2, ?_⟩
  · rw [List.nodup_append]
    refine ⟨?_, ?_, ?_⟩
    · rw [h.scalarStates]; exact (hash _).nodup_iff.2 ((linkedSigs_nodup _).filter _)
    · rw [h.arrayStates]; exact (hash _).nodup_iff.2 ((linkedSigs_nodup _).filter _)
    · rintro a ha b hb rfl
      have h1 := (hsc a ha).2
      have h2 := (har a hb).2
      rw [h1] at h2; cases h2
  · intro s hs
    rcases List.mem_append.1 hs with hs | hs
    · exact (hl s).2 (hsc s hs).1
    · exact (hl s).2 (har s hs).1
  · rw [h.nState, stateSize, Pooya.slots, h.scalarStates, h.arrayStates, (hash _).length_eq, ((hash _).map _).sum_nat]; rfl

end Pooya
