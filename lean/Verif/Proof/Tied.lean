import Verif.Proof.Couple
import Verif.Proof.Repack
import Verif.Proof.Carry
import Verif.Proof.FastInit
import Verif.Spec.Variant

/-! Executions of two variants of a configuration, side by side: the parts of a run. -/

namespace Pooya

set_option linter.unusedSectionVars false

variable {K : Type} [Arith K] {c1 c2 cfg : Config K}

theorem Config.Variant.symm (h : c1.Variant c2) : c2.Variant c1 :=
  ⟨h.dbg.symm, h.leaves.symm, fun s => (h.links s).symm, h.deriv.symm, h.inputs.symm, h.modelInput.symm, h.stepper.symm⟩

theorem Config.Variant.inputKeys (h : c1.Variant c2) (t : K) : c1.inputKeys t = c2.inputKeys t := by
  unfold Config.inputKeys
  rw [h.inputs, h.modelInput]

/-- Both outcomes from implications in both directions. -/
theorem eqvOut_of {σ α β : Type} {Q : α → β → σ → σ → Prop} {r1 : EStateM.Result Err σ α} {r2 : EStateM.Result Err σ β}
    (h1 : ∀ a s, r1 = .ok a s → ∃ b s', r2 = .ok b s' ∧ Q a b s s') (h2 : ∀ b s', r2 = .ok b s' → ∃ a s, r1 = .ok a s) : EqvOut Q r1 r2 := by
  cases r1 with
  | ok a s =>
    obtain ⟨b, s', e, hq⟩ := h1 a s rfl
    rw [e]; exact hq
  | error e s =>
    cases r2 with
    | ok b s' =>
      obtain ⟨a, s, e⟩ := h2 b s' rfl
      cases e
    | error _ _ => trivial

theorem EqvOut.ok_inv {σ α β : Type} {Q : α → β → σ → σ → Prop} {r1 : EStateM.Result Err σ α} {r2 : EStateM.Result Err σ β} (h : EqvOut Q r1 r2)
    {a : α} {s : σ} (e : r1 = .ok a s) : ∃ b s', r2 = .ok b s' ∧ Q a b s s' := by
  subst e
  cases r2 with
  | ok b s' => exact ⟨b, s', rfl, h⟩
  | error e s' => exact h.elim

/-! ### Layout -/

theorem linked_nodup (b : Block K) : (linkedSigs b).Nodup := by
  have : ∀ (ss acc : List SigId), acc.Nodup → (distinct acc ss).Nodup := by
    intro ss
    induction ss with
    | nil => intro acc h; exact h
    | cons s ss ih =>
      intro acc h
      unfold distinct
      split
      · exact ih acc h
      · rename_i hs
        refine ih _ ?_
        rw [List.nodup_append]
        refine ⟨h, by simp, fun a ha b hb => ?_⟩
        simp only [List.mem_singleton] at hb
        subst hb
        exact fun e => hs (e ▸ ha)
  exact this _ [] List.nodup_nil

theorem linked_iff (cfg : Config K) (s : SigId) : s ∈ linkedSigs cfg.model ↔ cfg.Links s := ⟨of_linkedSigs, mem_linkedSigs cfg s⟩

theorem linked_perm (h : ∀ s, c1.Links s ↔ c2.Links s) : (linkedSigs c1.model).Perm (linkedSigs c2.model) := by
  rw [List.perm_ext_iff_of_nodup (linked_nodup _) (linked_nodup _)]
  intro s
  rw [linked_iff, linked_iff, h]

/-- The state signals of the two simulators are the same up to their order. -/
structure SameLayout (s1 s2 : Sim K) : Prop where
  scalar : s1.scalarStates.Perm s2.scalarStates
  array : s1.arrayStates.Perm s2.arrayStates
  value : ∀ s, s ∈ s1.valueSigs ↔ s ∈ s2.valueSigs
  nState : s1.nState = s2.nState

theorem same_size {w1 w2 : World K} (h : SameTy w1 w2) : w1.size = w2.size := by
  funext s
  show (w1.sig s).ty.size = (w2.sig s).ty.size
  rw [h s]

theorem same_layout (hv : c1.Variant c2) (h1 : ∀ l, (c1.hash l).Perm l) (h2 : ∀ l, (c2.hash l).Perm l) {m1 m2 : Machine K}
    (l1 : Layout c1 m1) (l2 : Layout c2 m2) (ht : ∀ s, (m1.w.sig s).ty = (m2.w.sig s).ty) : SameLayout m1.s m2.s := by
  have hp := linked_perm (K := K) hv.links
  have es : (fun s => decide ((m1.w.sig s).ty = .scalar) && (c1.deriv s).isSome) = (fun s => decide ((m2.w.sig s).ty = .scalar) && (c2.deriv s).isSome) := by
    funext s; rw [ht s, hv.deriv]
  have ea : (fun s => (m1.w.sig s).ty.isArray && (c1.deriv s).isSome) = (fun s => (m2.w.sig s).ty.isArray && (c2.deriv s).isSome) := by
    funext s; rw [ht s, hv.deriv]
  have ps : (scalarStatesOf c1 m1.w).Perm (scalarStatesOf c2 m2.w) := by
    unfold scalarStatesOf; rw [es]; exact hp.filter _
  have pa : (arrayStatesOf c1 m1.w).Perm (arrayStatesOf c2 m2.w) := by
    unfold arrayStatesOf; rw [ea]; exact hp.filter _
  refine ⟨?_, ?_, fun s => ?_, ?_⟩
  · rw [l1.scalarStates, l2.scalarStates]
    exact (h1 _).trans (ps.trans (h2 _).symm)
  · rw [l1.arrayStates, l2.arrayStates]
    exact (h1 _).trans (pa.trans (h2 _).symm)
  · rw [l1.valueSigs, l2.valueSigs, (h1 _).mem_iff, (h2 _).mem_iff, hp.mem_iff]
  · rw [l1.nState, l2.nState]
    unfold stateSize
    have e : (fun s => (m1.w.sig s).ty.size) = (fun s => (m2.w.sig s).ty.size) := by funext s; rw [ht s]
    rw [ps.length_eq, e, (pa.map _).sum_eq]

/-! ### Reading vectors -/

theorem getScalar_asg {s : SigId} {x : K} {w w' : World K} (h : getScalar true s w = .ok x w') : (w.sig s).assigned = true := by
  unfold getScalar at h
  obtain ⟨v, w1, h1, _⟩ := ok_bind h
  unfold getv at h1
  cases ha : (w.sig s).assigned with
  | true => rfl
  | false => rw [ha] at h1; cases h1

theorem readScalars_asg {ss : List SigId} {a : List K} {w w' : World K} (h : readScalars true ss w = .ok a w') : ∀ s ∈ ss, (w.sig s).assigned = true := by
  induction ss generalizing a w' with
  | nil => simp
  | cons s ss ih =>
    unfold readScalars at h
    obtain ⟨x, w1, h1, h2⟩ := ok_bind h
    obtain ⟨xs, w2, h3, _⟩ := ok_bind h2
    have hw : w1 = w := (readScalars_ok (ss := [s]) (a := [x]) (dbg := true) (w := w) (w' := w1) (by
      unfold readScalars; rw [bind_of_ok h1]; rfl)).1
    subst hw
    intro s' hs'
    rcases List.mem_cons.1 hs' with rfl | hs'
    · exact getScalar_asg h1
    · exact ih h3 s' hs'

theorem readArrays_asg {sa : List SigId} {a : List K} {w w' : World K} (h : readArrays true sa w = .ok a w') : ∀ s ∈ sa, (w.sig s).assigned = true := by
  induction sa generalizing a w' with
  | nil => simp
  | cons s ss ih =>
    unfold readArrays at h
    obtain ⟨w0, w1, h1, h2⟩ := ok_bind h
    cases h1
    obtain ⟨v, w2, h3, h4⟩ := ok_bind h2
    unfold getv at h3
    cases ha : (w.sig s).assigned with
    | false => rw [ha] at h3; cases h3
    | true =>
      rw [if_neg (by rw [ha]; simp)] at h3
      cases hv : (w.sig s).value with
      | none => rw [hv] at h3; cases h3
      | some v' =>
        rw [hv] at h3; cases h3
        cases v with
        | array b =>
          dsimp only at h4
          by_cases hl : b.length = (w.sig s).ty.size
          · rw [if_pos hl] at h4
            obtain ⟨xs, w3, h5, _⟩ := ok_bind h4
            intro s' hs'
            rcases List.mem_cons.1 hs' with rfl | hs'
            · exact ha
            · exact ih h5 s' hs'
          · rw [if_neg hl] at h4; cases h4
        | _ => cases h4

theorem getStates_asg (hd : cfg.dbg = true) {m m' : Machine K} {x : List K} (h : getStates cfg m = .ok x m') :
    ∀ s ∈ m.s.scalarStates ++ m.s.arrayStates, (m.w.sig s).assigned = true := by
  unfold getStates at h
  rw [hd, bind_apply] at h
  simp only [getSim] at h
  obtain ⟨a, m1, h1, h2⟩ := ok_bind h
  obtain ⟨w1, g1, e1⟩ := inW_ok h1
  subst e1
  obtain ⟨b, m2, h3, h4⟩ := ok_bind h2
  obtain ⟨w2, g2, e2⟩ := inW_ok h3
  have hw := (readScalars_ok g1).1
  subst hw
  intro s hs
  rcases List.mem_append.1 hs with hs | hs
  · exact readScalars_asg g1 s hs
  · exact readArrays_asg g2 s hs

theorem sameView_size {w1 w2 : World K} (h : SameView w1 w2) : w1.size = w2.size := by
  funext s
  show (w1.sig s).ty.size = (w2.sig s).ty.size
  rw [h.ty s]

/-- Reading the states of two simulators. -/
theorem getStates_tied (hd1 : c1.dbg = true) (hd2 : c2.dbg = true) {m1 m2 : Machine K} (hw : SameView m1.w m2.w) (hl : SameLayout m1.s m2.s)
    (hsz : m1.s.svSize = m2.s.svSize) :
    EqvOut (fun x1 x2 m1' m2' => m1' = m1 ∧ m2' = m2 ∧
      Corr m1.w.size m1.s.scalarStates m1.s.arrayStates m2.s.scalarStates m2.s.arrayStates x1 x2) (getStates c1 m1) (getStates c2 m2) := by
  have key : ∀ {ca cb : Config K} {ma mb : Machine K}, ca.dbg = true → SameView ma.w mb.w → SameLayout ma.s mb.s → ma.s.svSize = mb.s.svSize →
      ∀ x ma', getStates ca ma = .ok x ma' → ma' = ma ∧ ∃ x2, getStates cb mb = .ok x2 mb ∧
        Corr ma.w.size ma.s.scalarStates ma.s.arrayStates mb.s.scalarStates mb.s.arrayStates x x2 := by
    intro ca cb ma mb hd hw hl hsz x ma' h
    obtain ⟨e, h1, h2⟩ := getStates_ok h
    have ha := getStates_asg hd h
    refine ⟨e, ?_⟩
    have h1' : Packed ma.w.val ma.w.size ma.s.scalarStates ma.s.arrayStates x := h1
    obtain ⟨x2, p2, pp⟩ := h1'.perm hl.scalar hl.array
    have hmem : ∀ s ∈ mb.s.scalarStates ++ mb.s.arrayStates, (ma.w.sig s).assigned = true := fun s hs => ha s (by
      rcases List.mem_append.1 hs with h | h
      · exact List.mem_append_left _ (hl.scalar.mem_iff.2 h)
      · exact List.mem_append_right _ (hl.array.mem_iff.2 h))
    refine ⟨x2, getStates_of ?_ (by rw [pp.length_eq, h2, hsz]) (fun s hs => by rw [← hw.assigned]; exact hmem s hs), ⟨ma.w.val, h1, p2⟩⟩
    exact p2.congr (fun s hs => (hw.value s (hmem s hs)).symm) (fun s _ => by rw [sameView_size hw])
  have hl' : SameLayout m2.s m1.s := ⟨hl.scalar.symm, hl.array.symm, fun s => (hl.value s).symm, hl.nState.symm⟩
  refine eqvOut_of (fun x1 m1' h => ?_) (fun x2 m2' h => ?_)
  · obtain ⟨e, x2, h2, hc⟩ := key (cb := c2) hd1 hw hl hsz x1 m1' h
    exact ⟨x2, m2, h2, e, rfl, hc⟩
  · obtain ⟨_, x1, h2, _⟩ := key (cb := c1) hd2 hw.symm hl' hsz.symm x2 m2' h
    exact ⟨x1, m1, h2⟩

/-! ### Reading derivatives -/

/-- The derivative signal, for signals that have one. -/
def Config.drv (cfg : Config K) (s : SigId) : SigId := (cfg.deriv s).getD 0

theorem derivsOf_eq {ss ds : List SigId} (h : derivsOf cfg ss = some ds) : ds = ss.map cfg.drv := by
  induction ss generalizing ds with
  | nil => cases h; rfl
  | cons s ss ih =>
    unfold derivsOf at h
    cases h1 : cfg.deriv s with
    | none => rw [h1] at h; cases h
    | some d =>
      cases h2 : derivsOf cfg ss with
      | none => rw [h1, h2] at h; cases h
      | some ds' =>
        rw [h1, h2] at h; cases h
        rw [ih h2, List.map_cons]
        congr 1
        unfold Config.drv; rw [h1]; rfl

theorem derivsOf_some {ss : List SigId} (h : ∀ s ∈ ss, (cfg.deriv s).isSome) : derivsOf cfg ss = some (ss.map cfg.drv) := by
  induction ss with
  | nil => rfl
  | cons s ss ih =>
    unfold derivsOf
    obtain ⟨d, hd⟩ := Option.isSome_iff_exists.1 (h s (by simp))
    rw [hd, ih (fun s hs => h s (by simp [hs]))]
    simp [Config.drv, hd]

theorem getDerivs_ok (hd : cfg.dbg = true) {m m' : Machine K} {x : List K} (h : getDerivs cfg m = .ok x m') : m' = m ∧ x.length = m.s.nState ∧
    Packed (fun s => m.w.val (cfg.drv s)) (fun s => m.w.size (cfg.drv s)) m.s.scalarStates m.s.arrayStates x ∧
    ∀ s ∈ m.s.scalarStates ++ m.s.arrayStates, (m.w.sig (cfg.drv s)).assigned = true := by
  unfold getDerivs at h
  rw [bind_apply] at h
  simp only [getSim] at h
  cases h1 : derivsOf cfg m.s.scalarStates with
  | none => rw [h1] at h; cases h
  | some ds =>
    cases h2 : derivsOf cfg m.s.arrayStates with
    | none => rw [h1, h2] at h; cases h
    | some da =>
      rw [h1, h2] at h
      obtain ⟨a, m1, h3, h4⟩ := ok_bind h
      obtain ⟨w1, g1, e1⟩ := inW_ok h3
      subst e1
      obtain ⟨b, m2, h5, h6⟩ := ok_bind h4
      obtain ⟨w2, g2, e2⟩ := inW_ok h5
      subst e2
      rw [hd] at g1 g2
      obtain ⟨i1, i2⟩ := readScalars_ok g1
      obtain ⟨j1, b', j2, j3⟩ := readArrays_ok g2
      have k1 := readScalars_asg g1
      have k2 := readArrays_asg g2
      have j1 : w2 = w1 := j1
      subst j1 i1
      rw [derivsOf_eq h1] at i2 k1
      rw [derivsOf_eq h2] at j2 k2
      by_cases hl : (a ++ b).length = m.s.nState
      · rw [if_pos hl] at h6; cases h6
        refine ⟨rfl, hl, ⟨a, b', ?_, ?_, by rw [j3]⟩, fun s hs => ?_⟩
        · rw [List.forall₂_map_left_iff] at i2; exact i2
        · rw [List.forall₂_map_left_iff] at j2; exact j2
        · rcases List.mem_append.1 hs with hs | hs
          · exact k1 _ (List.mem_map_of_mem hs)
          · exact k2 _ (List.mem_map_of_mem hs)
      · rw [if_neg hl] at h6; cases h6

theorem getDerivs_of {m : Machine K} {x : List K} (hs : ∀ s ∈ m.s.scalarStates ++ m.s.arrayStates, (cfg.deriv s).isSome)
    (hx : x.length = m.s.nState)
    (h : Packed (fun s => m.w.val (cfg.drv s)) (fun s => m.w.size (cfg.drv s)) m.s.scalarStates m.s.arrayStates x)
    (ha : ∀ s ∈ m.s.scalarStates ++ m.s.arrayStates, (m.w.sig (cfg.drv s)).assigned = true) : getDerivs cfg m = .ok x m := by
  obtain ⟨a, b, h1, h2, rfl⟩ := h
  have e1 : inW (readScalars cfg.dbg (m.s.scalarStates.map cfg.drv)) m = .ok a m := by
    unfold inW
    rw [readScalars_of (List.forall₂_map_left_iff.2 h1) (fun s hs => by
      obtain ⟨s', hs', rfl⟩ := List.mem_map.1 hs
      exact ha s' (by simp [hs']))]
  have e2 : inW (readArrays cfg.dbg (m.s.arrayStates.map cfg.drv)) m = .ok b.flatten m := by
    unfold inW
    rw [readArrays_of (List.forall₂_map_left_iff.2 h2) (fun s hs => by
      obtain ⟨s', hs', rfl⟩ := List.mem_map.1 hs
      exact ha s' (by simp [hs']))]
  unfold getDerivs
  rw [bind_apply]
  simp only [getSim]
  rw [derivsOf_some (fun s h => hs s (by simp [h])), derivsOf_some (fun s h => hs s (by simp [h]))]
  dsimp only
  rw [bind_of_ok e1, bind_of_ok e2, if_pos hx]
  rfl

/-- Reading the derivatives of two simulators. -/
theorem getDerivs_tied (hd1 : c1.dbg = true) (hd2 : c2.dbg = true) (hv : c1.deriv = c2.deriv) {m1 m2 : Machine K} (hw : SameView m1.w m2.w)
    (hl : SameLayout m1.s m2.s) (hs : ∀ s ∈ m1.s.scalarStates ++ m1.s.arrayStates, (c1.deriv s).isSome)
    (hty : ∀ s d, c1.deriv s = some d → (m1.w.sig d).ty = (m1.w.sig s).ty) :
    EqvOut (fun x1 x2 m1' m2' => m1' = m1 ∧ m2' = m2 ∧
      Corr m1.w.size m1.s.scalarStates m1.s.arrayStates m2.s.scalarStates m2.s.arrayStates x1 x2) (getDerivs c1 m1) (getDerivs c2 m2) := by
  have key : ∀ {ca cb : Config K} {ma mb : Machine K}, ca.dbg = true → ca.deriv = cb.deriv → SameView ma.w mb.w → SameLayout ma.s mb.s →
      (∀ s ∈ ma.s.scalarStates ++ ma.s.arrayStates, (ca.deriv s).isSome) →
      (∀ s d, ca.deriv s = some d → (ma.w.sig d).ty = (ma.w.sig s).ty) →
      ∀ x ma', getDerivs ca ma = .ok x ma' → ma' = ma ∧ ∃ x2, getDerivs cb mb = .ok x2 mb ∧
        Corr ma.w.size ma.s.scalarStates ma.s.arrayStates mb.s.scalarStates mb.s.arrayStates x x2 := by
    intro ca cb ma mb hd hv hw hl hs hty x ma' h
    obtain ⟨e, h1, h2, h3⟩ := getDerivs_ok hd h
    refine ⟨e, ?_⟩
    have hdrv : cb.drv = ca.drv := by funext s; unfold Config.drv; rw [hv]
    have hsub : ∀ s, s ∈ mb.s.scalarStates ++ mb.s.arrayStates → s ∈ ma.s.scalarStates ++ ma.s.arrayStates := fun s hs => by
      rcases List.mem_append.1 hs with h | h
      · exact List.mem_append_left _ (hl.scalar.mem_iff.2 h)
      · exact List.mem_append_right _ (hl.array.mem_iff.2 h)
    have hsize : ∀ s ∈ ma.s.scalarStates ++ ma.s.arrayStates, ma.w.size (ca.drv s) = ma.w.size s := fun s hs' => by
      obtain ⟨d, hd'⟩ := Option.isSome_iff_exists.1 (hs s hs')
      have : ca.drv s = d := by unfold Config.drv; rw [hd']; rfl
      rw [this]
      show (ma.w.sig d).ty.size = (ma.w.sig s).ty.size
      rw [hty s d hd']
    have h2' : Packed (fun s => ma.w.val (ca.drv s)) ma.w.size ma.s.scalarStates ma.s.arrayStates x :=
      h2.congr (fun _ _ => rfl) (fun s hs => (hsize s (by simp [hs])).symm)
    obtain ⟨x2, p2, pp⟩ := h2'.perm hl.scalar hl.array
    refine ⟨x2, getDerivs_of (fun s h => by rw [← hv]; exact hs s (hsub s h)) (by rw [pp.length_eq, h1, hl.nState]) ?_ ?_, ⟨_, h2', p2⟩⟩
    · rw [hdrv]
      refine p2.congr (fun s hs' => (hw.value _ (h3 s (hsub s hs'))).symm) (fun s hs' => ?_)
      rw [← sameView_size hw]
      exact hsize s (hsub s (by simp [hs']))
    · intro s hs'
      rw [hdrv, ← hw.assigned]
      exact h3 s (hsub s hs')
  have hl' : SameLayout m2.s m1.s := ⟨hl.scalar.symm, hl.array.symm, fun s => (hl.value s).symm, hl.nState.symm⟩
  refine eqvOut_of (fun x1 m1' h => ?_) (fun x2 m2' h => ?_)
  · obtain ⟨e, x2, h2, hc⟩ := key (cb := c2) hd1 hv hw hl hs hty x1 m1' h
    exact ⟨x2, m2, h2, e, rfl, hc⟩
  · obtain ⟨_, x1, h2, _⟩ := key (cb := c1) hd2 hv.symm hw.symm hl' (fun s h => by
      rw [← hv]
      refine hs s ?_
      rcases List.mem_append.1 h with h | h
      · exact List.mem_append_left _ (hl.scalar.mem_iff.2 h)
      · exact List.mem_append_right _ (hl.array.mem_iff.2 h)) (fun s d h => by rw [← hw.ty, ← hw.ty]; exact hty s d (hv ▸ h)) x2 m2' h
    exact ⟨x1, m1, h2⟩

end Pooya
