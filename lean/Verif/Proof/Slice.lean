import Verif.Spec.Slice
import Verif.Props.C74

/-! A diagram found in another one: solutions of the other one are solutions of it. -/

namespace Pooya.Slice

open Pooya C69 Within

set_option linter.unusedSectionVars false

variable {K : Type} [A : Arith K] {η : Lens} {β : BlkId → BlkId}

/-! ### Coefficients -/

theorem coef_array {i : Nat} {v' v : Val K} (h : v'.coef (some i) = some v) : ∃ xs x, v' = .array xs ∧ xs[i]? = some x ∧ v = .scalar x := by
  cases v' <;> simp only [Val.coef, Option.map_eq_some_iff, reduceCtorEq] at h
  obtain ⟨x, h1, h2⟩ := h
  exact ⟨_, x, rfl, h1, h2.symm⟩

theorem coef_both {f : K → K → K} {a b c : Val K} (h : Both f a b c) {i : Option Nat} {a1 b1 : Val K} (ha : a.coef i = some a1) (hb : b.coef i = some b1) :
    ∃ c1, c.coef i = some c1 ∧ Both f a1 b1 c1 := by
  cases i with
  | none => cases ha; cases hb; exact ⟨c, rfl, h⟩
  | some i =>
    obtain ⟨xs, x, rfl, e1, rfl⟩ := coef_array ha
    obtain ⟨ys, y, rfl, e2, rfl⟩ := coef_array hb
    generalize hA : Val.array xs = va at h
    generalize hB : Val.array ys = vb at h
    cases h with
    | scalar => cases hA
    | @array n a b =>
      cases hA; cases hB
      have hi : i < n := by
        have := (List.getElem?_eq_some_iff.1 e1).1
        simpa using this
      refine ⟨.scalar (f x y), ?_, .scalar x y⟩
      rw [List.getElem?_eq_getElem (by simpa using hi), List.getElem_ofFn] at e1 e2
      cases e1; cases e2
      simp only [Val.coef]
      rw [List.getElem?_eq_getElem (by simpa using hi), List.getElem_ofFn]
      rfl

theorem coef_scaled {k a c : Val K} (h : Scaled k a c) {i : Option Nat} {a1 : Val K} (ha : a.coef i = some a1) : ∃ c1, c.coef i = some c1 ∧ Scaled k a1 c1 := by
  cases i with
  | none => cases ha; exact ⟨c, rfl, h⟩
  | some i =>
    obtain ⟨xs, x, rfl, e1, rfl⟩ := coef_array ha
    generalize hA : Val.array xs = va at h
    cases h with
    | scalar => cases hA
    | int => cases hA
    | @array n k a =>
      cases hA
      have hi : i < n := by
        have := (List.getElem?_eq_some_iff.1 e1).1
        simpa using this
      refine ⟨.scalar (k *. x), ?_, .scalar k x⟩
      rw [List.getElem?_eq_getElem (by simpa using hi), List.getElem_ofFn] at e1
      cases e1
      simp only [Val.coef]
      rw [List.getElem?_eq_getElem (by simpa using hi), List.getElem_ofFn]
      rfl

variable {val : SigId → Option (Val K)}

theorem see_of {s s' : SigId} {i : Option Nat} (e : η s = (s', i)) {v' : Val K} (h : val s' = some v') : η.see val s = v'.coef i := by
  unfold Lens.see
  rw [e, h]
  rfl

theorem see_inv {s s' : SigId} {i : Option Nat} (e : η s = (s', i)) {v : Val K} (h : η.see val s = some v) : ∃ v', val s' = some v' ∧ v'.coef i = some v := by
  unfold Lens.see at h
  rw [e] at h
  exact Option.bind_eq_some_iff.1 h

theorem see_folded {f : K → K → K} {i : Option Nat} {xs' : List SigId} {a' r' : Val K} (h : Folded val f a' xs' r') :
    ∀ {xs : List SigId} {a : Val K}, xs.map η = xs'.map (·, i) → a'.coef i = some a → (∀ s ∈ xs, ∃ v, η.see val s = some v) → ∃ r, Folded (η.see val) f a xs r ∧ r'.coef i = some r := by
  induction h with
  | nil acc =>
    intro xs a e ha _
    cases xs with
    | nil => exact ⟨a, .nil a, ha⟩
    | cons _ _ => cases e
  | @cons acc v acc' r s' ss' h1 h2 _ ih =>
    intro xs a e ha hr
    cases xs with
    | nil => cases e
    | cons s ss =>
      rw [List.map_cons, List.map_cons] at e
      obtain ⟨e1, e2⟩ := List.cons.inj e
      obtain ⟨w, hw⟩ := hr s (.head _)
      obtain ⟨w', k1, k2⟩ := see_inv e1 hw
      rw [h1] at k1
      cases k1
      obtain ⟨c, k3, k4⟩ := coef_both h2 ha k2
      obtain ⟨r, k5, k6⟩ := ih e2 k3 fun q hq => hr q (.tail _ hq)
      exact ⟨r, .cons hw k4 k5, k6⟩

/-! ### The equations of the blocks -/

theorem forall2_last {α β : Type} {R : α → β → Prop} {l1 : List α} {l2 : List β} (h : List.Forall₂ R l1 l2) {b : β} (hb : l2.getLast? = some b) : ∃ a, l1.getLast? = some a ∧ R a b := by
  rw [List.getLast?_eq_getElem?] at hb ⊢
  rw [h.length_eq]
  obtain ⟨hi, e⟩ := List.getElem?_eq_some_iff.1 hb
  have hi1 : l2.length - 1 < l1.length := h.length_eq ▸ hi
  exact ⟨_, List.getElem?_eq_getElem hi1, e ▸ h.get hi1 hi⟩

theorem forall2_at {α β : Type} {R : α → β → Prop} {l1 : List α} {l2 : List β} (h : List.Forall₂ R l1 l2) {b : β} {i : Nat} (hb : l2[i]? = some b) : ∃ a, l1[i]? = some a ∧ R a b := by
  obtain ⟨hi, e⟩ := List.getElem?_eq_some_iff.1 hb
  have hi1 : i < l1.length := h.length_eq ▸ hi
  exact ⟨_, List.getElem?_eq_getElem hi1, e ▸ h.get hi1 hi⟩

theorem see_recalled {ts : List K} {xs xs' : List (Val K)} {q : K} {i : Option Nat} (hx : List.Forall₂ (fun v v' => v'.coef i = some v) xs xs') {a' r' : Val K}
    (h : Recalled ts xs' q a' r') : (∀ {a}, (∃ t0 rest, ts = t0 :: rest ∧ (q <=. t0) = true) → a'.coef i = some a → ∃ r, r'.coef i = some r ∧ Recalled ts xs q a r) ∧
      (¬ (∃ t0 rest, ts = t0 :: rest ∧ (q <=. t0) = true) → ∃ r, r'.coef i = some r ∧ ∀ a, Recalled ts xs q a r) := by
  cases h with
  | before h1 h2 => exact ⟨fun _ ha => ⟨_, ha, .before h1 h2⟩, fun hn => (hn ⟨_, _, h1, h2⟩).elim⟩
  | after h1 h2 h3 h4 h5 =>
    obtain ⟨v, k1, k2⟩ := forall2_last hx h5
    exact ⟨fun _ _ => ⟨v, k2, .after h1 h2 h3 h4 k1⟩, fun _ => ⟨v, k2, fun a => .after h1 h2 h3 h4 k1⟩⟩
  | between h1 h2 h3 h4 h5 h6 h7 h8 h9 h10 h11 =>
    obtain ⟨va, k1, k2⟩ := forall2_at hx h9
    obtain ⟨vb, k3, k4⟩ := forall2_at hx h10
    obtain ⟨v, k5, k6⟩ := coef_both h11 k4 k2
    exact ⟨fun _ _ => ⟨v, k5, .between h1 h2 h3 h4 h5 h6 h7 h8 k1 k3 k6⟩, fun _ => ⟨v, k5, fun a => .between h1 h2 h3 h4 h5 h6 h7 h8 k1 k3 k6⟩⟩

theorem views_solved {l l' : Leaf K} {t : K} {μ μ' : Mem K} (hv : l.Views η l') (hm : l.Holds η μ μ') (hr : ∀ s ∈ l.reads, ∃ v, η.see val s = some v) (h : l'.Solved t μ' val) :
    l.Solved t μ (η.see val) := by
  unfold Leaf.Views at hv
  unfold Leaf.Holds at hm
  unfold Leaf.Solved at h ⊢
  unfold Leaf.reads at hr
  split at hv
  · rename_i v o v' o' e e'
    rw [e'] at h; rw [e]
    obtain ⟨i, h1, h2⟩ := hv
    exact (see_of h1 h).trans h2
  · rename_i k x o k' x' o' e e'
    rw [e'] at h; rw [e] at hr ⊢
    obtain ⟨rfl, i, h1, h2⟩ := hv
    obtain ⟨a, r, k1, k2, k3⟩ := h
    obtain ⟨a1, ha⟩ := hr x (.head _)
    obtain ⟨_, k4, k5⟩ := see_inv h1 ha
    rw [k1] at k4; cases k4
    obtain ⟨r1, k6, k7⟩ := coef_scaled k2 k5
    exact ⟨a1, r1, ha, k7, (see_of h2 k3).trans k6⟩
  · rename_i v xs o v' xs' o' e e'
    rw [e'] at h; rw [e] at hr ⊢
    obtain ⟨i, h1, h2, h3⟩ := hv
    obtain ⟨r, k1, k2⟩ := h
    obtain ⟨r1, k3, k4⟩ := see_folded k1 h1 h3 hr
    exact ⟨r1, k3, (see_of h2 k2).trans k4⟩
  · rename_i v xs o v' xs' o' e e'
    rw [e'] at h; rw [e] at hr ⊢
    obtain ⟨i, h1, h2, h3⟩ := hv
    obtain ⟨r, k1, k2⟩ := h
    obtain ⟨r1, k3, k4⟩ := see_folded k1 h1 h3 hr
    exact ⟨r1, k3, (see_of h2 k2).trans k4⟩
  · rename_i x y o x' y' o' e e'
    rw [e'] at h; rw [e] at hr ⊢
    obtain ⟨i, h1, h2, h3⟩ := hv
    obtain ⟨a, b, r, k1, k2, k3, k4⟩ := h
    obtain ⟨a1, ha⟩ := hr x (.head _)
    obtain ⟨b1, hb⟩ := hr y (.tail _ (.head _))
    obtain ⟨_, k5, k6⟩ := see_inv h1 ha
    rw [k1] at k5; cases k5
    obtain ⟨_, k7, k8⟩ := see_inv h2 hb
    rw [k2] at k7; cases k7
    obtain ⟨r1, k9, k10⟩ := coef_both k3 k6 k8
    exact ⟨a1, b1, r1, ha, hb, k10, (see_of h3 k4).trans k9⟩
  · rename_i x y o x' y' o' e e'
    rw [e'] at h; rw [e] at hr ⊢
    obtain ⟨i, h1, h2, h3⟩ := hv
    obtain ⟨a, b, r, k1, k2, k3, k4⟩ := h
    obtain ⟨a1, ha⟩ := hr x (.head _)
    obtain ⟨b1, hb⟩ := hr y (.tail _ (.head _))
    obtain ⟨_, k5, k6⟩ := see_inv h1 ha
    rw [k1] at k5; cases k5
    obtain ⟨_, k7, k8⟩ := see_inv h2 hb
    rw [k2] at k7; cases k7
    obtain ⟨r1, k9, k10⟩ := coef_both k3 k6 k8
    exact ⟨a1, b1, r1, ha, hb, k10, (see_of h3 k4).trans k9⟩
  · rename_i x o x' o' e e'
    rw [e'] at h; rw [e] at hr ⊢
    obtain ⟨i, h1, h2⟩ := hv
    obtain ⟨v, k1, k2⟩ := h
    obtain ⟨a, ha⟩ := hr x (.head _)
    obtain ⟨_, k3, k4⟩ := see_inv h1 ha
    rw [k1] at k3; cases k3
    exact ⟨a, ha, (see_of h2 k2).trans k4⟩
  · rename_i x o x' o' e e'
    rw [e'] at h; rw [e] at hm ⊢
    obtain ⟨i, h1, h2⟩ := hv
    simp only [h2] at hm
    exact (see_of h2 h).trans hm
  · rename_i life x d y o life' x' d' y' o' e e'
    rw [e'] at h; rw [e] at hm hr ⊢
    obtain ⟨_, i, h1, h2, h3, h4⟩ := hv
    simp only [h4] at hm
    obtain ⟨m1, m2⟩ := hm
    simp only at h ⊢
    rw [m1]
    split at h
    · rename_i hn
      rw [if_pos hn]
      obtain ⟨v, k1, k2⟩ := h
      obtain ⟨a, ha⟩ := hr y (.tail _ (.head _))
      obtain ⟨_, k3, k4⟩ := see_inv h3 ha
      rw [k1] at k3; cases k3
      exact ⟨a, ha, (see_of h4 k2).trans k4⟩
    · rename_i hn
      rw [if_neg hn]
      obtain ⟨dv, r, k1, k2, init, k3, k4⟩ := h
      obtain ⟨r1, r2⟩ := see_recalled m2 k3
      by_cases hb : ∃ t0 rest, μ'.ts = t0 :: rest ∧ ((t -. dv) <=. t0) = true
      · obtain ⟨a, ha⟩ := hr y (.tail _ (.head _))
        obtain ⟨_, k5, k6⟩ := see_inv h3 ha
        rw [k4 hb] at k5; cases k5
        obtain ⟨r3, k7, k8⟩ := r1 hb k6
        exact ⟨dv, r3, see_of h2 k1, (see_of h4 k2).trans k7, a, k8, fun _ => ha⟩
      · obtain ⟨r3, k7, k8⟩ := r2 hb
        exact ⟨dv, r3, see_of h2 k1, (see_of h4 k2).trans k7, r3, k8 _, fun h => (hb h).elim⟩
  · rename_i x o x' o' e e'
    rw [e'] at h; rw [e] at hm hr ⊢
    obtain ⟨i, h1, h2⟩ := hv
    simp only [h2] at hm
    obtain ⟨m1, m2, m3⟩ := hm
    simp only at h ⊢
    rw [m2]
    split at h
    · rename_i hn
      rw [if_pos hn]
      exact (see_of h2 h).trans m1
    · rename_i hn
      rw [if_neg hn]
      obtain ⟨k1, v, v', k2, k3, k4⟩ := m3 (by rw [m2]; exact Bool.eq_false_of_not_eq_true hn)
      obtain ⟨t0, k5, h⟩ := h
      refine ⟨t0, k1.trans k5, ?_⟩
      split at h
      · rename_i hn
        rw [if_pos hn]
        exact (see_of h2 h).trans m1
      · rename_i hn
        rw [if_neg hn]
        obtain ⟨u, u0, r, q1, q2, q3, q4⟩ := h
        obtain ⟨a, ha⟩ := hr x (.head _)
        obtain ⟨_, k6, k7⟩ := see_inv h1 ha
        rw [q1] at k6; cases k6
        rw [k3] at q2; cases q2
        obtain ⟨r1, k8, k9⟩ := coef_both q3 k7 k4
        exact ⟨a, v, r1, ha, k2, k9, (see_of h2 q4).trans k8⟩
  · rename_i x o x' o' e e'
    rw [e]
    trivial
  · exact hv.elim

/-- What the blocks store. -/
theorem views_stored {l l' : Leaf K} {t : K} {μ μ' ν' : Mem K} (hv : l.Views η l') (hm : l.Holds η μ μ') (hr : ∀ s ∈ l.postReads, ∃ v, η.see val s = some v) (h : l'.Stored t val μ' ν') :
    ∃ ν, l.Stored t (η.see val) μ ν ∧ l.Holds η ν ν' := by
  unfold Leaf.Views at hv
  unfold Leaf.Holds at hm ⊢
  unfold Leaf.Stored at h ⊢
  unfold Leaf.postReads at hr
  split at hv
  case h_8 =>
    rename_i x o x' o' e e'
    rw [e'] at h; rw [e] at hr hm ⊢
    obtain ⟨i, h1, h2⟩ := hv
    obtain ⟨v, k1, rfl⟩ := h
    obtain ⟨a, ha⟩ := hr x (.head _)
    obtain ⟨_, k3, k4⟩ := see_inv h1 ha
    rw [k1] at k3; cases k3
    exact ⟨_, ⟨a, ha, rfl⟩, by simp only [h2]; exact k4⟩
  case h_9 =>
    rename_i life x d y o life' x' d' y' o' e e'
    rw [e'] at h; rw [e] at hr hm ⊢
    obtain ⟨rfl, i, h1, h2, h3, h4⟩ := hv
    simp only [h4] at hm
    obtain ⟨m1, m2⟩ := hm
    obtain ⟨k, v, k1, k2, k3, k4, rfl⟩ := h
    obtain ⟨a, ha⟩ := hr x (.head _)
    obtain ⟨_, k5, k6⟩ := see_inv h1 ha
    rw [k1] at k5; cases k5
    refine ⟨_, ⟨k, a, ha, by rw [m1]; exact k2, by rw [m1]; exact k3, by rw [m1]; exact k4, rfl⟩, ?_⟩
    simp only [h4, m1]
    exact ⟨trivial, List.rel_append (List.forall₂_drop k m2) (.cons k6 .nil)⟩
  case h_10 =>
    rename_i x o x' o' e e'
    rw [e'] at h; rw [e] at hr hm ⊢
    obtain ⟨i, h1, h2⟩ := hv
    obtain ⟨v, k1, rfl⟩ := h
    obtain ⟨a, ha⟩ := hr x (.head _)
    obtain ⟨_, k3, k4⟩ := see_inv h1 ha
    rw [k1] at k3; cases k3
    exact ⟨_, ⟨a, ha, rfl⟩, by simp only [h2]; exact ⟨k4, trivial, fun _ => ⟨trivial, a, v, rfl, rfl, k4⟩⟩⟩
  case h_11 =>
    rename_i x o x' o' e e'
    rw [e'] at h; rw [e] at hr hm ⊢
    obtain ⟨i, h1, h2⟩ := hv
    obtain ⟨v, k1, rfl⟩ := h
    obtain ⟨a, ha⟩ := hr o (.head _)
    obtain ⟨_, k3, k4⟩ := see_inv h2 ha
    rw [k1] at k3; cases k3
    exact ⟨_, ⟨a, ha, rfl⟩, by simp only [h2]; exact k4⟩
  case h_12 => exact hv.elim
  all_goals (rename_i e e'; rw [e]; exact ⟨μ, rfl, trivial⟩)

theorem holds_algebraic {l : Leaf K} (ha : l.Algebraic) (hs : l.state = none) (μ μ' : Mem K) : l.Holds η μ μ' := by
  unfold Leaf.Algebraic at ha
  unfold Leaf.state at hs
  unfold Leaf.Holds
  cases hk : l.kind <;> rw [hk] at ha hs <;> trivial

/-! ### State vectors -/

variable {V V' : Vars}

/-- The component of the state vector of the other diagram. -/
def slot (η : Lens) (q : SigId × Nat) : SigId × Nat := ((η q.1).1, (η q.1).2.getD q.2)

/-- The state variables of the one diagram are found among those of the other. -/
structure Spread (η : Lens) (V V' : Vars) : Prop where
  scalars : ∀ s ∈ V.scalars, (∃ s', η s = (s', none) ∧ s' ∈ V'.scalars) ∨ ∃ s' i, η s = (s', some i) ∧ s' ∈ V'.arrays ∧ i < V'.size s'
  arrays : ∀ s ∈ V.arrays, ∃ s', η s = (s', none) ∧ s' ∈ V'.arrays ∧ V.size s = V'.size s'

theorem mem_slots {q : SigId × Nat} : q ∈ Within.slots V ↔ (q.1 ∈ V.scalars ∧ q.2 = 0) ∨ (q.1 ∈ V.arrays ∧ q.2 < V.size q.1) := by
  obtain ⟨s, k⟩ := q
  unfold Within.slots
  rw [List.mem_append, List.mem_map, List.mem_flatMap]
  refine or_congr ⟨?_, ?_⟩ ⟨?_, ?_⟩
  · rintro ⟨a, ha, e⟩
    cases e
    exact ⟨ha, rfl⟩
  · rintro ⟨ha, e⟩
    simp only at e ha
    exact ⟨s, ha, by rw [e]⟩
  · rintro ⟨a, ha, e⟩
    obtain ⟨i, hi, e⟩ := List.mem_map.1 e
    cases e
    exact ⟨ha, List.mem_range.1 hi⟩
  · rintro ⟨ha, e⟩
    exact ⟨s, ha, List.mem_map.2 ⟨k, List.mem_range.2 e, rfl⟩⟩

theorem Spread.slots (h : Spread η V V') {q : SigId × Nat} (hq : q ∈ Within.slots V) : slot η q ∈ Within.slots V' := by
  rw [mem_slots] at hq ⊢
  unfold slot
  rcases hq with ⟨h1, h2⟩ | ⟨h1, h2⟩
  · rcases h.scalars _ h1 with ⟨s', e, k⟩ | ⟨s', i, e, k1, k2⟩
    · rw [e]; exact .inl ⟨k, h2⟩
    · rw [e]; exact .inr ⟨k1, k2⟩
  · obtain ⟨s', e, k1, k2⟩ := h.arrays _ h1
    rw [e]; exact .inr ⟨k1, k2 ▸ h2⟩

theorem Spread.packed (h : Spread η V V') {val val' : SigId → Option (Val K)} {size size' : SigId → Nat} (hsz : ∀ s ∈ V.arrays, size s = V.size s) (hsz' : ∀ s ∈ V'.arrays, size' s = V'.size s)
    (hv : ∀ s ∈ V.scalars ++ V.arrays, val s = η.see val' s) {g : SigId × Nat → K} (hp : Packed val' size' V'.scalars V'.arrays ((Within.slots V').map g)) :
    Packed val size V.scalars V.arrays ((Within.slots V).map fun q => g (slot η q)) := by
  obtain ⟨h1, h2, h3⟩ := (packed_iff hsz').1 hp
  rw [List.map_inj_left] at h3
  have sc : ∀ s ∈ V.scalars, ∃ v, val s = some (.scalar v) ∧ comp val' (slot η (s, 0)) = v := by
    intro s hs
    rw [hv s (List.mem_append.2 (.inl hs))]
    rcases h.scalars s hs with ⟨s', e, k⟩ | ⟨s', i, e, k1, k2⟩
    · obtain ⟨v, e1⟩ := h1 s' k
      exact ⟨v, see_of e e1, by simp only [comp, slot, e, e1]⟩
    · obtain ⟨v, e1, e2⟩ := h2 s' k1
      have hi : i < v.length := by rw [e2, hsz' s' k1]; exact k2
      refine ⟨v[i], (see_of e e1).trans ?_, ?_⟩
      · simp only [Val.coef, List.getElem?_eq_getElem hi, Option.map_some]
      · simp only [comp, slot, e, e1, Option.getD_some]
        rw [List.getD_eq_getElem?_getD, List.getElem?_eq_getElem hi, Option.getD_some]
  have ar : ∀ s ∈ V.arrays, ∃ v, val s = some (.array v) ∧ v.length = size s ∧ ∀ k, comp val' (slot η (s, k)) = v.getD k (Arith.lit 0) := by
    intro s hs
    rw [hv s (List.mem_append.2 (.inr hs))]
    obtain ⟨s', e, k1, k2⟩ := h.arrays s hs
    obtain ⟨v, e1, e2⟩ := h2 s' k1
    exact ⟨v, see_of e e1, by rw [e2, hsz' s' k1, hsz s hs, k2], fun k => by simp only [comp, slot, e, e1, Option.getD_none]⟩
  refine (packed_iff hsz).2 ⟨fun s hs => ?_, fun s hs => ?_, ?_⟩
  · obtain ⟨v, e, _⟩ := sc s hs
    exact ⟨v, e⟩
  · obtain ⟨v, e, k, _⟩ := ar s hs
    exact ⟨v, e, k⟩
  · rw [List.map_inj_left]
    rintro ⟨s, k⟩ hq
    rw [h3 _ (h.slots hq)]
    rcases mem_slots.1 hq with ⟨k1, k2⟩ | ⟨k1, k2⟩
    · simp only at k1 k2
      subst k2
      obtain ⟨v, e1, e2⟩ := sc s k1
      rw [e2]
      simp only [comp, e1]
    · obtain ⟨v, e1, _, e2⟩ := ar s k1
      rw [e2]
      simp only [comp, e1]

/-! ### The course in time -/

variable {cfg cfg' : Config K}

/-- Solutions of the second diagram become solutions of the first; `T` relates the members of the blocks of both. -/
structure Mirrors (η : Lens) (T : (BlkId → Mem K) → (BlkId → Mem K) → Prop) (cfg cfg' : Config K) (V V' : Vars) : Prop where
  spread : Spread η V V'
  deriv : ∀ s ∈ V.scalars ++ V.arrays, ∃ d, cfg.deriv s = some d ∧ cfg'.deriv (η s).1 = some (η d).1 ∧ (η d).2 = (η s).2
  size : ∀ s ∈ V.arrays, (cfg.deriv s).elim 0 V.size = V.size s
  size' : ∀ s ∈ V'.arrays, (cfg'.deriv s).elim 0 V'.size = V'.size s
  solution : ∀ {mem mem' : BlkId → Mem K} {t : K} {g : SigId × Nat → K} {val : SigId → Option (Val K)}, T mem mem' → Solution cfg' V' mem' t ((Within.slots V').map g) val →
    Solution cfg V mem t ((Within.slots V).map fun q => g (slot η q)) (η.see val)
  committed : ∀ {mem mem' ν' : BlkId → Mem K} {t : K} {g : SigId × Nat → K} {val : SigId → Option (Val K)}, T mem mem' → Committed cfg' V' mem' t ((Within.slots V').map g) val ν' →
    ∃ ν, T ν ν' ∧ Committed cfg V mem t ((Within.slots V).map fun q => g (slot η q)) (η.see val) ν

variable {T : (BlkId → Mem K) → (BlkId → Mem K) → Prop}
variable {mem mem' : BlkId → Mem K} {t u : K} {x d : List K} {g : SigId × Nat → K}

theorem Mirrors.rhs (h : Mirrors η T cfg cfg' V V') (hT : T mem mem') (hr : Rhs cfg' V' mem' t ((Within.slots V').map g) d) :
    ∃ f, d = (Within.slots V').map f ∧ Rhs cfg V mem t ((Within.slots V).map fun q => g (slot η q)) ((Within.slots V).map fun q => f (slot η q)) := by
  obtain ⟨val, hs, hd⟩ := hr
  obtain ⟨_, _, e⟩ := (packed_iff h.size').1 hd
  refine ⟨_, e, _, h.solution hT hs, ?_⟩
  rw [e] at hd
  refine h.spread.packed h.size h.size' (fun s hs => ?_) hd
  obtain ⟨d, e1, e2, e3⟩ := h.deriv s hs
  rw [e1, Option.bind_some]
  unfold Lens.see
  simp only [e2, e3, Option.bind_some]

theorem Mirrors.step (h : Mirrors η T cfg cfg' V V') (hT : T mem mem') {st : Stepper K} (hst : st ∈ [euler, rk4]) {y : List K} {q : K} (hs : (st t ((Within.slots V').map g) u).By (Rhs cfg' V' mem') (y, q)) :
    ∃ f, y = (Within.slots V').map f ∧ (st t ((Within.slots V).map fun q => g (slot η q)) u).By (Rhs cfg V mem) ((Within.slots V).map (fun q => f (slot η q)), q) := by
  simp only [List.mem_cons, List.not_mem_nil, or_false] at hst
  rcases hst with rfl | rfl
  · obtain ⟨d1, h1, e⟩ := hs
    obtain ⟨f1, rfl, k1⟩ := h.rhs hT h1
    have e : (y, q) = (vadd ((Within.slots V').map g) (vsmul (u -. t) ((Within.slots V').map f1)), u -. t) := e
    rw [vsmul_slots, vadd_slots] at e
    refine ⟨_, congrArg Prod.fst e, _, k1, ?_⟩
    show _ = (vadd ((Within.slots V).map fun q => g (slot η q)) (vsmul (u -. t) ((Within.slots V).map fun q => f1 (slot η q))), u -. t)
    rw [vsmul_slots, vadd_slots, show q = u -. t from congrArg Prod.snd e]
  · obtain ⟨d1, h1, hs⟩ := hs
    obtain ⟨f1, rfl, k1⟩ := h.rhs hT h1
    obtain ⟨d2, h2, hs⟩ := hs
    rw [vsmul_slots, vadd_slots] at h2
    obtain ⟨f2, rfl, k2⟩ := h.rhs hT h2
    obtain ⟨d3, h3, hs⟩ := hs
    rw [vsmul_slots, vadd_slots] at h3
    obtain ⟨f3, rfl, k3⟩ := h.rhs hT h3
    obtain ⟨d4, h4, e⟩ := hs
    rw [vsmul_slots, vadd_slots] at h4
    obtain ⟨f4, rfl, k4⟩ := h.rhs hT h4
    simp only [vsmul_slots, vadd_slots] at e
    have e : (y, q) = _ := e
    refine ⟨_, congrArg Prod.fst e, _, k1, _, by rw [vsmul_slots, vadd_slots]; exact k2, _, by rw [vsmul_slots, vadd_slots]; exact k3, _, by rw [vsmul_slots, vadd_slots]; exact k4, ?_⟩
    simp only [vsmul_slots, vadd_slots]
    rw [show q = u -. t from congrArg Prod.snd e]
    rfl

/-- The first diagram passes through the times as it is found in the second one. -/
theorem Mirrors.passes [LT K] (h : Mirrors η T cfg cfg' V V') (hst : cfg.stepper = cfg'.stepper ∨ V.scalars ++ V.arrays = []) (he : ∀ st, cfg'.stepper = some st → st ∈ [euler, rk4]) {a b : Snapshot K} {ts : List K}
    (hp : Passes cfg' V' a ts b) : ∀ {mem g}, T mem a.mem → a.state = (Within.slots V').map g → ∃ ν f, T ν b.mem ∧ b.state = (Within.slots V').map f ∧
      Passes cfg V ⟨mem, a.time, (Within.slots V).map fun q => g (slot η q), η.see a.vals⟩ ts ⟨ν, b.time, (Within.slots V).map fun q => f (slot η q), η.see b.vals⟩ := by
  induction hp with
  | nil => exact fun {mem g} hT e => ⟨mem, g, hT, e, .nil⟩
  | @steps a c b ts st steps k1 k2 k3 k4 k5 k6 ih =>
    intro mem g hT e
    have hin := he _ k2
    have e1 := k4 hin
    subst e1
    rw [e] at k5
    cases k5 with
    | step _ _ _ _ q => cases q
    | last r1 r2 r3 r4 =>
      obtain ⟨f, e2, k7⟩ := h.step hT hin r3
      rw [e2] at r4
      obtain ⟨ν, hT2, r4⟩ := h.committed hT r4
      obtain ⟨ν1, f', hT3, e3, k8⟩ := ih hT2 e2
      refine ⟨ν1, f', hT3, e3, ?_⟩
      by_cases hV : V.scalars ++ V.arrays = []
      · exact .sample (b := ⟨ν, c.time, (Within.slots V).map fun q => f (slot η q), η.see c.vals⟩) hV r4 k8
      · have hs : cfg.stepper = some st := (hst.resolve_right hV).trans k2
        exact .steps (b := ⟨ν, c.time, (Within.slots V).map fun q => f (slot η q), η.see c.vals⟩) [(a.time, c.time)] hV hs k3 (fun _ => rfl) (.last r1 r2 k7 r4) k8
  | @sample a c b ts k1 k2 k3 ih =>
    intro mem g hT e
    have e2 := ((packed_iff fun _ _ => rfl).1 k2.solution.state).2.2
    rw [e2] at k2
    obtain ⟨ν, hT2, k2⟩ := h.committed hT k2
    obtain ⟨ν1, f', hT3, e3, k8⟩ := ih hT2 e2
    refine ⟨ν1, f', hT3, e3, ?_⟩
    have hV : V.scalars ++ V.arrays = [] := by
      rw [List.append_eq_nil_iff] at k1 ⊢
      refine ⟨List.eq_nil_iff_forall_not_mem.2 fun s hs => ?_, List.eq_nil_iff_forall_not_mem.2 fun s hs => ?_⟩
      · rcases h.spread.scalars s hs with ⟨s', _, k⟩ | ⟨s', _, _, k, _⟩
        · rw [k1.1] at k; cases k
        · rw [k1.2] at k; cases k
      · obtain ⟨s', _, k, _⟩ := h.spread.arrays s hs
        rw [k1.2] at k; cases k
    exact .sample (b := ⟨ν, c.time, (Within.slots V).map fun q => comp c.vals (slot η q), η.see c.vals⟩) hV k2 k8

/-- A step of any of the methods, apart from the proposed step size. -/
theorem Mirrors.trial (h : Mirrors η T cfg cfg' V V') (hT : T mem mem') {st : Stepper K} (hst : st ∈ [euler, rk4, rkf45]) {y : List K} {q : K} (hs : (st t ((Within.slots V').map g) u).By (Rhs cfg' V' mem') (y, q)) :
    ∃ f q', y = (Within.slots V').map f ∧ (st t ((Within.slots V).map fun q => g (slot η q)) u).By (Rhs cfg V mem) ((Within.slots V).map (fun q => f (slot η q)), q') := by
  simp only [List.mem_cons, List.not_mem_nil, or_false] at hst
  rcases hst with rfl | rfl | rfl
  · obtain ⟨f, e, k⟩ := h.step hT (by simp) hs
    exact ⟨f, q, e, k⟩
  · obtain ⟨f, e, k⟩ := h.step hT (by simp) hs
    exact ⟨f, q, e, k⟩
  · obtain ⟨d1, h1, hs⟩ := hs
    obtain ⟨f1, rfl, k1⟩ := h.rhs hT h1
    obtain ⟨d2, h2, hs⟩ := hs
    simp only [vsmul_slots, vadd_slots] at h2
    obtain ⟨f2, rfl, k2⟩ := h.rhs hT h2
    obtain ⟨d3, h3, hs⟩ := hs
    simp only [vsmul_slots, vadd_slots] at h3
    obtain ⟨f3, rfl, k3⟩ := h.rhs hT h3
    obtain ⟨d4, h4, hs⟩ := hs
    simp only [vsmul_slots, vadd_slots, vsub_slots] at h4
    obtain ⟨f4, rfl, k4⟩ := h.rhs hT h4
    obtain ⟨d5, h5, hs⟩ := hs
    simp only [vsmul_slots, vadd_slots, vsub_slots] at h5
    obtain ⟨f5, rfl, k5⟩ := h.rhs hT h5
    obtain ⟨d6, h6, e⟩ := hs
    simp only [vsmul_slots, vadd_slots, vsub_slots] at h6
    obtain ⟨f6, rfl, k6⟩ := h.rhs hT h6
    simp only [vsmul_slots, vadd_slots, vsub_slots] at e
    have e : (y, q) = _ := e
    obtain ⟨e1, -⟩ := Prod.mk.inj e
    suffices hr : ∃ r : List K × K, (rkf45 t ((Within.slots V).map fun q => g (slot η q)) u).By (Rhs cfg V mem) r ∧ r.1 = (Within.slots V).map (fun s => g (slot η s) +. Arith.lit 2375 /. Arith.lit 20520 *. ((u -. t) *. f1 (slot η s)) +.
        Arith.lit 11264 /. Arith.lit 20520 *. ((u -. t) *. f3 (slot η s)) +. Arith.lit 10985 /. Arith.lit 20520 *. ((u -. t) *. f4 (slot η s)) -. Arith.lit 4104 /. Arith.lit 20520 *. ((u -. t) *. f5 (slot η s))) by
      obtain ⟨⟨_, q'⟩, hr, rfl⟩ := hr
      exact ⟨_, q', e1, hr⟩
    refine ⟨(_, _), ⟨_, k1, (Within.slots V).map (fun q => f2 (slot η q)), ?_, (Within.slots V).map (fun q => f3 (slot η q)), ?_, (Within.slots V).map (fun q => f4 (slot η q)), ?_,
      (Within.slots V).map (fun q => f5 (slot η q)), ?_, (Within.slots V).map (fun q => f6 (slot η q)), ?_, rfl⟩, ?_⟩
    iterate 5 (simp only [vsmul_slots, vadd_slots, vsub_slots]; assumption)
    simp only [vsmul_slots, vadd_slots, vsub_slots]

theorem Mirrors.evolves (h : Mirrors η T cfg cfg' V V') {st : Stepper K} (hst : st ∈ [euler, rk4, rkf45]) {a : K} {ν' : BlkId → Mem K} {y : List K} {steps : List (K × K)} {val : SigId → Option (Val K)}
    (he : Evolves cfg' V' st u mem' a x steps y val ν') : ∀ {mem g}, T mem mem' → x = (Within.slots V').map g →
      ∃ f ν, T ν ν' ∧ y = (Within.slots V').map f ∧ Evolves cfg V st u mem a ((Within.slots V).map fun q => g (slot η q)) steps ((Within.slots V).map fun q => f (slot η q)) (η.see val) ν := by
  induction he with
  | last r1 r2 r3 r4 =>
    rintro mem g hT rfl
    obtain ⟨f, q, rfl, k⟩ := h.trial hT hst r3
    obtain ⟨ν, hT2, r4⟩ := h.committed hT r4
    exact ⟨f, ν, hT2, rfl, .last r1 r2 k r4⟩
  | step r1 r2 r3 r4 _ ih =>
    rintro mem g hT rfl
    obtain ⟨f, q, rfl, k⟩ := h.trial hT hst r3
    obtain ⟨ν, hT2, r4⟩ := h.committed hT r4
    obtain ⟨f', ν1, hT3, e, k'⟩ := ih hT2 rfl
    exact ⟨f', ν1, hT3, e, .step r1 r2 k r4 k'⟩

/-! ### Diagrams found in others -/

attribute [local instance] Arith.before

variable {ps ps' : List (Wire K)} {ty ty' : SigId → Ty} {rank rank' : BlkId → Nat}

/-- The members of all blocks of the one diagram are found in those of the other. -/
def Held (η : Lens) (β : BlkId → BlkId) (cfg : Config K) (mem mem' : BlkId → Mem K) : Prop := ∀ l ∈ cfg.model.leaves, l.Holds η (mem l.id) (mem' (β l.id))

theorem solution_found (h : cfg.Sealed ps ty rank) (h' : cfg'.Sealed ps' ty' rank') (hV : C72.Sorted ps ty V) (hV' : C72.Sorted ps' ty' V') (hf : cfg.Found η β cfg') (hsp : Spread η V V')
    (hm : Held η β cfg mem mem') (hs : Solution cfg' V' mem' t ((Within.slots V').map g) val) :
    Solution cfg V mem t ((Within.slots V).map fun q => g (slot η q)) (η.see val) ∧ ∀ l ∈ cfg.model.leaves, l.Solved t (mem l.id) (η.see val) := by
  have hall : ∀ l ∈ cfg'.model.leaves, l.Solved t (mem' l.id) val := (hs.unique (explicit_sealed h' hV'.mem) (C59.C59_complete cfg' ps' ty' rank' h').complete hs).1
  have hc := (C59.C59_complete cfg ps ty rank h).complete
  have hin : ∀ q ∈ cfg.inputVals t, η.see val q.1 = some q.2 := by
    intro q hq
    obtain ⟨q', hq', e1, e2⟩ := hf.input t q hq
    unfold Lens.see
    rw [← e1, hs.input q' hq', Option.bind_some, e2]
  have hst : Packed (η.see val) V.size V.scalars V.arrays ((Within.slots V).map fun q => g (slot η q)) := hsp.packed (fun _ _ => rfl) (fun _ _ => rfl) (fun _ _ => rfl) hs.state
  have hone : ∀ l ∈ cfg.model.leaves, (∀ s ∈ l.reads, ∃ v, η.see val s = some v) → l.Solved t (mem l.id) (η.see val) := by
    intro l hl hr
    rcases hf.block l hl with ⟨l', hl', e, hv⟩ | ⟨_, _, _, he⟩
    · exact views_solved hv (hm l hl) hr (e ▸ hall l' hl')
    · exact he mem' t val hs.input hall hr _
  obtain ⟨⟨rk, hrk⟩, _, hrd⟩ := explicit_sealed h hV.mem
  have key : ∀ (n : Nat) (l : Leaf K), l ∈ cfg.model.leaves → rk l.id < n → l.Solved t (mem l.id) (η.see val) := by
    intro n
    induction n with
    | zero => intro l _ h; exact absurd h (Nat.not_lt_zero _)
    | succ n ih =>
      intro l hl hr
      refine hone l hl fun s hs => ?_
      obtain ⟨f, g1, g2⟩ := hrd l hl s hs
      rcases hrk l hl s f g1 g2 with k | k | ⟨l', hl', k, k'⟩
      · obtain ⟨q, hq, rfl⟩ := List.mem_map.1 (k t)
        exact ⟨_, hin q hq⟩
      · exact hst.some k
      · exact Solved.outs (hc l' hl') (ih l' hl' (Nat.lt_of_lt_of_le k' (Nat.le_of_lt_succ hr))) k
  have hsol := fun l hl => key _ l hl (Nat.lt_succ_self _)
  exact ⟨⟨hin, hst, fun l hl _ => hsol l hl⟩, hsol⟩

theorem choose_mem (hn : ∀ l ∈ cfg.model.leaves, ∀ k ∈ cfg.model.leaves, l.id = k.id → l = k) {P : Leaf K → Mem K → Prop} (h : ∀ l ∈ cfg.model.leaves, ∃ μ, P l μ) :
    ∃ mem : BlkId → Mem K, ∀ l ∈ cfg.model.leaves, P l (mem l.id) := by
  have : Nonempty (Mem K) := ⟨{ value := .int 0 }⟩
  choose! f hf using h
  refine ⟨fun b => ((cfg.model.leaves.find? fun k => k.id == b).map f).getD { value := .int 0 }, fun l hl => ?_⟩
  cases e : cfg.model.leaves.find? (fun k => k.id == l.id) with
  | none =>
    have := List.find?_eq_none.1 e l hl
    simp at this
  | some k =>
    have e1 : k.id = l.id := by simpa using List.find?_some e
    simp only [e, Option.map_some, Option.getD_some]
    rw [hn k (List.mem_of_find?_eq_some e) l hl e1]
    exact hf l hl

theorem committed_found (h : cfg.Sealed ps ty rank) (h' : cfg'.Sealed ps' ty' rank') (hV : C72.Sorted ps ty V) (hV' : C72.Sorted ps' ty' V') (hf : cfg.Found η β cfg') (hsp : Spread η V V')
    (hm : Held η β cfg mem mem') {ν' : BlkId → Mem K} (hs : Committed cfg' V' mem' t ((Within.slots V').map g) val ν') :
    ∃ ν, Held η β cfg ν ν' ∧ Committed cfg V mem t ((Within.slots V).map fun q => g (slot η q)) (η.see val) ν := by
  obtain ⟨k1, k2⟩ := solution_found h h' hV hV' hf hsp hm hs.solution
  have hc := (C59.C59_complete cfg ps ty rank h).complete
  have hval : ∀ s, (∃ p ∈ ps, p.Takes s ∨ p.Gives s) → ∃ v, η.see val s = some v := by
    intro s hs
    rcases sourced h hV.mem hs with g | g | ⟨l, hl, g⟩
    · obtain ⟨q, hq, rfl⟩ := List.mem_map.1 (g t)
      exact ⟨_, k1.input q hq⟩
    · exact k1.state.some g
    · exact Solved.outs (hc l hl) (k2 l hl) g
  obtain ⟨ν, hν⟩ := choose_mem (cfg := cfg) (fun l hl k hk e => C59.eq_of_leafId h.proper.leafNodup hl hk e)
    (P := fun l μ => l.Stored t (η.see val) (mem l.id) μ ∧ l.Holds η μ (ν' (β l.id))) (fun l hl => by
      rcases hf.block l hl with ⟨l', hl', e, hv⟩ | ⟨h1, h2, h3, _⟩
      · rw [← e]
        refine views_stored hv (e ▸ hm l hl) (fun s hs => ?_) (hs.stored l' hl')
        obtain ⟨p, hp, f⟩ := C59.leaf_wire h hl
        rcases f.post s hs with k | k
        · exact hval s ⟨p, hp, .inl k⟩
        · exact hval s ⟨p, hp, .inr (f.state s k).1⟩
      · exact ⟨_, C74.stored_swap h1 h2 h3 _, holds_algebraic h1 h3 _ _⟩)
  exact ⟨ν, fun l hl => (hν l hl).2, k1, fun l hl => (hν l hl).1⟩

/-- What is found initially: the state variables, by the types of the members. -/
theorem spread_found (h : cfg.Sealed ps ty rank) (h' : cfg'.Sealed ps' ty' rank') (hV : C72.Sorted ps ty V) (hV' : C72.Sorted ps' ty' V') (hf : cfg.Found η β cfg') {w w' : World K}
    (hw : w.New cfg ty) (hw' : w'.New cfg' ty') (hm : Held η β cfg w.mem w'.mem) : Spread η V V' ∧
      (∀ s ∈ V.scalars ++ V.arrays, ∃ d, cfg.deriv s = some d ∧ cfg'.deriv (η s).1 = some (η d).1 ∧ (η d).2 = (η s).2) ∧
      ∀ s ∈ V.scalars ++ V.arrays, ∃ l ∈ cfg.model.leaves, ∃ l' ∈ cfg'.model.leaves, l.state = some s ∧ l'.state = some (η s).1 ∧ (w'.mem l'.id).value.coef (η s).2 = some (w.mem l.id).value := by
  have key : ∀ s ∈ V.scalars ++ V.arrays, ∃ l ∈ cfg.model.leaves, ∃ l' ∈ cfg'.model.leaves, ∃ x x' s' i, l.kind = .integrator x s ∧ l'.kind = .integrator x' s' ∧ l'.id = β l.id ∧ η x = (x', i) ∧ η s = (s', i) ∧
      (w'.mem l'.id).value.coef i = some (w.mem l.id).value ∧ (w.mem l.id).value.Goes strict (ty s) ∧ (w'.mem l'.id).value.Goes strict (ty' s') := by
    intro s hs
    obtain ⟨p, hp, hst, hg⟩ := (hV.mem s).1 hs
    obtain ⟨l, hl, e⟩ := C72.state_leaf h hp hst hg
    rcases hf.block l hl with ⟨l', hl', e1, hv⟩ | ⟨_, _, h3, _⟩
    · have m1 := hw.fine.members l hl
      have m2 := hw'.fine.members l' hl'
      have m3 := hm l hl
      unfold Leaf.Views at hv
      unfold Leaf.state at e
      unfold Leaf.Members at m1 m2
      unfold Leaf.Holds at m3
      split at hv
      case h_11 =>
        rename_i x o x' o' k1 k2
        rw [k1] at e m1 m3
        rw [k2] at m2
        cases e
        obtain ⟨i, g1, g2⟩ := hv
        simp only [g2] at m3
        rw [← e1] at m3
        exact ⟨l, hl, l', hl', x, x', o', i, k1, k2, e1, g1, g2, m3, m1, m2⟩
      case h_12 => exact hv.elim
      all_goals (rename_i k1 k2; rw [k1] at e; cases e)
    · rw [h3] at e; cases e
  have hstate : ∀ (c : Config K) (ps : List (Wire K)) (ty : SigId → Ty) (rank : BlkId → Nat), c.Sealed ps ty rank → ∀ l ∈ c.model.leaves, ∀ x s, l.kind = .integrator x s → c.deriv s = some x := by
    intro c ps ty rank h l hl x s e
    have e1 : l.state = some s := by unfold Leaf.state; rw [e]
    exact (C58_states c ps h.assembled (C59.sealed_proper h)).2.2 l hl s x (.inl e) fun l1 hl1 e2 => C72.state_unique h hl hl1 e1 e2
  have hin : ∀ l' ∈ cfg'.model.leaves, ∀ x' s', l'.kind = .integrator x' s' → s' ∈ V'.scalars ++ V'.arrays := by
    intro l' hl' x' s' e
    have e1 : l'.state = some s' := by unfold Leaf.state; rw [e]
    obtain ⟨p, hp, f⟩ := C59.leaf_wire h' hl'
    exact (hV'.mem s').2 ⟨p, hp, (f.state s' e1).2, (f.state s' e1).1⟩
  refine ⟨⟨fun s hs => ?_, fun s hs => ?_⟩, fun s hs => ?_, fun s hs => ?_⟩
  · obtain ⟨l, hl, l', hl', x, x', s', i, k1, k2, k3, k4, k5, k6, k7, k8⟩ := key s (List.mem_append.2 (.inl hs))
    have ht := hV.scalars s hs
    have hs' := hin l' hl' x' s' k2
    rw [ht] at k7
    cases i with
    | none =>
      refine .inl ⟨s', k5, ?_⟩
      rcases List.mem_append.1 hs' with g | g
      · exact g
      · obtain ⟨n, e⟩ := hV'.arrays s' g
        simp only [Val.coef, Option.some.injEq] at k6
        rw [e, k6] at k8
        have a1 := k7.1
        have a2 := k8.1
        cases hv : (w.mem l.id).value <;> rw [hv] at a1 a2 <;> simp [Val.hasTag] at a1 a2
    | some i =>
      obtain ⟨xs, y, e1, e2, e3⟩ := coef_array k6
      rw [e1] at k8
      refine .inr ⟨s', i, k5, ?_⟩
      rcases List.mem_append.1 hs' with g | g
      · rw [hV'.scalars s' g] at k8
        have := k8.1
        simp [Val.hasTag] at this
      · obtain ⟨n, e⟩ := hV'.arrays s' g
        rw [e] at k8
        have a2 := k8.2 rfl
        simp only [Val.sizeOk, beq_iff_eq] at a2
        refine ⟨g, ?_⟩
        rw [hV'.size, e]
        have := (List.getElem?_eq_some_iff.1 e2).1
        simp only [Ty.size]
        omega
  · obtain ⟨l, hl, l', hl', x, x', s', i, k1, k2, k3, k4, k5, k6, k7, k8⟩ := key s (List.mem_append.2 (.inr hs))
    obtain ⟨n, ht⟩ := hV.arrays s hs
    have hs' := hin l' hl' x' s' k2
    rw [ht] at k7
    cases i with
    | none =>
      simp only [Val.coef, Option.some.injEq] at k6
      rw [k6] at k8
      refine ⟨s', k5, ?_⟩
      rcases List.mem_append.1 hs' with g | g
      · rw [hV'.scalars s' g] at k8
        have a1 := k7.1
        have a2 := k8.1
        cases hv : (w.mem l.id).value <;> rw [hv] at a1 a2 <;> simp [Val.hasTag] at a1 a2
      · obtain ⟨n', e⟩ := hV'.arrays s' g
        refine ⟨g, ?_⟩
        rw [hV.size, hV'.size, ht, e]
        rw [e] at k8
        have a1 := k7.1
        have b1 := k7.2 rfl
        have b2 := k8.2 rfl
        cases hv : (w.mem l.id).value <;> rw [hv] at a1 b1 b2 <;> simp [Val.hasTag, Val.sizeOk] at a1 b1 b2
        simp only [Ty.size]
        omega
    | some i =>
      obtain ⟨xs, y, e1, e2, e3⟩ := coef_array k6
      rw [e3] at k7
      have := k7.1
      simp [Val.hasTag] at this
  · obtain ⟨l, hl, l', hl', x, x', s', i, k1, k2, k3, k4, k5, k6, k7, k8⟩ := key s hs
    refine ⟨x, hstate _ _ _ _ h l hl x s k1, ?_, by rw [k4, k5]⟩
    rw [k4, k5]
    exact hstate _ _ _ _ h' l' hl' x' s' k2
  · obtain ⟨l, hl, l', hl', x, x', s', i, k1, k2, k3, k4, k5, k6, k7, k8⟩ := key s hs
    refine ⟨l, hl, l', hl', by unfold Leaf.state; rw [k1], by unfold Leaf.state; rw [k2, k5], by rw [k5]; exact k6⟩

theorem mirrors_found (h : cfg.Sealed ps ty rank) (h' : cfg'.Sealed ps' ty' rank') (hV : C72.Sorted ps ty V) (hV' : C72.Sorted ps' ty' V') (hf : cfg.Found η β cfg') {w w' : World K}
    (hw : w.New cfg ty) (hw' : w'.New cfg' ty') (hm : Held η β cfg w.mem w'.mem) : Mirrors η (Held η β cfg) cfg cfg' V V' := by
  obtain ⟨k1, k2, _⟩ := spread_found h h' hV hV' hf hw hw' hm
  exact ⟨k1, k2, C72.size_same h hV, C72.size_same h' hV', fun hT hs => (solution_found h h' hV hV' hf k1 hT hs).1, fun hT hs => committed_found h h' hV hV' hf k1 hT hs⟩

/-- The initial state is found in the other one. -/
theorem stands_found (h : cfg.Sealed ps ty rank) (h' : cfg'.Sealed ps' ty' rank') (hV : C72.Sorted ps ty V) (hV' : C72.Sorted ps' ty' V') (hf : cfg.Found η β cfg') {w w' : World K}
    (hw : w.New cfg ty) (hw' : w'.New cfg' ty') (hm : Held η β cfg w.mem w'.mem) {x0 : List K} (hx : cfg.Stands V w.mem x0) (hx' : cfg'.Stands V' w'.mem ((Within.slots V').map g)) :
    x0 = (Within.slots V).map fun q => g (slot η q) := by
  obtain ⟨k1, _, k3⟩ := spread_found h h' hV hV' hf hw hw' hm
  refine packed_unique hx (k1.packed (fun _ _ => rfl) (fun _ _ => rfl) (fun _ _ => rfl) hx') (fun s hs => ?_)
  obtain ⟨l, hl, l', hl', e1, e2, e3⟩ := k3 s hs
  unfold Lens.see
  simp only [C72.find_state h hl e1, C72.find_state h' hl' e2, Option.map_some, Option.bind_some, e3]

theorem evolves_unique (h : cfg.Sealed ps ty rank) (hV : C72.Sorted ps ty V) {st : Stepper K} {mem1 mem2 ν1 ν2 : BlkId → Mem K} {a : K} {y1 y2 : List K} {v1 v2 : SigId → Option (Val K)} {steps : List (K × K)}
    (h1 : Evolves cfg V st u mem1 a x steps y1 v1 ν1) (hm : ∀ l ∈ cfg.model.leaves, mem1 l.id = mem2 l.id) (h2 : Evolves cfg V st u mem2 a x steps y2 v2 ν2) :
    y1 = y2 ∧ (∀ l ∈ cfg.model.leaves, ν1 l.id = ν2 l.id) ∧ ∀ s, (∃ p ∈ ps, p.Takes s ∨ p.Gives s) → v1 s = v2 s := by
  have hR : ∀ (mem mem' : BlkId → Mem K), (∀ l ∈ cfg.model.leaves, mem l.id = mem' l.id) → ∀ t x d d', Rhs cfg V mem t x d → Rhs cfg V mem' t x d' → d = d' :=
    fun mem mem' hm t x d d' q q' => Rhs.unique (explicit_sealed h hV.mem) (C59.C59_complete cfg ps ty rank h).complete (rhs_mem hm q) q'
  induction h1 generalizing mem2 with
  | last r1 r2 r3 r4 =>
    cases h2 with
    | step _ _ _ _ g => cases g
    | last w1 w2 w3 w4 =>
      have e := congrArg Prod.fst (by_unique (hR _ _ hm) r3 w3)
      simp only at e
      subst e
      obtain ⟨g1, g2⟩ := committed_unique h hV.mem hm r4 w4
      exact ⟨rfl, g1, g2⟩
  | step r1 r2 r3 r4 r5 ih =>
    cases h2 with
    | last w1 w2 w3 w4 => cases r5
    | step w1 w2 w3 w4 w5 =>
      have e := congrArg Prod.fst (by_unique (hR _ _ hm) r3 w3)
      simp only at e
      subst e
      obtain ⟨g1, g2⟩ := committed_unique h hV.mem hm r4 w4
      exact ih g1 w5

end Pooya.Slice
