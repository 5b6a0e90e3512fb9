import Verif.Proof.Pack
import Verif.Spec.RungeKutta
import Mathlib.Data.List.Perm.Basic

/-! State vectors for different enumerations of the state signals are rearrangements of each other. -/

namespace Pooya

set_option linter.unusedSectionVars false

section
variable {A B : Type}

/-- Corresponding values, component by component. -/
def ValRel (R : A → B → Prop) : Option (Val A) → Option (Val B) → Prop
  | some (.scalar a), some (.scalar b) => R a b
  | some (.array a), some (.array b) => List.Forall₂ R a b
  | _, _ => False

theorem forall₂_split {R : A → B → Prop} {l1 l2 : List A} {k1 k2 : List B} (hl : l1.length = k1.length) (h : List.Forall₂ R (l1 ++ l2) (k1 ++ k2)) :
    List.Forall₂ R l1 k1 ∧ List.Forall₂ R l2 k2 := by
  induction l1 generalizing k1 with
  | nil =>
    cases k1 with
    | nil => exact ⟨.nil, h⟩
    | cons _ _ => simp at hl
  | cons a l1 ih =>
    cases k1 with
    | nil => simp at hl
    | cons b k1 =>
      cases h with
      | cons hab h =>
        obtain ⟨h1, h2⟩ := ih (by simpa using hl) h
        exact ⟨.cons hab h1, h2⟩

theorem forall₂_append {R : A → B → Prop} {l1 l2 : List A} {k1 k2 : List B} (h1 : List.Forall₂ R l1 k1) (h2 : List.Forall₂ R l2 k2) :
    List.Forall₂ R (l1 ++ l2) (k1 ++ k2) := by
  induction h1 with
  | nil => exact h2
  | cons h _ ih => exact .cons h ih

theorem packed_rel {R : A → B → Prop} {v1 : SigId → Option (Val A)} {v2 : SigId → Option (Val B)} {size : SigId → Nat} {ss sa : List SigId}
    {y : List A} {x : List B} (h1 : Packed v1 size ss sa y) (h2 : Packed v2 size ss sa x) (h : List.Forall₂ R y x) :
    ∀ s ∈ ss ++ sa, ValRel R (v1 s) (v2 s) := by
  obtain ⟨a, b, f1, g1, rfl⟩ := h1
  obtain ⟨a', b', f2, g2, rfl⟩ := h2
  obtain ⟨ha, hb⟩ := forall₂_split (by rw [← f1.length_eq, ← f2.length_eq]) h
  have hs : ∀ s ∈ ss, ValRel R (v1 s) (v2 s) := by
    clear g1 g2 h hb
    induction f1 generalizing a' with
    | nil => simp
    | @cons s i ss a e _ ih =>
      cases f2 with
      | cons e' f2 =>
        cases ha with
        | cons hiv ha =>
          intro s' hs'
          rcases List.mem_cons.1 hs' with rfl | hs'
          · rw [e, e']; exact hiv
          · exact ih _ f2 ha s' hs'
  have hsa : ∀ s ∈ sa, ValRel R (v1 s) (v2 s) := by
    clear f1 f2 h ha hs
    induction g1 generalizing b' with
    | nil => simp
    | @cons s i ss a e _ ih =>
      cases g2 with
      | cons e' g2 =>
        simp only [List.flatten_cons] at hb
        obtain ⟨h1, h2⟩ := forall₂_split (by rw [e.2, e'.2]) hb
        intro s' hs'
        rcases List.mem_cons.1 hs' with rfl | hs'
        · rw [e.1, e'.1]; exact h1
        · exact ih _ g2 h2 s' hs'
  intro s h
  rcases List.mem_append.1 h with h | h
  · exact hs s h
  · exact hsa s h

theorem rel_packed {R : A → B → Prop} {v1 : SigId → Option (Val A)} {v2 : SigId → Option (Val B)} {size : SigId → Nat} {ss sa : List SigId}
    {y : List A} {x : List B} (h1 : Packed v1 size ss sa y) (h2 : Packed v2 size ss sa x) (h : ∀ s ∈ ss ++ sa, ValRel R (v1 s) (v2 s)) :
    List.Forall₂ R y x := by
  obtain ⟨a, b, f1, g1, rfl⟩ := h1
  obtain ⟨a', b', f2, g2, rfl⟩ := h2
  refine forall₂_append ?_ ?_
  · replace h : ∀ s ∈ ss, ValRel R (v1 s) (v2 s) := fun s hs => h s (by simp [hs])
    clear g1 g2
    induction f1 generalizing a' with
    | nil => cases f2; exact .nil
    | @cons s i ss a e _ ih =>
      cases f2 with
      | cons e' f2 =>
        have h1 := h s (by simp)
        rw [e, e'] at h1
        exact .cons h1 (ih _ f2 (fun s hs => h s (by simp [hs])))
  · replace h : ∀ s ∈ sa, ValRel R (v1 s) (v2 s) := fun s hs => h s (by simp [hs])
    clear f1 f2
    induction g1 generalizing b' with
    | nil => cases g2; exact .nil
    | @cons s i ss a e _ ih =>
      cases g2 with
      | cons e' g2 =>
        have h1 := h s (by simp)
        rw [e.1, e'.1] at h1
        exact forall₂_append h1 (ih _ g2 (fun s hs => h s (by simp [hs])))

/-- Any vector of the right size consists of values of the signals. -/
theorem unpack {size : SigId → Nat} {ss sa : List SigId} (hn : (ss ++ sa).Nodup) {x : List A} (hx : x.length = slots size ss sa) :
    ∃ val : SigId → Option (Val A), Packed val size ss sa x := by
  induction ss generalizing x with
  | nil =>
    induction sa generalizing x with
    | nil =>
      have : x = [] := List.length_eq_zero_iff.1 (by rw [hx]; rfl)
      subst this
      exact ⟨fun _ => none, [], [], .nil, .nil, rfl⟩
    | cons s sa ih =>
      simp only [List.nil_append, List.nodup_cons] at hn
      have hl : x.length = size s + slots size [] sa := by rw [hx]; simp [slots]
      obtain ⟨val, hv⟩ := ih (by simpa using hn.2) (x := x.drop (size s)) (by simp [hl])
      obtain ⟨a, b, f, g, e⟩ := hv
      cases f
      refine ⟨fun s' => if s' = s then some (.array (x.take (size s))) else val s', [], x.take (size s) :: b, .nil, .cons ⟨by simp, by simp [hl]⟩ ?_, ?_⟩
      · refine List.forall₂_iff_get.2 ⟨g.length_eq, fun i h1 h2 => ?_⟩
        have := (List.forall₂_iff_get.1 g).2 i h1 h2
        have hne : sa.get ⟨i, h1⟩ ≠ s := fun e => hn.1 (e ▸ List.get_mem _ _)
        simp only [hne, if_false]
        exact this
      · simp only [List.nil_append, List.flatten_cons] at e ⊢
        rw [← e, List.take_append_drop]
  | cons s ss ih =>
    simp only [List.cons_append, List.nodup_cons] at hn
    cases x with
    | nil => simp only [slots, List.length_cons, List.length_nil] at hx; omega
    | cons v x =>
      obtain ⟨val, hv⟩ := ih hn.2 (x := x) (by simp only [slots, List.length_cons] at hx ⊢; omega)
      have hv' : Packed (fun s' => if s' = s then some (.scalar v) else val s') size ss sa x := hv.congr (fun s' hs' => by
        have hne : s' ≠ s := fun e => hn.1 (e ▸ hs')
        simp [hne]) (fun _ _ => rfl)
      obtain ⟨a, b, f, g, rfl⟩ := hv'
      exact ⟨_, v :: a, b, .cons (by simp) f, g, rfl⟩

/-- The same values in another enumeration of the signals. -/
theorem Packed.perm {val : SigId → Option (Val A)} {size : SigId → Nat} {ss sa ss' sa' : List SigId} {x : List A} (h : Packed val size ss sa x)
    (hs : ss.Perm ss') (ha : sa.Perm sa') : ∃ x', Packed val size ss' sa' x' ∧ x'.Perm x := by
  obtain ⟨a, b, f, g, rfl⟩ := h
  obtain ⟨a', f', pa⟩ := List.perm_comp_forall₂ hs.symm f
  obtain ⟨b', g', pb⟩ := List.perm_comp_forall₂ ha.symm g
  exact ⟨a' ++ b'.flatten, ⟨a', b', f', g', rfl⟩, pa.append pb.flatten⟩

end

variable {K : Type}

/-- The two vectors hold the same values, the first one in the order of `ss1`, `sa1` and the second one in that of `ss2`, `sa2`. -/
def Corr (size : SigId → Nat) (ss1 sa1 ss2 sa2 : List SigId) (x1 x2 : List K) : Prop :=
  ∃ val : SigId → Option (Val K), Packed val size ss1 sa1 x1 ∧ Packed val size ss2 sa2 x2

/-- Corresponding vectors are related by a fixed rearrangement. -/
theorem exists_idx {size : SigId → Nat} {ss1 sa1 ss2 sa2 : List SigId} (hn : (ss1 ++ sa1).Nodup) (hs : ss1.Perm ss2) (ha : sa1.Perm sa2) :
    ∃ idx : List Nat, idx.Perm (List.range idx.length) ∧ idx.length = slots size ss1 sa1 ∧ ∀ x1 x2 : List K, Corr size ss1 sa1 ss2 sa2 x1 x2 ↔ Rearranged idx x1 x2 := by
  obtain ⟨nat, hnat⟩ := unpack (A := Nat) (size := size) hn (x := List.range (slots size ss1 sa1)) (by simp)
  obtain ⟨idx, hidx, hp⟩ := hnat.perm hs ha
  have hlen : idx.length = slots size ss1 sa1 := by rw [hp.length_eq]; simp
  have key : ∀ x1 x2 : List K, Corr size ss1 sa1 ss2 sa2 x1 x2 → Rearranged idx x1 x2 := by
    rintro x1 x2 ⟨val, h1, h2⟩
    have hl := h1.length
    have hr : List.Forall₂ (fun i v => x1[i]? = some v) (List.range (slots size ss1 sa1)) x1 := by
      refine List.forall₂_iff_get.2 ⟨by simp [hl], fun i hi hj => ?_⟩
      simp only [List.get_eq_getElem, List.getElem_range]
      exact List.getElem?_eq_getElem hj
    have hv := packed_rel hnat h1 hr
    have hf := rel_packed hidx h2 (fun s hs' => hv s (by
      rcases List.mem_append.1 hs' with h | h
      · exact List.mem_append_left _ (hs.mem_iff.2 h)
      · exact List.mem_append_right _ (ha.mem_iff.2 h)))
    refine ⟨by rw [hl, hlen], fun j => ?_⟩
    rw [List.forall₂_iff_get] at hf
    by_cases hj : j < idx.length
    · have hj' : j < x2.length := by rw [← hf.1]; exact hj
      have := hf.2 j hj hj'
      simp only [List.get_eq_getElem] at this
      rw [List.getElem?_eq_getElem hj, List.getElem?_eq_getElem hj']
      exact this.symm
    · have hj' : ¬ j < x2.length := by rw [← hf.1]; exact hj
      rw [List.getElem?_eq_none (by omega), List.getElem?_eq_none (by omega)]
      rfl
  refine ⟨idx, by rw [hlen]; exact hp, hlen, fun x1 x2 => ⟨key x1 x2, fun h => ?_⟩⟩
  obtain ⟨val, h1⟩ := unpack (A := K) hn (x := x1) (size := size) (by rw [h.1, hlen])
  obtain ⟨x2', h2, _⟩ := h1.perm hs ha
  have h' := key x1 x2' ⟨val, h1, h2⟩
  have : x2 = x2' := List.ext_getElem? (fun j => by rw [h.2, h'.2])
  rw [this]
  exact ⟨val, h1, h2⟩

end Pooya
