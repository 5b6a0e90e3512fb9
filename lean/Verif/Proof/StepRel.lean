import Mathlib.Algebra.BigOperators.GroupWithZero.Action
import Verif.Proof.Stepper

/-! The steppers commute with rearranging the components of the state. -/

set_option linter.unusedSectionVars false

namespace Pooya

section
variable {K : Type} [Arith K] {idx : List Nat}

theorem rearr_zip (f : K → K → K) {a b a' b' : List K} (ha : Rearranged idx a a') (hb : Rearranged idx b b') :
    Rearranged idx (List.zipWith f a b) (List.zipWith f a' b') := by
  refine ⟨by simp [ha.1, hb.1], fun j => ?_⟩
  rw [List.getElem?_zipWith, ha.2, hb.2]
  cases idx[j]? with
  | none => rfl
  | some i => simp only [Option.bind_some, List.getElem?_zipWith]

theorem rearr_map (f : K → K) {a a' : List K} (ha : Rearranged idx a a') : Rearranged idx (a.map f) (a'.map f) := by
  refine ⟨by simp [ha.1], fun j => ?_⟩
  rw [List.getElem?_map, ha.2]
  cases idx[j]? with
  | none => rfl
  | some i => simp

theorem euler_rel (t0 t1 : K) {v v' : List K} (h : Rearranged idx v v') :
    (euler t0 v t1).Related (Rearranged idx) (euler t0 v' t1) :=
  ⟨rfl, h, fun _ _ hr => ⟨rearr_zip _ h (rearr_map _ hr), rfl⟩⟩

theorem rk4_rel (t0 t1 : K) {v v' : List K} (h : Rearranged idx v v') :
    (rk4 t0 v t1).Related (Rearranged idx) (rk4 t0 v' t1) := by
  refine ⟨rfl, h, fun _ _ h1 => ⟨rfl, ?_, fun _ _ h2 => ⟨rfl, ?_, fun _ _ h3 => ⟨rfl, ?_, fun _ _ h4 => ⟨?_, rfl⟩⟩⟩⟩⟩
  all_goals unfold vadd vsmul; repeat' first | assumption | apply rearr_zip | apply rearr_map

end

section
variable {K : Type} [Field K] [LinearOrder K] [IsStrictOrderedRing K] {idx : List Nat}
attribute [local instance] Arith.exact

theorem rearr_mem (hi : idx.Perm (List.range idx.length)) {a a' : List K} (h : Rearranged idx a a') (x : K) :
    x ∈ a ↔ x ∈ a' := by
  simp only [List.mem_iff_getElem?]
  constructor
  · rintro ⟨i, hx⟩
    have hl : i < idx.length := by
      rw [← h.1]; exact (List.getElem?_eq_some_iff.1 hx).1
    obtain ⟨j, hj⟩ := List.mem_iff_getElem?.1 (hi.mem_iff.2 (List.mem_range.2 hl))
    exact ⟨j, by rw [h.2, hj]; exact hx⟩
  · rintro ⟨j, hx⟩
    rw [h.2] at hx
    cases hj : idx[j]? with
    | none => rw [hj] at hx; simp at hx
    | some i => rw [hj] at hx; exact ⟨i, hx⟩

theorem rkf45_rel (hi : idx.Perm (List.range idx.length)) (t0 t1 : K) {v v' : List K} (h : Rearranged idx v v') :
    (rkf45 t0 v t1).Related (Rearranged idx) (rkf45 t0 v' t1) := by
  refine ⟨rfl, h, fun _ _ h1 => ⟨rfl, ?_, fun _ _ h2 => ⟨rfl, ?_, fun _ _ h3 => ⟨rfl, ?_, fun _ _ h4 => ⟨rfl, ?_,
    fun _ _ h5 => ⟨rfl, ?_, fun _ _ h6 => ⟨?_, ?_⟩⟩⟩⟩⟩⟩⟩
  case refine_7 =>
    refine congrArg _ (maxAbs_congr (rearr_mem hi ?_))
    unfold vadd vsub vsmul; repeat' first | assumption | apply rearr_zip | apply rearr_map
  all_goals unfold vadd; (try unfold vsub); unfold vsmul; repeat' first | assumption | apply rearr_zip | apply rearr_map

end
end Pooya
