import Verif.Proof.Bus

/-! # C05 — try_at as a non-throwing at.

The property is false of the code: a missing label in a nested bus throws, and a dotted label whose
first component is a value signal is undefined behaviour. -/

namespace Pooya.C05

/-- What `try_at` should return. -/
def expected (es : Entries) (label : Str) : Option Signal :=
  match busAt es label with
  | .ok s => some s
  | .error _ => none

/-- The full property. -/
def C05_full : Prop := ∀ es label, busTryAt es label = .ok (expected es label)

/-- C05 is false: `try_at("b.y")` on a bus `b` without `y` throws. -/
theorem C05_refuted_throws :
    busTryAt [(str "b", .bus 0 [(str "x", .val 1 .scalar)])] (str "b.y") = .error (.exc .labelNotFound) := by
  have h : splitDot (str "b.y") = (str "b", some (str "y")) := by decide +kernel
  have hp : IsPath (str "y") [str "y"] := ⟨by simp, by decide +kernel, by decide +kernel⟩
  have h2 : busAt [(str "x", .val 1 .scalar)] (str "y") = .error (.exc .labelNotFound) := by
    rw [busAt_eq_resolve hp, resolve_error hp.ne]
    exact ⟨_, rfl, .missing (by decide +kernel)⟩
  simp [busTryAt, h, findLabel, h2, Except.map]

/-- C05 is false: `try_at("a.x")` where `a` is a scalar signal is undefined behaviour. -/
theorem C05_refuted_ub :
    busTryAt [(str "a", .val 1 .scalar)] (str "a.x") = .error (.ub .badCast) := by
  have h : splitDot (str "a.x") = (str "a", some (str "x")) := by decide +kernel
  simp [busTryAt, h, findLabel]

theorem C05_refuted : ¬ C05_full := by
  intro h
  have := h _ _ ▸ C05_refuted_throws
  cases this

/-- C05, the part that holds: for labels without a dot, for labels `at` finds, and when the first
component is missing, `try_at` is the non-throwing `at`. Missing: labels whose first component exists
and whose lookup fails later (there `try_at` throws or is undefined, see above). -/
theorem C05_partial (es : Entries) (label : Str) (segs : List Str) (hp : IsPath label segs)
    (h : segs.length = 1 ∨ (∃ s, busAt es label = .ok s) ∨ (∀ p ∈ es, ∀ l, segs.head? = some l → p.1 ≠ l)) :
    busTryAt es label = .ok (expected es label) := by
  obtain ⟨l, ls, rfl⟩ : ∃ l ls, segs = l :: ls := by
    cases segs with
    | nil => exact (hp.ne rfl).elim
    | cons a b => exact ⟨a, b, rfl⟩
  by_cases hls : ls = []
  · subst hls
    have hj : label = l := by have := hp.join; simpa [List.intercalate] using this
    subst hj
    have hs := splitDot_noDot label (hp.noDot label (by simp))
    rw [busTryAt, hs, expected, busAt_eq_resolve hp]
    simp only [resolve]
    cases findLabel es label <;> rfl
  · obtain ⟨r, e, hl, hpr⟩ := isPath_cons hp hls
    have hs := splitDot_append l r hl
    rw [← e] at hs
    obtain ⟨m, ms, rfl⟩ : ∃ m ms, ls = m :: ms := by
      cases ls with
      | nil => exact (hls rfl).elim
      | cons a b => exact ⟨a, b, rfl⟩
    rcases h with h | ⟨s, h⟩ | h
    · simp at h
    · rw [expected, h]
      rw [busAt_eq_resolve hp] at h
      simp only [resolve] at h
      rw [busTryAt, hs]
      simp only []
      cases hf : findLabel es l with
      | none => rw [hf] at h; cases h
      | some x =>
        cases x with
        | val => rw [hf] at h; cases h
        | bus i es' =>
          rw [hf] at h
          simp only [] at h ⊢
          rw [busAt_eq_resolve hpr, h]; rfl
    · have hf : findLabel es l = none := findLabel_none.2 (fun p hp => h p hp l rfl)
      rw [busTryAt, hs, expected, busAt_eq_resolve hp]
      simp [resolve, hf]

/-- The hypotheses of `C05_partial` are met by a dotted label that resolves. -/
example : busTryAt [(str "b", .bus 0 [(str "x", .val 1 .scalar)])] (str "b.x") = .ok (some (.val 1 .scalar)) := by
  have hp : IsPath (str "b.x") [str "b", str "x"] := ⟨by simp, by decide +kernel, by decide +kernel⟩
  have h : busAt [(str "b", .bus 0 [(str "x", .val 1 .scalar)])] (str "b.x") = .ok (.val 1 .scalar) := by
    rw [busAt_eq_resolve hp, resolve_ok]
    exact .step ⟨[], [], rfl, by simp⟩ (.last ⟨[], [], rfl, by simp⟩)
  rw [C05_partial _ _ _ hp (.inr (.inl ⟨_, h⟩)), expected, h]

end Pooya.C05
