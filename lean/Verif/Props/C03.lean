import Verif.Proof.Bus

/-! # C03 — bus lookup follows the dotted path -/

namespace Pooya.C03

/-- C03: every label has exactly one decomposition in dot-free components. -/
theorem C03_path_unique (label : Str) : ∃ segs, IsPath label segs ∧ ∀ segs', IsPath label segs' → segs' = segs := by
  obtain ⟨segs, h⟩ := isPath_exists label
  exact ⟨segs, h, fun b hb => isPath_unique hb h⟩

/-- C03: `at(label)` returns `s` exactly when following the components leads to `s`. -/
theorem C03_lookup (es : Entries) (label : Str) (segs : List Str) (h : IsPath label segs) (s : Signal) :
    busAt es label = .ok s ↔ Reaches es segs s := by
  rw [busAt_eq_resolve h, resolve_ok]

/-- C03: otherwise it throws, with "label not found" when a component is missing and with "invalid
type" when a component that is not the last one is not a bus; nothing else can happen. -/
theorem C03_throws (es : Entries) (label : Str) (segs : List Str) (h : IsPath label segs) (e : Err) :
    busAt es label = .error e ↔ ∃ x, e = .exc x ∧ Blocked es segs x := by
  rw [busAt_eq_resolve h, resolve_error h.ne]

/-- A two-level bus with a duplicate label. -/
def exBus : Entries :=
  [(str "a", .val 1 .scalar), (str "b", .bus 2 [(str "x", .val 3 .bool), (str "x", .val 4 .int)])]

theorem ex_path : IsPath (str "b.x") [str "b", str "x"] :=
  ⟨by decide, by decide +kernel, by decide +kernel⟩

example : busAt exBus (str "b.x") = .ok (.val 3 .bool) :=
  (C03_lookup _ _ _ ex_path _).2 (.step ⟨[_], [], rfl, by decide +kernel⟩ (.last ⟨[], _, rfl, by simp⟩))

example : busAt exBus (str "a.x") = .error (.exc .invalidType) :=
  (C03_throws _ _ [str "a", str "x"] ⟨by decide, by decide +kernel, by decide +kernel⟩ _).2
    ⟨_, rfl, .notBus ⟨[], _, rfl, by simp⟩ (by decide)⟩

end Pooya.C03
