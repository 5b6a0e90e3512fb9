import Verif.Spec.BusPath

/-! Lemmas about bus lookup. -/

namespace Pooya

theorem splitDot_noDot (l : Str) (h : (46 : UInt8) ∉ l) : splitDot l = (l, none) := by
  induction l with
  | nil => rfl
  | cons c cs ih =>
    simp only [List.mem_cons, not_or] at h
    simp [splitDot, Ne.symm h.1, ih h.2]

theorem splitDot_append (l r : Str) (h : (46 : UInt8) ∉ l) : splitDot (l ++ 46 :: r) = (l, some r) := by
  induction l with
  | nil => rfl
  | cons c cs ih =>
    simp only [List.mem_cons, not_or] at h
    simp [splitDot, Ne.symm h.1, ih h.2]

theorem splitDot_none {l h : Str} (e : splitDot l = (h, none)) : h = l ∧ (46 : UInt8) ∉ l := by
  induction l generalizing h with
  | nil => simp [splitDot] at e; simp [e]
  | cons c cs ih =>
    simp only [splitDot] at e
    split at e
    · simp at e
    · next hc =>
      simp at e
      obtain ⟨e1, e2⟩ := ih (h := (splitDot cs).1) (by rw [← e.2])
      rw [← e.1, e1]
      simp [e2, Ne.symm hc]

theorem splitDot_some {l h r : Str} (e : splitDot l = (h, some r)) :
    l = h ++ 46 :: r ∧ (46 : UInt8) ∉ h := by
  induction l generalizing h with
  | nil => simp [splitDot] at e
  | cons c cs ih =>
    simp only [splitDot] at e
    split at e
    · next hc => simp at e; simp [e.1, ← e.2, hc]
    · next hc =>
      simp at e
      obtain ⟨e1, e2⟩ := ih (h := (splitDot cs).1) (by rw [← e.2])
      rw [← e.1]
      refine ⟨?_, ?_⟩
      · rw [List.cons_append, ← e1]
      · simp only [List.mem_cons, not_or]; exact ⟨Ne.symm hc, e2⟩

theorem intercalate_cons (l : Str) (ls : List Str) (h : ls ≠ []) :
    List.intercalate [46] (l :: ls) = l ++ 46 :: List.intercalate [46] ls := by
  cases ls with
  | nil => exact (h rfl).elim
  | cons a as => simp [List.intercalate, List.intersperse]

theorem isPath_exists (label : Str) : ∃ segs, IsPath label segs := by
  induction hn : label.length using Nat.strongRecOn generalizing label with
  | ind n ih =>
    rcases h : splitDot label with ⟨l, _ | r⟩
    · obtain ⟨rfl, hd⟩ := splitDot_none h
      exact ⟨[l], by simp, by simpa using hd, by simp [List.intercalate]⟩
    · obtain ⟨e, hd⟩ := splitDot_some h
      obtain ⟨segs, hs⟩ := ih r.length (by have := splitDot_lt h; omega) r rfl
      refine ⟨l :: segs, by simp, ?_, ?_⟩
      · simp only [List.mem_cons, forall_eq_or_imp]; exact ⟨hd, hs.noDot⟩
      · rw [intercalate_cons _ _ hs.ne, ← hs.join, e]

theorem isPath_cons {label l : Str} {ls : List Str} (h : IsPath label (l :: ls)) (hne : ls ≠ []) :
    ∃ r, label = l ++ 46 :: r ∧ (46 : UInt8) ∉ l ∧ IsPath r ls :=
  ⟨_, by rw [h.join, intercalate_cons _ _ hne], h.noDot l (by simp),
    hne, fun a ha => h.noDot a (by simp [ha]), rfl⟩

theorem isPath_unique {label : Str} {a b : List Str} (ha : IsPath label a) (hb : IsPath label b) : a = b := by
  induction a generalizing label b with
  | nil => exact (ha.ne rfl).elim
  | cons l ls ih =>
    cases b with
    | nil => exact (hb.ne rfl).elim
    | cons m ms =>
      by_cases h1 : ls = [] <;> by_cases h2 : ms = []
      · subst h1 h2
        have e1 := ha.join; have e2 := hb.join
        simp [List.intercalate] at e1 e2
        rw [← e1, ← e2]
      · subst h1
        obtain ⟨r, e, hm, _⟩ := isPath_cons hb h2
        have e1 := ha.join
        simp [List.intercalate] at e1
        have := ha.noDot l (by simp)
        rw [← e1, e] at this
        simp at this
      · subst h2
        obtain ⟨r, e, hm, _⟩ := isPath_cons ha h1
        have e1 := hb.join
        simp [List.intercalate] at e1
        have := hb.noDot m (by simp)
        rw [← e1, e] at this
        simp at this
      · obtain ⟨r, e, hl, hp⟩ := isPath_cons ha h1
        obtain ⟨r', e', hl', hp'⟩ := isPath_cons hb h2
        have := splitDot_append l r hl
        rw [← e, e', splitDot_append m r' hl'] at this
        simp at this
        obtain ⟨rfl, rfl⟩ := this
        rw [ih hp hp']

theorem findLabel_some {es : Entries} {l : Str} {s : Signal} : findLabel es l = some s ↔ FirstWith es l s := by
  induction es with
  | nil => simp [findLabel, FirstWith]
  | cons p rest ih =>
    obtain ⟨k, x⟩ := p
    simp only [findLabel]
    split
    · next h =>
      subst h
      constructor
      · intro h; simp at h; exact ⟨[], rest, by simp [h], by simp⟩
      · rintro ⟨pre, post, e, hp⟩
        cases pre with
        | nil => simp at e; simp [e.1]
        | cons q qs =>
          simp at e
          exact (hp q (by simp) (by rw [← e.1])).elim
    · next h =>
      rw [ih]
      constructor
      · rintro ⟨pre, post, e, hp⟩
        exact ⟨(k, x) :: pre, post, by simp [e], by simpa [h] using hp⟩
      · rintro ⟨pre, post, e, hp⟩
        cases pre with
        | nil => simp at e; exact (h e.1.1).elim
        | cons q qs =>
          simp at e
          exact ⟨qs, post, e.2, fun a ha => hp a (by simp [ha])⟩

theorem findLabel_none {es : Entries} {l : Str} : findLabel es l = none ↔ ∀ p ∈ es, p.1 ≠ l := by
  induction es with
  | nil => simp [findLabel]
  | cons p rest ih =>
    obtain ⟨k, x⟩ := p
    simp only [findLabel]
    split
    · next h => simp [h]
    · next h => simp [ih, h]

theorem FirstWith.unique {es : Entries} {l : Str} {s s' : Signal} (h : FirstWith es l s)
    (h' : FirstWith es l s') : s = s' := by
  have := findLabel_some.2 h; rw [findLabel_some.2 h'] at this; exact (Option.some.inj this).symm

/-- Structural version of `busAt` over path components. -/
def resolve (es : Entries) : List Str → Except Err Signal
  | [] => .error (.exc .labelNotFound)
  | [l] => match findLabel es l with
    | none => .error (.exc .labelNotFound)
    | some s => .ok s
  | l :: m :: ls => match findLabel es l with
    | none => .error (.exc .labelNotFound)
    | some (.bus _ es') => resolve es' (m :: ls)
    | some (.val _ _) => .error (.exc .invalidType)

theorem busAt_eq_resolve {es : Entries} {label : Str} {segs : List Str} (h : IsPath label segs) :
    busAt es label = resolve es segs := by
  induction segs generalizing label es with
  | nil => exact (h.ne rfl).elim
  | cons l ls ih =>
    cases ls with
    | nil =>
      have e : label = l := by have := h.join; simpa [List.intercalate] using this
      subst e
      have hs := splitDot_noDot label (h.noDot label (by simp))
      rw [busAt]
      split
      · next l' heq => rw [hs] at heq; simp at heq; subst heq; rfl
      · next l' r heq => rw [hs] at heq; simp at heq
    | cons m ms =>
      obtain ⟨r, e, hl, hp⟩ := isPath_cons h (by simp)
      have hs := splitDot_append l r hl
      rw [← e] at hs
      rw [busAt]
      split
      · next l' heq => rw [hs] at heq; simp at heq
      · next l' r' heq =>
        rw [hs] at heq; simp at heq
        obtain ⟨rfl, rfl⟩ := heq
        simp only [resolve]
        cases findLabel es l with
        | none => rfl
        | some s =>
          cases s with
          | val => rfl
          | bus i es' => exact ih hp

theorem resolve_ok {es : Entries} {segs : List Str} {s : Signal} :
    resolve es segs = .ok s ↔ Reaches es segs s := by
  induction segs generalizing es with
  | nil =>
    simp only [resolve]
    constructor
    · intro h; cases h
    · intro h; cases h
  | cons l ls ih =>
    cases ls with
    | nil =>
      simp only [resolve]
      cases hf : findLabel es l with
      | none =>
        constructor
        · intro h; cases h
        · intro h
          cases h with
          | last h => rw [← findLabel_some, hf] at h; cases h
          | step h h' => cases h'
      | some x =>
        constructor
        · intro h; cases h; exact .last (findLabel_some.1 hf)
        · intro h
          cases h with
          | last h => rw [← findLabel_some, hf] at h; cases h; rfl
          | step h h' => cases h'
    | cons m ms =>
      simp only [resolve]
      cases hf : findLabel es l with
      | none =>
        constructor
        · intro h; cases h
        · intro h
          cases h with
          | step h _ => rw [← findLabel_some, hf] at h; cases h
      | some x =>
        cases x with
        | val i t =>
          constructor
          · intro h; cases h
          · intro h
            cases h with
            | step h _ => rw [← findLabel_some, hf] at h; cases h
        | bus i es' =>
          rw [ih]
          constructor
          · intro h; exact .step (findLabel_some.1 hf) h
          · intro h
            cases h with
            | step h h' => rw [← findLabel_some, hf] at h; cases h; exact h'

theorem resolve_error {es : Entries} {segs : List Str} (hne : segs ≠ []) {e : Err} :
    resolve es segs = .error e ↔ ∃ x, e = .exc x ∧ Blocked es segs x := by
  induction segs generalizing es with
  | nil => exact (hne rfl).elim
  | cons l ls ih =>
    cases ls with
    | nil =>
      simp only [resolve]
      cases hf : findLabel es l with
      | none =>
        constructor
        · intro h; cases h; exact ⟨_, rfl, .missing (findLabel_none.1 hf)⟩
        · rintro ⟨x, rfl, h⟩
          cases h with
          | missing => rfl
          | notBus _ h => exact (h rfl).elim
          | deeper _ h => exact (h rfl).elim
      | some s =>
        constructor
        · intro h; cases h
        · rintro ⟨x, rfl, h⟩
          cases h with
          | missing h => rw [← findLabel_none, hf] at h; cases h
          | notBus _ h => exact (h rfl).elim
          | deeper _ h => exact (h rfl).elim
    | cons m ms =>
      simp only [resolve]
      cases hf : findLabel es l with
      | none =>
        constructor
        · intro h; cases h; exact ⟨_, rfl, .missing (findLabel_none.1 hf)⟩
        · rintro ⟨x, rfl, h⟩
          cases h with
          | missing => rfl
          | notBus h _ => rw [← findLabel_some, hf] at h; cases h
          | deeper h _ _ => rw [← findLabel_some, hf] at h; cases h
      | some s =>
        cases s with
        | val i t =>
          constructor
          · intro h; cases h; exact ⟨_, rfl, .notBus (findLabel_some.1 hf) (by simp)⟩
          · rintro ⟨x, rfl, h⟩
            cases h with
            | missing h => rw [← findLabel_none, hf] at h; cases h
            | notBus h _ => rfl
            | deeper h _ _ => rw [← findLabel_some, hf] at h; cases h
        | bus i es' =>
          simp only []
          rw [ih (by simp)]
          constructor
          · rintro ⟨x, rfl, h⟩; exact ⟨x, rfl, .deeper (findLabel_some.1 hf) (by simp) h⟩
          · rintro ⟨x, rfl, h⟩
            refine ⟨x, rfl, ?_⟩
            cases h with
            | missing h => rw [← findLabel_none, hf] at h; cases h
            | notBus h _ => rw [← findLabel_some, hf] at h; cases h
            | deeper h _ h' => rw [← findLabel_some, hf] at h; cases h; exact h'

end Pooya
