import Verif.Model.Name

/-! # C01 — names are always sanitised -/

namespace Pooya.C01

/-- Specification: the characters a name may contain, written out. -/
def legalBytes : List UInt8 :=
  str "abcdefghijklmnopqrstuvwxyzABCDEFGHIJKLMNOPQRSTUVWXYZ0123456789_"

/-- Specification: `n` is the sanitised form of `s`. -/
structure Sanitised (s n : Str) : Prop where
  len : n.length = s.length
  legal : ∀ c ∈ n, c ∈ legalBytes
  keep : ∀ (i : Nat) (c : UInt8), s[i]? = some c → c ∈ legalBytes → n[i]? = some c
  replace : ∀ (i : Nat) (c : UInt8), s[i]? = some c → c ∉ legalBytes → n[i]? = some 95

theorem legalChar_iff (c : UInt8) : legalChar c = true ↔ c ∈ legalBytes := by
  have h : ∀ n : Fin 256, (legalChar (UInt8.ofNat n.val) = true) = (UInt8.ofNat n.val ∈ legalBytes) := by
    have : ∀ n : Fin 256, legalChar (UInt8.ofNat n.val) = decide (UInt8.ofNat n.val ∈ legalBytes) := by
      decide +kernel
    intro n; rw [this n]; simp
  have := h ⟨c.toNat, c.toNat_lt⟩
  simp only [UInt8.ofNat_toNat] at this
  exact Iff.of_eq this

theorem underscore_legal : (95 : UInt8) ∈ legalBytes := by decide +kernel

theorem emend_sanitised (s : Str) : Sanitised s (emend s) where
  len := by simp [emend]
  legal := by
    intro c hc
    simp only [emend, List.mem_map] at hc
    obtain ⟨a, _, rfl⟩ := hc
    split
    · next h => exact (legalChar_iff a).1 h
    · exact underscore_legal
  keep := by
    intro i c hc hl
    simp [emend, hc, (legalChar_iff c).2 hl]
  replace := by
    intro i c hc hl
    have : legalChar c = false := by
      rw [← Bool.not_eq_true, legalChar_iff]; exact hl
    simp [emend, hc, this]

/-- The sanitised form is unique. -/
theorem Sanitised.unique {s n n' : Str} (h : Sanitised s n) (h' : Sanitised s n') : n = n' := by
  apply List.ext_getElem?
  intro i
  cases hs : s[i]? with
  | none =>
    have := h.len; have := h'.len
    rw [List.getElem?_eq_none_iff] at hs
    rw [List.getElem?_eq_none_iff.2 (by omega), List.getElem?_eq_none_iff.2 (by omega)]
  | some c =>
    by_cases hl : c ∈ legalBytes
    · rw [h.keep i c hs hl, h'.keep i c hs hl]
    · rw [h.replace i c hs hl, h'.replace i c hs hl]

/-- C01: whatever string an object is created or renamed with, it is stored sanitised. -/
theorem C01_sanitised (s : Str) (o : NamedObject) :
    Sanitised s (NamedObject.create s).nm.name ∧ Sanitised s (o.rename s).nm.name :=
  ⟨emend_sanitised s, emend_sanitised s⟩

/-- C01: a legal name is stored unchanged. -/
theorem C01_legal_unchanged (s : Str) (h : ∀ c ∈ s, c ∈ legalBytes) (o : NamedObject) :
    (NamedObject.create s).nm.name = s ∧ (o.rename s).nm.name = s := by
  have : Sanitised s s := ⟨rfl, h, fun _ _ h _ => h, fun i c hc hn => (hn (h c (List.mem_of_getElem? hc))).elim⟩
  exact ⟨(emend_sanitised s).unique this, (emend_sanitised s).unique this⟩

/-- C01: renaming a created (or renamed) object with its own name does nothing. -/
theorem C01_rename_own_name (s s' : Str) :
    (NamedObject.create s).rename (NamedObject.create s).nm.name = NamedObject.create s ∧
    ((NamedObject.create s).rename s').rename ((NamedObject.create s).rename s').nm.name
      = (NamedObject.create s).rename s' := by
  have key : ∀ s, emend (emend s) = emend s := fun s =>
    (C01_legal_unchanged (emend s) (emend_sanitised s).legal ⟨⟨[]⟩⟩).1
  simp [NamedObject.rename, NamedObject.create, ValidName.ofStr, key]

/-- C01: `a | s` and `a / s` append a separator and the sanitised form of a string, or another name as it is. -/
theorem C01_joined (a b : ValidName) (s : Str) :
    (∃ n, Sanitised s n ∧ (a.pipe s).name = a.name ++ str "." ++ n ∧ (a.slashStr s).name = a.name ++ str "/" ++ n) ∧
    (a.pipeName b).name = a.name ++ str "." ++ b.name ∧ (a.slash b).name = a.name ++ str "/" ++ b.name :=
  ⟨⟨emend s, emend_sanitised s, rfl, rfl⟩, rfl, rfl⟩

/-- "bus" | "x 1" is "bus.x_1". -/
example : ((ValidName.ofStr (str "bus")).pipe (str "x 1")).name = str "bus.x_1" := by decide +kernel

/-- "a-b 9" becomes "a_b_9". -/
example : (NamedObject.create (str "a-b 9")).nm.name = str "a_b_9" := by decide +kernel
example : ∀ c ∈ str "gain_2", c ∈ legalBytes := by decide +kernel

end Pooya.C01
