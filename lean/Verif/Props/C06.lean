import Verif.Proof.Bus
import Verif.Props.C01

/-! # C06 — bus positions are insertion order -/

namespace Pooya.C06

theorem mkBus_entries (nm : Names) (l : List (Str × Signal)) :
    (mkBus nm l).2 = l.map (fun p => (emend p.1, p.2)) := by
  induction l generalizing nm with
  | nil => rfl
  | cons p rest ih =>
    obtain ⟨a, s⟩ := p
    simp [mkBus, busPut, ih]

/-- C06: size and position access of a labelled bus. -/
theorem C06_positions (nm : Names) (l : List (Str × Signal)) (i : Nat) :
    (mkBus nm l).2.length = l.length ∧
    (∀ (h : i < l.length), busAtIdx (mkBus nm l).2 i = .ok l[i].2) ∧
    (l.length ≤ i → busAtIdx (mkBus nm l).2 i = .error (.exc .outOfRange)) := by
  rw [mkBus_entries]
  refine ⟨by simp, fun h => by simp [busAtIdx, h], fun h => ?_⟩
  simp [busAtIdx, List.getElem?_eq_none_iff.2 h]

theorem mkBusAuto_snd (nm : Names) (k : Nat) (l : List Signal) :
    (mkBusAuto nm k l).2.map Prod.snd = l := by
  induction l generalizing nm k with
  | nil => rfl
  | cons s rest ih => simp [mkBusAuto, busPut, ih]

/-- C06: size and position access of an unlabelled bus. -/
theorem C06_positions_auto (nm : Names) (k : Nat) (l : List Signal) (i : Nat) :
    (mkBusAuto nm k l).2.length = l.length ∧
    (∀ (h : i < l.length), busAtIdx (mkBusAuto nm k l).2 i = .ok l[i]) ∧
    (l.length ≤ i → busAtIdx (mkBusAuto nm k l).2 i = .error (.exc .outOfRange)) := by
  have hs := mkBusAuto_snd nm k l
  have hlen : (mkBusAuto nm k l).2.length = l.length := by
    have := congrArg List.length hs; simpa using this
  refine ⟨hlen, fun h => ?_, fun h => ?_⟩
  · have h' : i < (mkBusAuto nm k l).2.length := by omega
    have : l[i] = ((mkBusAuto nm k l).2[i]).2 := by
      rw [← List.getElem_map (f := Prod.snd)]; · simp [hs]
      simpa using h'
    simp [busAtIdx, h', this]
  · simp [busAtIdx, List.getElem?_eq_none_iff.2 (hlen ▸ h)]

/-- C06: `operator[](i)` is the same signal; for every other `i`, a debug build throws and the behaviour of a release build is undefined. -/
theorem C06_subscript (dbg : Bool) (nm : Names) (l : List (Str × Signal)) (i : Nat) :
    (∀ (h : i < l.length), busIdx dbg (mkBus nm l).2 i = .ok l[i].2) ∧
    (l.length ≤ i → busIdx true (mkBus nm l).2 i = .error (.exc .debugVerify) ∧ busIdx false (mkBus nm l).2 i = .error (.ub .outOfBounds)) := by
  rw [mkBus_entries]
  refine ⟨fun h => by simp [busIdx, h], fun h => ?_⟩
  simp [busIdx, List.getElem?_eq_none_iff.2 h]

/-- C06: labels are stored sanitised; in particular no stored label contains a dot. -/
theorem C06_labels (nm : Names) (l : List (Str × Signal)) (i : Nat) (h : i < l.length) :
    ∃ n, (mkBus nm l).2[i]? = some (n, l[i].2) ∧ C01.Sanitised l[i].1 n ∧ (46 : UInt8) ∉ n := by
  refine ⟨emend l[i].1, by simp [mkBus_entries, h], C01.emend_sanitised _, fun hd => ?_⟩
  have := (C01.emend_sanitised _).legal _ hd
  revert this; decide +kernel

/-- C06: a member whose label is unique in its bus is reached by that label. -/
theorem C06_reachable (nm : Names) (l : List (Str × Signal)) (i : Nat) (n : Str) (s : Signal)
    (h : (mkBus nm l).2[i]? = some (n, s))
    (hu : ∀ (j : Nat) (s' : Signal), (mkBus nm l).2[j]? = some (n, s') → j = i) :
    busAt (mkBus nm l).2 n = .ok s := by
  have hlt : i < (mkBus nm l).2.length := by
    rw [List.getElem?_eq_some_iff] at h; exact h.1
  have hd : (46 : UInt8) ∉ n := by
    have hl : i < l.length := by simpa [mkBus_entries] using hlt
    obtain ⟨n', h1, _, h2⟩ := C06_labels nm l i hl
    rw [h] at h1; simp at h1; rw [h1.1]; exact h2
  have hp : IsPath n [n] := ⟨by simp, by simpa using hd, by simp [List.intercalate]⟩
  rw [busAt_eq_resolve hp, resolve_ok]
  refine .last ⟨(mkBus nm l).2.take i, (mkBus nm l).2.drop (i + 1), ?_, ?_⟩
  · rw [List.getElem?_eq_some_iff] at h
    rw [← h.2, List.getElem_cons_drop, List.take_append_drop]
  · intro p hp e
    rw [List.mem_take_iff_getElem] at hp
    obtain ⟨j, hj, rfl⟩ := hp
    have hj' : j < (mkBus nm l).2.length := by omega
    have := hu j ((mkBus nm l).2[j]).2 (by rw [List.getElem?_eq_getElem hj']; congr 1; exact Prod.ext e rfl)
    omega

/-- "my sig" is stored as "my_sig" and found under that label. -/
example : busAt (mkBus (fun _ => []) [(str "my sig", .val 1 .bool), (str "b", .val 2 .int)]).2 (str "my_sig")
    = .ok (.val 1 .bool) := by
  refine C06_reachable _ _ 0 _ _ ?_ ?_
  · simp [mkBus_entries]; decide +kernel
  · intro j s' h
    match j with
    | 0 => rfl
    | 1 =>
      simp [mkBus_entries] at h
      have h1 := h.1
      revert h1; decide +kernel
    | j + 2 => simp [mkBus_entries] at h

end Pooya.C06
