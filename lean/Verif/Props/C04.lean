import Verif.Proof.Bus
import Verif.Props.C01

/-! # C04 — automatic labels agree with positions -/

namespace Pooya.C04

/-- Specification of the i-th label. -/
def sigLabel (i : Nat) : Str := str ("sig" ++ toString i)

theorem autoLabel_eq (i : Nat) : autoLabel i = sigLabel i := by
  simp [autoLabel, sigLabel, str, decimal, Nat.toString_eq_repr, Nat.toList_repr]

theorem digit_byte {c : Char} (h : c.isDigit) : (UInt8.ofNat c.toNat).toNat = c.toNat := by
  simp [Char.isDigit] at h
  have h2 := h.2
  rw [UInt32.le_iff_toNat_le] at h2
  have : c.toNat = c.val.toNat := rfl
  simp
  rw [this]
  have h3 : c.val.toNat ≤ 57 := h2
  omega

theorem decimal_inj {a b : Nat} (h : decimal a = decimal b) : a = b := by
  have key : Nat.toDigits 10 a = Nat.toDigits 10 b := by
    have gen : ∀ (l m : List Char), (∀ c ∈ l, c.isDigit) → (∀ c ∈ m, c.isDigit) →
        l.map (fun c => UInt8.ofNat c.toNat) = m.map (fun c => UInt8.ofNat c.toNat) → l = m := by
      intro l
      induction l with
      | nil => intro m _ _ h; cases m <;> simp_all
      | cons c cs ih =>
        intro m hl hm h
        cases m with
        | nil => simp at h
        | cons d ds =>
          simp only [List.map_cons, List.cons.injEq] at h
          have hc := digit_byte (hl c (by simp))
          have hd := digit_byte (hm d (by simp))
          have : c = d := by
            apply Char.ext
            apply UInt32.toNat_inj.1
            have : c.toNat = d.toNat := by rw [← hc, ← hd, h.1]
            exact this
          rw [this, ih ds (fun x hx => hl x (by simp [hx])) (fun x hx => hm x (by simp [hx])) h.2]
    exact gen _ _ (fun c hc => Nat.isDigit_of_mem_toDigits (by decide) (by decide) hc)
      (fun c hc => Nat.isDigit_of_mem_toDigits (by decide) (by decide) hc) h
  have := congrArg (fun l => Nat.ofDigitChars 10 l 0) key
  simpa [Nat.ofDigitChars_toDigits] using this

theorem sigLabel_inj {a b : Nat} (h : sigLabel a = sigLabel b) : a = b := by
  rw [← autoLabel_eq, ← autoLabel_eq] at h
  exact decimal_inj (List.append_cancel_left h)

theorem digit_legal {c : Char} (h : c.isDigit) : legalChar (UInt8.ofNat c.toNat) = true := by
  have hb := digit_byte h
  simp [Char.isDigit] at h
  obtain ⟨h1, h2⟩ := h
  rw [UInt32.le_iff_toNat_le] at h1 h2
  have h1' : 48 ≤ c.toNat := h1
  have h2' : c.toNat ≤ 57 := h2
  simp only [legalChar, Bool.or_eq_true, Bool.and_eq_true, decide_eq_true_eq]
  left; right
  constructor <;> rw [UInt8.le_iff_toNat_le, hb] <;> simpa

theorem emend_autoLabel (i : Nat) : emend (autoLabel i) = autoLabel i := by
  have h : ∀ c ∈ autoLabel i, c ∈ C01.legalBytes := by
    intro c hc
    rw [← C01.legalChar_iff]
    simp only [autoLabel, List.mem_append, decimal, List.mem_map] at hc
    rcases hc with hc | ⟨d, hd, rfl⟩
    · revert c; decide +kernel
    · exact digit_legal (Nat.isDigit_of_mem_toDigits (by decide) (by decide) hd)
  exact (C01.C01_legal_unchanged _ h ⟨⟨[]⟩⟩).1

theorem sigLabel_noDot (i : Nat) : (46 : UInt8) ∉ sigLabel i := by
  rw [← autoLabel_eq, ← emend_autoLabel]
  intro h
  have := (C01.emend_sanitised (autoLabel i)).legal _ h
  revert this; decide +kernel

theorem mkBusAuto_entries (nm : Names) (k : Nat) (l : List Signal) :
    (mkBusAuto nm k l).2 = l.mapIdx (fun i s => (sigLabel (k + i), s)) := by
  induction l generalizing nm k with
  | nil => rfl
  | cons s rest ih =>
    simp only [mkBusAuto, busPut, List.mapIdx_cons, Nat.add_zero]
    rw [emend_autoLabel, autoLabel_eq]
    congr 1
    rw [ih]
    congr 1
    funext i s
    rw [show k + 1 + i = k + (i + 1) by omega]

/-- C04: in a bus built from an unlabelled list, the i-th signal has label "sig<i>". -/
theorem C04_labels (nm : Names) (l : List Signal) :
    (mkBusAuto nm 0 l).2 = l.mapIdx (fun i s => (sigLabel i, s)) := by
  rw [mkBusAuto_entries]; simp

/-- C04: all labels are different. -/
theorem C04_distinct (nm : Names) (l : List Signal) : ((mkBusAuto nm 0 l).2.map Prod.fst).Nodup := by
  rw [C04_labels, List.nodup_iff_pairwise_ne, List.pairwise_iff_getElem]
  intro i j hi hj hij
  simp only [List.getElem_map, List.getElem_mapIdx]
  intro h
  have := sigLabel_inj h
  omega

/-- C04: `at("sig<i>")` is `at(i)`, for positions inside and outside the bus. -/
theorem C04_at (nm : Names) (l : List Signal) (i : Nat) (hi : i < l.length) :
    busAt (mkBusAuto nm 0 l).2 (sigLabel i) = .ok l[i] ∧ busAtIdx (mkBusAuto nm 0 l).2 i = .ok l[i] := by
  constructor
  · have hp : IsPath (sigLabel i) [sigLabel i] :=
      ⟨by simp, by simpa using sigLabel_noDot i, by simp [List.intercalate]⟩
    rw [busAt_eq_resolve hp, resolve_ok]
    refine .last ⟨(mkBusAuto nm 0 l).2.take i, (mkBusAuto nm 0 l).2.drop (i + 1), ?_, ?_⟩
    · have hlen : i < (mkBusAuto nm 0 l).2.length := by rw [C04_labels]; simpa
      have : (mkBusAuto nm 0 l).2[i] = (sigLabel i, l[i]) := by simp [C04_labels]
      rw [← this, List.getElem_cons_drop, List.take_append_drop]
    · intro p hp
      rw [List.mem_take_iff_getElem] at hp
      obtain ⟨j, hj, rfl⟩ := hp
      simp only [C04_labels, List.length_mapIdx] at hj
      have : (mkBusAuto nm 0 l).2[j]'(by rw [C04_labels]; simp; omega) = (sigLabel j, l[j]) := by
        simp [C04_labels]
      rw [this]
      intro h
      have := sigLabel_inj h
      omega
  · simp [busAtIdx, C04_labels, hi]

/-- Eleven signals: the last one is "sig10". -/
example : (mkBusAuto (fun _ => []) 0 ((List.range 11).map (fun i => Signal.val i .scalar))).2.length = 11 ∧
    sigLabel 10 = str "sig10" := by
  rw [C04_labels]; exact ⟨by simp, by decide +kernel⟩

end Pooya.C04
