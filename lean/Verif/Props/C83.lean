import Verif.Props.C01
import Verif.Props.C51
import Verif.Proof.Text

/-! # C83 — Reading the exported file gives back what was recorded

Full statement: *a program that reads the file written by export_csv, splitting lines at line feeds and fields at commas, finds the
headings of the recorded signals and the recorded numbers* — for all recordings, names and numbers.

The last part is false: numbers are written with six digits, so numbers that differ can become the same text (`C83_refuted`).
Proved: the file always splits into the headings and one field for each number, whatever the signals were named, and each field is
read as the recorded number up to half a unit in the sixth digit, exactly if it has at most six digits (`C83_partial`); the numbers
read are in the same order as those recorded (`C83_order`). -/

namespace Pooya.C83

open Reading

set_option linter.unusedSectionVars false

theorem readNum_of_digit {c : UInt8} {s : Str} (h : IsDigit c) : readNum (c :: s) = readPos (c :: s) := by
  unfold readNum
  split
  · rename_i heq
    simp only [List.cons.injEq] at heq
    rw [heq.1] at h
    exact absurd h (by decide)
  · rfl

theorem readNum_showNum_pos {x : ℚ} (hx : 0 < x) : readNum (showNum x) = some (six x) := by
  unfold showNum
  rw [if_neg hx.ne', if_neg (not_lt.2 hx.le)]
  have h := readPos_showPos hx
  obtain ⟨c, s, e, hc⟩ := showPos_head hx
  rw [e] at h ⊢
  rw [readNum_of_digit hc, h]

theorem readNum_showNum_neg {x : ℚ} (hx : x < 0) : readNum (showNum x) = some (-(six (-x))) := by
  unfold showNum
  rw [if_neg hx.ne, if_pos hx]
  show (readPos (showPos (-x))).map (- ·) = _
  rw [readPos_showPos (by linarith)]
  rfl

theorem readNum_showNum_zero : readNum (showNum 0) = some 0 := by decide +kernel

/-- C83, numbers: every number is written as a text that is read as that number up to half a unit in the sixth digit. -/
theorem C83_number (x : ℚ) : Prints (showNum x) x := by
  rcases lt_trichotomy x 0 with hx | rfl | hx
  · have hx' : 0 < -x := by linarith
    refine ⟨_, readNum_showNum_neg hx, ?_, ?_⟩
    · have := (scientific_spec hx').2.2
      rw [abs_of_neg hx, show -six (-x) - x = -(six (-x) - -x) by ring, abs_neg]
      exact this
    · rintro ⟨m, k, hm, h⟩
      rw [six_self hx' (m := -m) (k := k) (by rwa [abs_neg]) (by rw [h]; push_cast; ring)]
      ring
  · exact ⟨0, readNum_showNum_zero, by norm_num, fun _ => rfl⟩
  · refine ⟨_, readNum_showNum_pos hx, ?_, ?_⟩
    · rw [abs_of_pos hx]; exact (scientific_spec hx).2.2
    · rintro ⟨m, k, hm, h⟩
      exact six_self hx hm h

/-- C83, order: numbers are read in the order in which they were recorded. -/
theorem C83_order (x y : ℚ) (h : x ≤ y) : ∃ a b, readNum (showNum x) = some a ∧ readNum (showNum y) = some b ∧ a ≤ b := by
  rcases lt_trichotomy x 0 with hx | rfl | hx
  · have px := six_pos (x := -x) (by linarith)
    rcases lt_trichotomy y 0 with hy | rfl | hy
    · exact ⟨_, _, readNum_showNum_neg hx, readNum_showNum_neg hy, neg_le_neg (six_mono (by linarith) (by linarith))⟩
    · exact ⟨_, _, readNum_showNum_neg hx, readNum_showNum_zero, by linarith⟩
    · have py := six_pos hy
      exact ⟨_, _, readNum_showNum_neg hx, readNum_showNum_pos hy, by linarith⟩
  · rcases h.lt_or_eq with hy | rfl
    · exact ⟨_, _, readNum_showNum_zero, readNum_showNum_pos hy, (six_pos hy).le⟩
    · exact ⟨_, _, readNum_showNum_zero, readNum_showNum_zero, le_refl _⟩
  · exact ⟨_, _, readNum_showNum_pos hx, readNum_showNum_pos (hx.trans_le h), six_mono hx h⟩

/-! ## The file -/

/-- The object got its name in one of the two ways there are. -/
def Named (o : NamedObject) : Prop := ∃ s, o = NamedObject.create s ∨ ∃ o', o = NamedObject.rename o' s

theorem Named.legal {o : NamedObject} (h : Named o) : ∀ c ∈ o.nm.name, c ∈ C01.legalBytes := by
  obtain ⟨s, rfl | ⟨o', rfl⟩⟩ := h
  · exact (C01.C01_sanitised s ⟨ValidName.ofStr s⟩).1.legal
  · exact (C01.C01_sanitised s o').2.legal

theorem showNum_clean (x : ℚ) : (44 : UInt8) ∉ showNum x ∧ (10 : UInt8) ∉ showNum x := by
  have h : ∀ c ∈ showNum x, c ≠ 44 ∧ c ≠ 10 := by
    have hp : ∀ z : ℚ, ∀ c ∈ showPos z, c ≠ 44 ∧ c ≠ 10 := by
      intro z c hc
      rcases showPos_chars c hc with h | rfl | rfl | rfl | rfl
      · exact ⟨fun e => absurd (e ▸ h) (by decide), fun e => absurd (e ▸ h) (by decide)⟩
      all_goals decide
    intro c hc
    unfold showNum at hc
    split at hc
    · rw [List.mem_singleton.1 hc]; decide
    · split at hc
      · rcases List.mem_cons.1 hc with rfl | hc
        · decide
        · exact hp _ c hc
      · exact hp _ c hc
  exact ⟨fun hm => (h _ hm).1 rfl, fun hm => (h _ hm).2 rfl⟩

theorem fieldText_clean {name : SigId → NamedObject} (hn : ∀ i, Named (name i)) (f : Field) :
    (44 : UInt8) ∉ f.text name ∧ (10 : UInt8) ∉ f.text name := by
  have h : ∀ c ∈ f.text name, c ≠ 44 ∧ c ≠ 10 := by
    intro c hc
    unfold Field.text at hc
    rcases List.mem_append.1 hc with hc | hc
    · have := (hn f.sig).legal c hc
      exact ⟨fun e => absurd (e ▸ this) (by decide +kernel), fun e => absurd (e ▸ this) (by decide +kernel)⟩
    · split at hc
      · cases hc
      · simp only [List.mem_append, List.mem_cons, List.not_mem_nil, or_false] at hc
        rcases hc with (rfl | hc) | rfl
        · decide
        · have := padded_digits _ _ c hc
          exact ⟨fun e => absurd (e ▸ this) (by decide), fun e => absurd (e ▸ this) (by decide)⟩
        · decide
  exact ⟨fun hm => (h _ hm).1 rfl, fun hm => (h _ hm).2 rfl⟩

/-- The file splits into its fields. -/
theorem table_csv {name : SigId → NamedObject} (hn : ∀ i, Named (name i)) (other : Str) (ho : (44 : UInt8) ∉ other ∧ (10 : UInt8) ∉ other) (c : Csv ℚ) :
    table (c.text showNum other name) = (str "time" :: c.header.map (Field.text name))
      :: c.lines.map (fun l => showCell showNum other l.1 :: l.2.map (showCell showNum other)) := by
  have e : c.text showNum other name = ((str "time", c.header.map (Field.text name))
      :: c.lines.map (fun l => (showCell showNum other l.1, l.2.map (showCell showNum other)))).flatMap
        (fun r => r.1 ++ r.2.flatMap (fun p => 44 :: p) ++ [10]) := by
    rw [List.flatMap_cons, List.flatMap_map]
    simp only [List.flatMap_map]
    rfl
  have hc : ∀ v : Option ℚ, (44 : UInt8) ∉ showCell showNum other v ∧ (10 : UInt8) ∉ showCell showNum other v := by
    intro v
    cases v with
    | none => exact ho
    | some x => exact showNum_clean x
  rw [e, table_text, List.map_cons, List.map_map]
  · rfl
  · intro r hr p hp
    rcases List.mem_cons.1 hr with rfl | hr
    · rcases List.mem_cons.1 hp with rfl | hp
      · show (44 : UInt8) ∉ str "time" ∧ (10 : UInt8) ∉ str "time"
        decide +kernel
      · obtain ⟨f, -, rfl⟩ := List.mem_map.1 hp
        exact fieldText_clean hn f
    · obtain ⟨l, -, rfl⟩ := List.mem_map.1 hr
      rcases List.mem_cons.1 hp with rfl | hp
      · exact hc _
      · obtain ⟨v, -, rfl⟩ := List.mem_map.1 hp
        exact hc _

theorem padded_head (k n : Nat) (hk : k ≤ 1) (h : (padded k n).head? = some 48) : padded k n = [48] := by
  fun_induction padded k n with
  | case1 k n hn =>
    have : k - 1 = 0 := by omega
    rw [this] at h ⊢
    simp only [List.replicate_zero, List.nil_append, List.head?_cons, Option.some.injEq] at h ⊢
    rw [h]
  | case2 k n hn ih =>
    have hne := padded_ne (k - 1) (n / 10)
    rw [List.head?_append_of_ne_nil _ hne] at h
    have := ih (by omega) h
    have hv := padded_value (k - 1) (n / 10)
    rw [this] at hv
    have : n / 10 = 0 := by rw [← hv]; rfl
    omega

theorem headings (name : SigId → NamedObject) (ty : SigId → Ty) (i : SigId) :
    Headings (name i).nm.name (ty i) ((match ty i with
        | .array n => (List.range n).map (fun c => (⟨i, some c⟩ : Field))
        | _ => [⟨i, none⟩]).map (Field.text name)) := by
  cases ty i with
  | array n =>
    refine ⟨by simp, fun c hc => ⟨padded 1 c, padded_digits _ _, padded_value _ _, fun h => padded_head 1 c (by omega) h, ?_⟩⟩
    simp [hc, Field.text]
  | _ => simp [Headings, Field.text]

/-- Part of C83: under the hypotheses of C51 (rows recorded without gaps, then `shrink_to_fit`), whatever the signals were named and whatever the
order of the hash map, splitting the file gives the headings and the recorded numbers to six digits.  Missing: the numbers themselves. -/
theorem C83_partial [Arith ℚ] (ty : SigId → Ty) (grow : Nat) (hg : 1 ≤ grow) (sigs : List SigId) (hs : sigs ≠ []) (hn : sigs.Nodup)
    (ops : List (HOp ℚ)) (hp : Proper ty grow sigs ops) (he : ¬ Early ops) (hu : Used ops) (h : Hist ℚ)
    (hr : runOps ops (Hist.tracking grow sigs) = .ok () h) (hall : ∀ k, k < h.nrows → lastAt ops k ≠ none)
    (order : List (SigId × Rows (List ℚ)) → List (SigId × Rows (List ℚ))) (hord : ∀ l, (order l).Perm l)
    (name : SigId → NamedObject) (hname : ∀ i, Named (name i)) (other : Str) :
    ∃ (csv : Csv ℚ) (ks : List SigId) (heads rows : List (List Str)), exportCsv ty order (histShrink h) = .ok (some csv) ∧ ks.Perm sigs ∧
      table (csv.text showNum other name) = (str "time" :: heads.flatten) :: rows ∧
      List.Forall₂ (fun i l => Headings (name i).nm.name (ty i) l) ks heads ∧
      ∀ k, Option.Rel (fun row p => List.Forall₂ Prints row (p.2 :: ks.flatMap (fun i => sample (p.1.sig i)))) rows[k]? (lastAt ops k) := by
  obtain ⟨csv, ks, h1, h2, h3, h4⟩ := C51.C51_complete_partial ty grow hg sigs hs hn ops hp he hu h hr hall order hord
  -- no indeterminate numbers are written, so `other` does not matter
  have hsome : ∀ l ∈ csv.lines, ∃ (t : ℚ) (vs : List ℚ), l = (some t, vs.map some) := by
    intro l hl
    obtain ⟨k, hk⟩ := List.getElem?_of_mem hl
    rw [h4 k] at hk
    obtain ⟨p, -, rfl⟩ := Option.map_eq_some_iff.1 hk
    refine ⟨p.2, ks.flatMap (fun i => sample (p.1.sig i)), ?_⟩
    rw [List.map_flatMap]
  have htext : csv.text showNum other name = csv.text showNum [] name := by
    unfold Csv.text
    congr 1
    refine C51.flatMap_congr' fun l hl => ?_
    obtain ⟨t, vs, rfl⟩ := hsome l hl
    simp only [showCell, List.flatMap_map]
  refine ⟨csv, ks, ks.map (fun i => (match ty i with
        | .array n => (List.range n).map (fun c => (⟨i, some c⟩ : Field))
        | _ => [⟨i, none⟩]).map (Field.text name)),
    csv.lines.map (fun l => showCell showNum [] l.1 :: l.2.map (showCell showNum [])), h1, h2, ?_, ?_, fun k => ?_⟩
  · rw [htext, table_csv hname [] ⟨by simp, by simp⟩, h3, List.map_flatMap]
    rfl
  · rw [List.forall₂_map_right_iff]
    exact List.forall₂_same.2 fun i _ => headings name ty i
  · rw [List.getElem?_map, h4 k, Option.map_map]
    cases lastAt ops k with
    | none => exact .none
    | some p =>
      refine .some ?_
      dsimp only [Function.comp]
      refine .cons (C83_number _) ?_
      rw [List.map_flatMap]
      simp only [List.map_map]
      rw [← List.map_flatMap, List.forall₂_map_left_iff]
      exact List.forall₂_same.2 fun x _ => C83_number x

/-! ## The refutation -/

/-- Two records of the same value, at the times 100000.25 and 100000.5. -/
def late : List (HOp ℚ) := [.update (C48.world 1 true) 0 (400001/4), .update (C48.world 1 true) 1 (200001/2)]

theorem late_proper : Proper C48.types 10 [0, 1] late := by
  intro w k t hm
  simp only [late, List.mem_cons, HOp.update.injEq, List.not_mem_nil, or_false] at hm
  rcases hm with ⟨rfl, rfl, rfl⟩ | ⟨rfl, rfl, rfl⟩
  · exact ⟨by omega, C48.world_proper _ _⟩
  · exact ⟨by omega, C48.world_proper _ _⟩

theorem late_early : ¬ Early late := by
  rintro ⟨a, b, h, hu⟩
  cases a with
  | nil => cases h
  | cons o a =>
    simp only [late, List.cons_append, List.cons.injEq] at h
    exact hu ⟨_, _, _, by rw [← h.1]; exact List.mem_cons_self⟩

theorem late_run : ∃ h, runOps late (Hist.tracking 10 [0, 1]) = .ok () h ∧ h.nrows = 2 ∧
    ∃ csv, exportCsv C48.types id (histShrink h) = .ok (some csv) ∧
      csv.lines.map Prod.fst = [some (400001/4), some (200001/2)] := by
  have h : runOps late (Hist.tracking 10 [0, 1] : Hist ℚ) = _ := eq_of_returns (by decide +kernel)
  exact ⟨_, h, by decide +kernel, _, rfl, by rfl⟩

theorem late_all (k : Nat) (hk : k < 2) : lastAt late k ≠ none := by
  have : k = 0 ∨ k = 1 := by omega
  rcases this with rfl | rfl <;> simp [late, lastAt]

/-- The recorded times 100000.25 and 100000.5 are both written as `100000`, so the file has two lines with the same time. -/
theorem C83_refuted : ∃ h, runOps late (Hist.tracking 10 [0, 1]) = .ok () h ∧ ∃ csv, exportCsv C48.types id (histShrink h) = .ok (some csv) ∧
    csv.lines.map Prod.fst = [some (400001/4), some (200001/2)] ∧
    ∀ name : SigId → NamedObject, (∀ i, Named (name i)) →
      ((table (csv.text showNum [] name)).drop 1).map List.head? = [some (str "100000"), some (str "100000")] := by
  obtain ⟨h, h1, -, csv, h2, h3⟩ := late_run
  refine ⟨h, h1, csv, h2, h3, fun name hname => ?_⟩
  rw [table_csv hname [] ⟨by simp, by simp⟩, List.drop_succ_cons, List.drop_zero, List.map_map]
  have e : csv.lines.map (List.head? ∘ fun l => showCell showNum [] l.1 :: l.2.map (showCell showNum []))
      = (csv.lines.map Prod.fst).map (fun t => some (showCell showNum [] t)) := by
    rw [List.map_map]; rfl
  rw [e, h3]
  decide +kernel

/-! ## Examples -/

/-- Signals named `x` and `a b`; the second name is stored as `a_b`. -/
def names (i : SigId) : NamedObject := NamedObject.create (if i = 0 then str "x" else str "a b")

theorem names_named (i : SigId) : Named (names i) := ⟨_, .inl rfl⟩

example : ∃ (h : Hist ℚ) (csv : Csv ℚ) (ks : List SigId) (heads rows : List (List Str)), exportCsv C48.types List.reverse (histShrink h) = .ok (some csv) ∧
    ks.Perm [0, 1] ∧ table (csv.text showNum [] names) = (str "time" :: heads.flatten) :: rows ∧ rows.length = 2 := by
  obtain ⟨h, h1, hn, -⟩ := late_run
  obtain ⟨csv, ks, heads, rows, e1, e2, e3, -, e4⟩ := C83_partial C48.types 10 (by omega) [0, 1] (by simp) (by decide) late late_proper late_early
    ⟨_, _, _, List.mem_cons_self⟩ h h1 (fun k hk => late_all k (by omega)) List.reverse (fun l => List.reverse_perm l) names names_named []
  refine ⟨h, csv, ks, heads, rows, e1, e2, e3, ?_⟩
  have h2 : rows[2]? = none := by
    have := e4 2
    rw [show lastAt late 2 = none from rfl] at this
    generalize rows[2]? = r at this
    cases this; rfl
  have h3 : ∃ r, rows[1]? = some r := by
    have := e4 1
    obtain ⟨p, hp⟩ := Option.ne_none_iff_exists'.1 (late_all 1 (by omega))
    rw [hp] at this
    generalize rows[1]? = r at this
    cases this; exact ⟨_, rfl⟩
  obtain ⟨r, h3⟩ := h3
  have := (List.getElem?_eq_some_iff.1 h3).1
  have := List.getElem?_eq_none_iff.1 h2
  omega

example : showNum (1/3) = str "0.333333" ∧ showNum (-1234567) = str "-1.23457e+06" ∧ showNum (25/2) = str "12.5" ∧
    showNum (1/100000) = str "1e-05" ∧ showNum (9999995/10) = str "1e+06" ∧ showNum 100 = str "100" := by decide +kernel

example : readNum (str "-1.23457e+06") = some (-1234570) := by decide +kernel

example : SixDigits (25/2) := ⟨125, -1, by norm_num, by norm_num⟩

end Pooya.C83
