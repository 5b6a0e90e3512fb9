import Verif.Props.C83
import Verif.Model.Special
import Verif.Spec.Special

/-! # C89 — The file exported from a simulation that overflowed can be read

Full statement: *a program that reads the file written by export_csv finds the headings of the recorded signals and one field for each recorded
value, even if some values are infinite or not numbers; it reads infinities with their signs, not-a-numbers as such, and numbers to six digits* — for
all recordings without gaps, all names, all orders of the hash map and whatever signs zeros and not-a-numbers have.

Proved: `C89_value` (one field), `C89_file` (the file), `C89_told` (fields that are read as the same are written for values of the same kind). -/

namespace Pooya.C89

open Reading C83

set_option linter.unusedSectionVars false

/-- The texts of numbers do not begin with `i` or `n`, with or without a minus. -/
theorem showNum_plain (x : ℚ) : showNum x ≠ str "inf" ∧ showNum x ≠ str "-inf" ∧ showNum x ≠ str "nan" ∧ showNum x ≠ str "-nan" := by
  have h : ∃ y, readNum (showNum x) = some y := by
    obtain ⟨y, h, _⟩ := C83_number x
    exact ⟨y, h⟩
  obtain ⟨y, h⟩ := h
  refine ⟨?_, ?_, ?_, ?_⟩ <;>
  · intro e
    rw [e] at h
    revert h
    rw [show readNum _ = none by decide +kernel]
    simp

theorem readAny_showNum (x : ℚ) : readAny (showNum x) = (readNum (showNum x)).map .num := by
  obtain ⟨h1, h2, h3, h4⟩ := showNum_plain x
  unfold readAny
  rw [if_neg h1, if_neg h2, if_neg (by rintro (h | h); exacts [h3 h, h4 h])]

/-- C89, values: whatever is written for a value is read as the value, numbers to six digits. -/
theorem C89_value {e : Ext ℚ} {s : Str} (h : Writes e s) : Displays s e := by
  cases h with
  | num x =>
    obtain ⟨y, h1, h2, h3⟩ := C83_number x
    exact ⟨y, by rw [readAny_showNum, h1]; rfl, h2, h3⟩
  | minusZero => exact ⟨0, by decide +kernel, by norm_num, fun _ => rfl⟩
  | inf => show readAny _ = _; decide +kernel
  | minusInf => show readAny _ = _; decide +kernel
  | nan => show readAny _ = _; decide +kernel
  | minusNan => show readAny _ = _; decide +kernel

/-- C89, kinds: what is read as infinite was infinite, what is read as not a number was not a number, and what is read as a number was a number. -/
theorem C89_told {e f : Ext ℚ} {s : Str} (h : Writes e s) (hr : readAny s = some f) :
    (∀ b, f = .inf b → e = .inf b) ∧ (f = .nan → e = .nan) ∧ ∀ y, f = .num y → ∃ x, e = .num x ∧ |y - x| ≤ 5 / 10 ^ 6 * |x| := by
  have hd := C89_value h
  cases e with
  | num x =>
    obtain ⟨y, h1, h2, _⟩ := hd
    rw [h1] at hr
    cases hr
    exact ⟨fun b e => (by cases e), fun e => (by cases e), fun y e => (by cases e; exact ⟨x, rfl, h2⟩)⟩
  | inf b =>
    rw [show readAny s = _ from hd] at hr
    cases hr
    exact ⟨fun b e => e, fun e => (by cases e), fun y e => (by cases e)⟩
  | nan =>
    rw [show readAny s = _ from hd] at hr
    cases hr
    exact ⟨fun b e => e, fun e => e, fun y e => (by cases e)⟩

theorem writes_clean {e : Ext ℚ} {s : Str} (h : Writes e s) : (44 : UInt8) ∉ s ∧ (10 : UInt8) ∉ s := by
  cases h with
  | num x => exact showNum_clean x
  | _ => decide +kernel

theorem forall₂_split {α β γ : Type} {P : α → β → Prop} {f : γ → α} {l : List γ} {s : List β} (h : List.Forall₂ P (l.map f) s) : List.Forall₂ (fun x y => P (f x) y) l s :=
  List.forall₂_map_left_iff.1 h

theorem forall₂_imp' {α β : Type} {P Q : α → β → Prop} (hi : ∀ a b, P a b → Q a b) {l : List α} {s : List β} (h : List.Forall₂ P l s) : List.Forall₂ Q l s := by
  induction h with
  | nil => exact .nil
  | cons a _ ih => exact .cons (hi _ _ a) ih

theorem mem_right {α β : Type} {P : α → β → Prop} {l : List α} {s : List β} (h : List.Forall₂ P l s) : ∀ b ∈ s, ∃ a ∈ l, P a b := by
  induction h with
  | nil => intro b hb; cases hb
  | cons a _ ih =>
    intro b hb
    rcases List.mem_cons.1 hb with rfl | hb
    · exact ⟨_, .head _, a⟩
    · obtain ⟨x, hx, hp⟩ := ih b hb
      exact ⟨x, .tail _ hx, hp⟩

theorem get_rel {α β : Type} {P : α → β → Prop} {l : List α} {s : List β} (h : List.Forall₂ P l s) (k : Nat) : Option.Rel (fun b a => P a b) s[k]? l[k]? := by
  induction h generalizing k with
  | nil => exact .none
  | cons a _ ih =>
    cases k with
    | zero => exact .some a
    | succ k => exact ih k

/-- C89: under the hypotheses of C51 (rows recorded without gaps, then `shrink_to_fit`), whatever the signals were named and whatever the
order of the hash map, splitting the file gives the headings and the recorded values. -/
theorem C89_file [Arith (Ext ℚ)] (ty : SigId → Ty) (grow : Nat) (hg : 1 ≤ grow) (sigs : List SigId) (hs : sigs ≠ []) (hn : sigs.Nodup)
    (ops : List (HOp (Ext ℚ))) (hp : Proper ty grow sigs ops) (he : ¬ Early ops) (hu : Used ops) (h : Hist (Ext ℚ))
    (hr : runOps ops (Hist.tracking grow sigs) = .ok () h) (hall : ∀ k, k < h.nrows → lastAt ops k ≠ none)
    (order : List (SigId × Rows (List (Ext ℚ))) → List (SigId × Rows (List (Ext ℚ)))) (hord : ∀ l, (order l).Perm l)
    (name : SigId → NamedObject) (hname : ∀ i, Named (name i)) :
    ∃ (csv : Csv (Ext ℚ)) (ks : List SigId), exportCsv ty order (histShrink h) = .ok (some csv) ∧ ks.Perm sigs ∧ (∃ s, csv.Texts Writes name s) ∧
      ∀ s, csv.Texts Writes name s → ∃ heads rows : List (List Str), table s = (str "time" :: heads.flatten) :: rows ∧
        List.Forall₂ (fun i l => Headings (name i).nm.name (ty i) l) ks heads ∧
        ∀ k, Option.Rel (fun row p => List.Forall₂ Displays row (p.2 :: ks.flatMap (fun i => sample (p.1.sig i)))) rows[k]? (lastAt ops k) := by
  obtain ⟨csv, ks, h1, h2, h3, h4⟩ := C51.C51_complete_partial ty grow hg sigs hs hn ops hp he hu h hr hall order hord
  have hsome : ∀ l ∈ csv.lines, ∃ (t : Ext ℚ) (vs : List (Ext ℚ)), l = (some t, vs.map some) := by
    intro l hl
    obtain ⟨k, hk⟩ := List.getElem?_of_mem hl
    rw [h4 k] at hk
    obtain ⟨p, -, rfl⟩ := Option.map_eq_some_iff.1 hk
    refine ⟨p.2, ks.flatMap (fun i => sample (p.1.sig i)), ?_⟩
    rw [List.map_flatMap]
  have hw : ∀ e : Ext ℚ, ∃ s, Writes e s := by
    intro e
    cases e with
    | num x => exact ⟨_, .num x⟩
    | inf b => cases b <;> exact ⟨_, by constructor⟩
    | nan => exact ⟨_, .nan⟩
  have hc : ∀ v : Option (Ext ℚ), ∃ s, CellText Writes v s := fun v => by
    cases v with
    | none => exact ⟨[], trivial⟩
    | some e => exact hw e
  have hl : ∀ l : List (Option (Ext ℚ)), ∃ s, List.Forall₂ (CellText Writes) l s := fun l => by
    induction l with
    | nil => exact ⟨_, .nil⟩
    | cons v l ih =>
      obtain ⟨s, hs⟩ := ih
      obtain ⟨c, hc⟩ := hc v
      exact ⟨_, .cons hc hs⟩
  have hls : ∀ ls : List (Option (Ext ℚ) × List (Option (Ext ℚ))), ∃ rows : List (Str × List Str),
      List.Forall₂ (fun l r => CellText Writes l.1 r.1 ∧ List.Forall₂ (CellText Writes) l.2 r.2) ls rows := fun ls => by
    induction ls with
    | nil => exact ⟨_, .nil⟩
    | cons v l ih =>
      obtain ⟨s, hs⟩ := ih
      obtain ⟨c, hc⟩ := hc v.1
      obtain ⟨r, hr⟩ := hl v.2
      exact ⟨_, .cons (b := (c, r)) ⟨hc, hr⟩ hs⟩
  obtain ⟨rows0, hr0⟩ := hls csv.lines
  refine ⟨csv, ks, h1, h2, ⟨_, rows0, hr0, rfl⟩, ?_⟩
  rintro _ ⟨rows, hrows, rfl⟩
  -- each field is written for a value
  have hrow : ∀ r ∈ rows, ∀ p ∈ r.1 :: r.2, ∃ e, Writes e p := by
    intro r hr p hp
    obtain ⟨l, hl, k1, k2⟩ := mem_right hrows r hr
    obtain ⟨t, vs, rfl⟩ := hsome l hl
    rcases List.mem_cons.1 hp with rfl | hp
    · exact ⟨t, k1⟩
    · obtain ⟨e, _, he⟩ := mem_right (forall₂_split k2) p hp
      exact ⟨e, he⟩
  refine ⟨ks.map (fun i => (match ty i with
        | .array n => (List.range n).map (fun c => (⟨i, some c⟩ : Field))
        | _ => [⟨i, none⟩]).map (Field.text name)),
    rows.map (fun r => r.1 :: r.2), ?_, ?_, fun k => ?_⟩
  · have e : str "time" ++ csv.header.flatMap (fun f => 44 :: f.text name) ++ [10] ++ rows.flatMap (fun r => r.1 ++ r.2.flatMap (fun v => 44 :: v) ++ [10]) =
        ((str "time", csv.header.map (Field.text name)) :: rows).flatMap (fun r => r.1 ++ r.2.flatMap (fun p => 44 :: p) ++ [10]) := by
      rw [List.flatMap_cons]
      simp only [List.flatMap_map]
    rw [e, table_text, List.map_cons, h3, List.map_flatMap]
    · rfl
    · intro r hr p hp
      rcases List.mem_cons.1 hr with rfl | hr
      · rcases List.mem_cons.1 hp with rfl | hp
        · show (44 : UInt8) ∉ str "time" ∧ (10 : UInt8) ∉ str "time"
          decide +kernel
        · obtain ⟨f, -, rfl⟩ := List.mem_map.1 hp
          exact fieldText_clean hname f
      · obtain ⟨e, he⟩ := hrow r hr p hp
        exact writes_clean he
  · rw [List.forall₂_map_right_iff]
    exact List.forall₂_same.2 fun i _ => headings name ty i
  · have := get_rel hrows k
    rw [h4 k] at this
    rw [List.getElem?_map]
    generalize rows[k]? = r at this
    cases hl : lastAt ops k with
    | none =>
      rw [hl] at this
      cases this
      exact .none
    | some p =>
      rw [hl] at this
      cases this with
      | some q =>
        obtain ⟨q1, q2⟩ := q
        refine .some (.cons (C89_value q1) ?_)
        dsimp only at q2
        rw [← List.map_flatMap] at q2
        have q3 := forall₂_split (P := CellText Writes) q2
        exact List.Forall₂.flip (forall₂_imp' (fun _ _ k => C89_value k) q3)

/-! ## Examples -/

/-- A scalar signal and an array. -/
def world (a b : Ext ℚ) : World (Ext ℚ) where
  sig s := if s = 0 then ⟨.scalar, true, some (.scalar a)⟩ else ⟨.array 2, true, some (.array [a, b])⟩
  mem _ := { value := .scalar (.num 0) }
  done _ := false
  log := []

/-- Two rows, the second with an infinity and a not-a-number. -/
def rows : List (HOp (Ext ℚ)) := [.update (world (.num (1/3)) (.num 0)) 0 (.num 0), .update (world (.inf false) .nan) 1 (.num (1/2))]

theorem rows_proper : Proper C48.types 10 [0, 1] rows := by
  have : ∀ a b, ∀ s ∈ [0, 1], ((world a b).sig s).proper ∧ ((world a b).sig s).ty = C48.types s := by
    intro a b s hs
    rcases List.mem_cons.1 hs with rfl | hs
    · exact ⟨fun _ => ⟨.scalar a, rfl, rfl, rfl⟩, rfl⟩
    · rcases List.mem_cons.1 hs with rfl | hs
      · exact ⟨fun _ => ⟨.array [a, b], rfl, rfl, rfl⟩, rfl⟩
      · cases hs
  intro w k t hm
  simp only [rows, List.mem_cons, HOp.update.injEq, List.not_mem_nil, or_false] at hm
  rcases hm with ⟨rfl, rfl, rfl⟩ | ⟨rfl, rfl, rfl⟩
  · exact ⟨by omega, this _ _⟩
  · exact ⟨by omega, this _ _⟩

theorem rows_early : ¬ Early rows := by
  rintro ⟨a, b, h, hu⟩
  cases a with
  | nil => cases h
  | cons o a =>
    simp only [rows, List.cons_append, List.cons.injEq] at h
    exact hu ⟨_, _, _, by rw [← h.1]; exact List.mem_cons_self⟩

section
local instance : Arith (Ext ℚ) := Arith.extended id (10 ^ 300)

theorem rows_run : ∃ h, runOps rows (Hist.tracking 10 [0, 1]) = .ok () h ∧ h.nrows = 2 := by
  have h : runOps rows (Hist.tracking 10 [0, 1] : Hist (Ext ℚ)) = _ := eq_of_returns (by decide +kernel)
  exact ⟨_, h, by decide +kernel⟩

/-- Whatever the signals are called, the second line is read as 1/2, minus infinity (twice) and not a number. -/
example : ∃ (h : Hist (Ext ℚ)) (csv : Csv (Ext ℚ)) (ks : List SigId), exportCsv C48.types List.reverse (histShrink h) = .ok (some csv) ∧ ks.Perm [0, 1] ∧
    (∃ s, csv.Texts Writes names s) ∧ ∀ s, csv.Texts Writes names s → ∃ row, (table s)[2]? = some row ∧
      List.Forall₂ Displays row (.num (1/2) :: ks.flatMap (fun i => if i = 0 then [.inf false] else [.inf false, .nan])) := by
  obtain ⟨h, h1, hn⟩ := rows_run
  obtain ⟨csv, ks, e1, e2, e3, e4⟩ := C89_file C48.types 10 (by omega) [0, 1] (by simp) (by decide) rows rows_proper rows_early
    ⟨_, _, _, List.mem_cons_self⟩ h h1 (fun k hk => by
      have : k = 0 ∨ k = 1 := by omega
      rcases this with rfl | rfl <;> simp [rows, lastAt]) List.reverse (fun l => List.reverse_perm l) names names_named
  refine ⟨h, csv, ks, e1, e2, e3, fun s hs => ?_⟩
  obtain ⟨heads, rs, f1, _, f3⟩ := e4 s hs
  have := f3 1
  rw [show lastAt rows 1 = some (world (.inf false) .nan, .num (1/2)) from rfl] at this
  cases hr : rs[1]? with
  | none => rw [hr] at this; cases this
  | some row =>
    rw [hr] at this
    cases this with
    | some g =>
      refine ⟨row, by rw [f1]; exact hr, ?_⟩
      convert g using 4 with i
      by_cases hi : i = 0
      · subst hi; rfl
      · simp [hi, world, sample, Val.coeffs]

end

example : Writes (.inf false) (str "-inf") ∧ readAny (str "-inf") = some (.inf false) := ⟨.minusInf, by decide +kernel⟩

example : readAny (str "1e+300") = some (.num (10 ^ 300)) := by decide +kernel

end Pooya.C89
