import Verif.Model.Text
import Verif.Spec.Text
import Verif.Proof.Binary
import Mathlib.Tactic.Linarith
import Mathlib.Tactic.Ring
import Mathlib.Tactic.FieldSimp

/-! Lemmas about writing and reading numbers and tables. -/

namespace Pooya.Reading

/-! ### Separators -/

theorem pieces_ne (c : UInt8) (s : Str) : pieces c s ≠ [] := by
  cases s with
  | nil => simp [pieces]
  | cons a s =>
    unfold pieces
    split
    · simp
    · split <;> simp

theorem pieces_pure {c : UInt8} {p : Str} (h : c ∉ p) : pieces c p = [p] := by
  induction p with
  | nil => rfl
  | cons a p ih =>
    simp only [List.mem_cons, not_or] at h
    unfold pieces
    rw [if_neg (fun e => h.1 e.symm), ih h.2]

theorem pieces_sep {c : UInt8} {p : Str} (h : c ∉ p) (s : Str) : pieces c (p ++ c :: s) = p :: pieces c s := by
  induction p with
  | nil =>
    show pieces c (c :: s) = _
    rw [pieces, if_pos rfl]
  | cons a p ih =>
    simp only [List.mem_cons, not_or] at h
    show pieces c (a :: (p ++ c :: s)) = _
    rw [pieces, if_neg (fun e => h.1 e.symm), ih h.2]

theorem pieces_fields {c : UInt8} {a : Str} (ha : c ∉ a) {l : List Str} (hl : ∀ p ∈ l, c ∉ p) :
    pieces c (a ++ l.flatMap (fun p => c :: p)) = a :: l := by
  induction l generalizing a with
  | nil => simpa using pieces_pure ha
  | cons p l ih =>
    rw [List.flatMap_cons, List.cons_append, pieces_sep ha, ih (hl p (by simp)) (fun q hq => hl q (by simp [hq]))]

theorem pieces_lines {c : UInt8} {l : List Str} (hl : ∀ p ∈ l, c ∉ p) :
    pieces c (l.flatMap (fun p => p ++ [c])) = l ++ [[]] := by
  induction l with
  | nil => rfl
  | cons p l ih =>
    rw [List.flatMap_cons, List.append_assoc, List.singleton_append, pieces_sep (hl p (by simp)), ih (fun q hq => hl q (by simp [hq]))]
    rfl

/-- A table written with commas and line feeds is read back. -/
theorem table_text {rows : List (Str × List Str)} (h : ∀ r ∈ rows, ∀ p ∈ r.1 :: r.2, (44 : UInt8) ∉ p ∧ (10 : UInt8) ∉ p) :
    table (rows.flatMap (fun r => r.1 ++ r.2.flatMap (fun p => 44 :: p) ++ [10])) = rows.map (fun r => r.1 :: r.2) := by
  have e : rows.flatMap (fun r => r.1 ++ r.2.flatMap (fun p => 44 :: p) ++ [10])
      = (rows.map (fun r => r.1 ++ r.2.flatMap (fun p => 44 :: p))).flatMap (fun p => p ++ [10]) := by
    rw [List.flatMap_map]
  unfold table
  rw [e, pieces_lines, List.dropLast_concat, List.map_map]
  · refine List.map_congr_left (fun r hr => ?_)
    exact pieces_fields (h r hr _ (by simp)).1 (fun p hp => (h r hr p (by simp [hp])).1)
  · intro p hp
    obtain ⟨r, hr, rfl⟩ := List.mem_map.1 hp
    intro hm
    rcases List.mem_append.1 hm with hm | hm
    · exact (h r hr _ (by simp)).2 hm
    · obtain ⟨q, hq, hm⟩ := List.mem_flatMap.1 hm
      rcases List.mem_cons.1 hm with hm | hm
      · exact absurd hm (by decide)
      · exact (h r hr q (by simp [hq])).2 hm

/-! ### Digits -/

theorem value_append (s t : Str) : value (s ++ t) = value s * 10 ^ t.length + value t := by
  have h : ∀ (t : Str) (v : Nat), t.foldl (fun v c => 10 * v + (c.toNat - 48)) v = v * 10 ^ t.length + value t := by
    intro t
    induction t with
    | nil => intro v; simp [value]
    | cons c t ih =>
      intro v
      unfold value
      rw [List.foldl_cons, List.foldl_cons, ih, ih, List.length_cons]
      ring
  unfold value
  rw [List.foldl_append, h]
  rfl

theorem value_zeros (k : Nat) : value (List.replicate k 48) = 0 := by
  induction k with
  | zero => rfl
  | succ k ih => rw [List.replicate_succ', value_append, ih]; rfl

theorem digit_toNat {d : Nat} (h : d < 10) : (UInt8.ofNat (48 + d)).toNat = 48 + d := by
  rw [UInt8.toNat_ofNat']; omega

theorem digit_is {d : Nat} (h : d < 10) : IsDigit (UInt8.ofNat (48 + d)) := by
  unfold IsDigit
  rw [UInt8.le_iff_toNat_le, UInt8.le_iff_toNat_le, digit_toNat h]
  constructor
  · show 48 ≤ 48 + d; omega
  · show 48 + d ≤ 57; omega

theorem value_digit {d : Nat} (h : d < 10) : value [UInt8.ofNat (48 + d)] = d := by
  show 10 * 0 + ((UInt8.ofNat (48 + d)).toNat - 48) = d
  rw [digit_toNat h]; omega

theorem padded_digits (k n : Nat) : ∀ c ∈ padded k n, IsDigit c := by
  fun_induction padded k n with
  | case1 k n h =>
    intro c hc
    rcases List.mem_append.1 hc with hc | hc
    · rw [List.eq_of_mem_replicate hc]; decide
    · rw [List.mem_singleton.1 hc]; exact digit_is h
  | case2 k n h ih =>
    intro c hc
    rcases List.mem_append.1 hc with hc | hc
    · exact ih c hc
    · rw [List.mem_singleton.1 hc]; exact digit_is (Nat.mod_lt _ (by omega))

theorem padded_value (k n : Nat) : value (padded k n) = n := by
  fun_induction padded k n with
  | case1 k n h => rw [value_append, value_zeros, value_digit h]; omega
  | case2 k n h ih =>
    rw [value_append, ih, value_digit (Nat.mod_lt _ (by omega))]
    show n / 10 * 10 ^ 1 + n % 10 = n
    omega

theorem padded_ne (k n : Nat) : padded k n ≠ [] := by
  unfold padded
  split <;> simp

theorem padded_length (k n : Nat) (hk : 1 ≤ k) (hn : n < 10 ^ k) : (padded k n).length = k := by
  fun_induction padded k n with
  | case1 k n h => simp; omega
  | case2 k n h ih =>
    have h2 : 2 ≤ k := by
      by_contra h2
      have : k = 1 := by omega
      subst this
      omega
    rw [List.length_append, ih (by omega) (by
      have : 10 ^ k = 10 * 10 ^ (k - 1) := by rw [← Nat.pow_succ']; congr 1; omega
      omega)]
    show k - 1 + 1 = k
    omega

theorem dropZeros_eq (s : Str) : ∃ k, s = dropZeros s ++ List.replicate k 48 := by
  refine ⟨(s.reverse.takeWhile (· == 48)).length, ?_⟩
  have h := List.takeWhile_append_dropWhile (p := (· == (48 : UInt8))) (l := s.reverse)
  have hr : s.reverse.takeWhile (· == 48) = List.replicate (s.reverse.takeWhile (· == 48)).length 48 := by
    refine List.eq_replicate_iff.2 ⟨rfl, fun c hc => ?_⟩
    simpa using List.all_eq_true.1 (List.all_takeWhile (l := s.reverse) (p := (· == (48 : UInt8)))) c hc
  unfold dropZeros
  conv_lhs => rw [← List.reverse_reverse s, ← h, List.reverse_append, hr, List.reverse_replicate]

theorem cut_pure {c : UInt8} {a : Str} (h : c ∉ a) : cut c a = (a, none) := by
  induction a with
  | nil => rfl
  | cons b a ih =>
    simp only [List.mem_cons, not_or] at h
    rw [cut, if_neg (fun e => h.1 e.symm), ih h.2]

theorem cut_sep {c : UInt8} {a : Str} (h : c ∉ a) (s : Str) : cut c (a ++ c :: s) = (a, some s) := by
  induction a with
  | nil => show cut c (c :: s) = _; rw [cut, if_pos rfl]
  | cons b a ih =>
    simp only [List.mem_cons, not_or] at h
    show cut c (b :: (a ++ c :: s)) = _
    rw [cut, if_neg (fun e => h.1 e.symm), ih h.2]

theorem not_digit {c : UInt8} (h : ¬ IsDigit c) {s : Str} (hs : ∀ d ∈ s, IsDigit d) : c ∉ s := fun hm => h (hs c hm)

theorem dropZeros_sub {s : Str} {c : UInt8} (h : c ∈ dropZeros s) : c ∈ s := by
  obtain ⟨k, hk⟩ := dropZeros_eq s
  rw [hk]; exact List.mem_append_left _ h

/-- Digits, a point and further digits, without the zeros at the end, are read as what they stand for. -/
theorem readDecimal_pointed {a f : Str} (ha : a ≠ []) (hd : ∀ c ∈ a ++ f, IsDigit c) :
    readDecimal (a ++ pointed f) = some ((value (a ++ f) : ℚ) / 10 ^ f.length) := by
  have had : ∀ c ∈ a, IsDigit c := fun c hc => hd c (List.mem_append_left _ hc)
  obtain ⟨k, hk⟩ := dropZeros_eq f
  have hv : (value (a ++ f) : ℚ) / 10 ^ f.length = (value (a ++ dropZeros f) : ℚ) / 10 ^ (dropZeros f).length := by
    have h1 : value (a ++ f) = value (a ++ dropZeros f) * 10 ^ k := by
      conv_lhs => rw [hk, ← List.append_assoc, value_append, value_zeros, List.length_replicate, Nat.add_zero]
    have h2 : f.length = (dropZeros f).length + k := by
      conv_lhs => rw [hk, List.length_append, List.length_replicate]
    rw [h1, h2, pow_add]
    push_cast
    have h3 : (10 : ℚ) ^ k ≠ 0 := by positivity
    have h4 : (10 : ℚ) ^ (dropZeros f).length ≠ 0 := by positivity
    field_simp
  rw [hv]
  unfold pointed
  by_cases h : dropZeros f = []
  · rw [if_pos h, h, List.append_nil]
    unfold readDecimal
    rw [cut_pure (not_digit (by decide) had)]
    dsimp only
    rw [Option.getD_none, if_pos ⟨ha, by simpa using had⟩, List.append_nil]
  · rw [if_neg h]
    unfold readDecimal
    rw [cut_sep (not_digit (by decide) had)]
    dsimp only
    rw [Option.getD_some, if_pos]
    refine ⟨ha, fun c hc => ?_⟩
    rcases List.mem_append.1 hc with hc | hc
    · exact had c hc
    · exact hd c (List.mem_append_right _ (dropZeros_sub hc))

/-! ### Six digits -/

theorem scientific_spec {x : ℚ} (hx : 0 < x) :
    100000 ≤ (scientific x).2 ∧ (scientific x).2 < 1000000 ∧
      |((scientific x).2 : ℚ) * 10 ^ ((scientific x).1 - 5) - x| ≤ 5 / 10 ^ 6 * x := by
  have h1 := Int.zpow_log_le_self (b := 10) (by norm_num) hx
  have h2 := Int.lt_zpow_succ_log_self (b := 10) (by norm_num) x
  generalize he : Int.log 10 x = e at h1 h2
  push_cast at h1 h2
  have hp : (0 : ℚ) < 10 ^ (e - 5) := zpow_pos (by norm_num) _
  have e1 : (10 : ℚ) ^ e = 10 ^ 5 * 10 ^ (e - 5) := by
    rw [← zpow_natCast, ← zpow_add₀ (by norm_num)]; congr 1; push_cast; ring
  have e2 : (10 : ℚ) ^ (e + 1) = 10 ^ 6 * 10 ^ (e - 5) := by
    rw [← zpow_natCast, ← zpow_add₀ (by norm_num)]; congr 1; push_cast; ring
  rw [e1] at h1
  rw [e2] at h2
  set y : ℚ := x / 10 ^ (e - 5) with hy
  have hxy : x = y * 10 ^ (e - 5) := by rw [hy]; field_simp
  have y1 : ((100000 : ℤ) : ℚ) ≤ y := by rw [hy, le_div_iff₀ hp]; push_cast; linarith
  have y2 : y ≤ ((1000000 : ℤ) : ℚ) := by rw [hy, div_le_iff₀ hp]; push_cast; linarith
  have n1 := nearest_mono y1
  have n2 := nearest_mono y2
  rw [nearest_int] at n1 n2
  have hn := nearest_near y
  obtain ⟨n, hnn⟩ : ∃ n : ℕ, nearest y = n := ⟨(nearest y).toNat, by omega⟩
  have herr : |(n : ℚ) * 10 ^ (e - 5) - x| ≤ 5 / 10 ^ 6 * x := by
    rw [hnn] at hn
    push_cast at hn
    rw [hxy, ← sub_mul, abs_mul, abs_of_pos hp]
    have : |(n : ℚ) - y| ≤ 5 / 10 ^ 6 * y := by
      push_cast at y1
      linarith
    nlinarith
  unfold scientific
  rw [he]
  dsimp only
  rw [← hy, hnn, Int.toNat_natCast]
  rw [hnn] at n1 n2
  by_cases h : n = 1000000
  · rw [if_pos h]
    refine ⟨by norm_num, by norm_num, ?_⟩
    have : ((100000 : ℕ) : ℚ) * 10 ^ (e + 1 - 5) = (n : ℚ) * 10 ^ (e - 5) := by
      rw [h, show e + 1 - 5 = (e - 5) + 1 by ring, zpow_add_one₀ (by norm_num)]; push_cast; ring
    rw [this]; exact herr
  · rw [if_neg h]
    exact ⟨by dsimp only; omega, by dsimp only; omega, herr⟩

/-- The number written for `x`. -/
def six (x : ℚ) : ℚ := ((scientific x).2 : ℚ) * 10 ^ ((scientific x).1 - 5)

theorem natAbs_neg_cast {X : ℤ} (h : X < 0) : -(X.natAbs : ℤ) = X := by omega

theorem readPos_showPos {x : ℚ} (hx : 0 < x) : readPos (showPos x) = some (six x) := by
  obtain ⟨n1, n2, -⟩ := scientific_spec hx
  unfold showPos six
  generalize (scientific x).1 = X
  generalize (scientific x).2 = n at n1 n2
  dsimp only
  have hd := padded_digits 6 n
  have hv := padded_value 6 n
  have hl := padded_length 6 n (by omega) (by omega)
  generalize padded 6 n = ds at hd hv hl
  have hsplit : ∀ k, ds.take k ++ ds.drop k = ds := fun k => List.take_append_drop k ds
  have hne : ∀ k, ds.take (k + 1) ≠ [] := by
    intro k e
    have := congrArg List.length e
    rw [List.length_take, hl] at this
    simp at this
  have hno : ∀ (c : UInt8), c ≠ 46 → ¬ IsDigit c → ∀ a f : Str, (∀ d ∈ a ++ f, IsDigit d) → c ∉ a ++ pointed f := by
    intro c h1 h2 a f had hm
    rcases List.mem_append.1 hm with hm | hm
    · exact h2 (had c (List.mem_append_left _ hm))
    · unfold pointed at hm
      split at hm
      · cases hm
      · rcases List.mem_cons.1 hm with hm | hm
        · exact h1 hm
        · exact h2 (had c (List.mem_append_right _ (dropZeros_sub hm)))
  split
  · -- with exponent
    rename_i hX
    have hdd : ∀ d ∈ ds.take 1 ++ ds.drop 1, IsDigit d := by rw [hsplit]; exact hd
    have hr := readDecimal_pointed (hne 0) hdd
    rw [zero_add, hsplit, hv, List.length_drop, hl] at hr
    have he : ds.take 1 ++ pointed (ds.drop 1) ++ [101, if X < 0 then 45 else 43] ++ padded 2 X.natAbs
        = (ds.take 1 ++ pointed (ds.drop 1)) ++ 101 :: ((if X < 0 then 45 else 43) :: padded 2 X.natAbs) := by simp
    rw [he]
    unfold readPos
    rw [cut_sep (hno 101 (by decide) (by decide) _ _ hdd)]
    dsimp only
    rw [hr]
    have hk : readExponent ((if X < 0 then 45 else 43) :: padded 2 X.natAbs) = some X := by
      unfold readExponent
      dsimp only
      rw [if_pos ⟨padded_ne _ _, padded_digits _ _⟩, padded_value]
      by_cases h : X < 0
      · rw [if_pos h, if_pos rfl, natAbs_neg_cast h]
      · rw [if_neg h, if_neg (by decide), if_pos rfl]; congr 1; omega
    show (readExponent _).bind _ = _
    rw [hk]
    show some _ = some _
    congr 1
    rw [zpow_sub₀ (by norm_num)]
    norm_num
    ring
  · rename_i hX
    split
    · -- below one
      rename_i h0
      have hdd : ∀ d ∈ [48] ++ (List.replicate (X.natAbs - 1) 48 ++ ds), IsDigit d := by
        intro d hm
        rcases List.mem_append.1 hm with hm | hm
        · rw [List.mem_singleton.1 hm]; decide
        · rcases List.mem_append.1 hm with hm | hm
          · rw [List.eq_of_mem_replicate hm]; decide
          · exact hd d hm
      have hr := readDecimal_pointed (a := [48]) (by simp) hdd
      rw [show (48 : UInt8) :: pointed (List.replicate (X.natAbs - 1) 48 ++ ds) = [48] ++ pointed (List.replicate (X.natAbs - 1) 48 ++ ds) from rfl]
      unfold readPos
      rw [cut_pure (hno 101 (by decide) (by decide) _ _ hdd)]
      dsimp only
      rw [hr, value_append, value_append, value_zeros, hv, List.length_append, List.length_replicate, hl]
      congr 1
      have hX5 : X - 5 = -((X.natAbs - 1 + 6 : ℕ) : ℤ) := by omega
      rw [hX5, zpow_neg, zpow_natCast]
      simp [value, div_eq_mul_inv]
    · rename_i h0
      obtain ⟨k, rfl⟩ : ∃ k : ℕ, X = k := ⟨X.toNat, by omega⟩
      have hk : k ≤ 5 := by omega
      rw [Int.toNat_natCast]
      have hdd : ∀ d ∈ ds.take (k + 1) ++ ds.drop (k + 1), IsDigit d := by rw [hsplit]; exact hd
      have hr := readDecimal_pointed (hne k) hdd
      unfold readPos
      rw [cut_pure (hno 101 (by decide) (by decide) _ _ hdd)]
      dsimp only
      rw [hr, hsplit, hv, List.length_drop, hl]
      congr 1
      have hX5 : (k : ℤ) - 5 = -((6 - (k + 1) : ℕ) : ℤ) := by omega
      rw [hX5, zpow_neg, zpow_natCast, div_eq_mul_inv]

theorem showPos_chars {x : ℚ} : ∀ c ∈ showPos x, IsDigit c ∨ c = 46 ∨ c = 101 ∨ c = 45 ∨ c = 43 := by
  have hp : ∀ f : Str, (∀ d ∈ f, IsDigit d) → ∀ c ∈ pointed f, IsDigit c ∨ c = 46 := by
    intro f hf c hm
    unfold pointed at hm
    split at hm
    · cases hm
    · rcases List.mem_cons.1 hm with hm | hm
      · exact .inr hm
      · exact .inl (hf c (dropZeros_sub hm))
  intro c hc
  unfold showPos at hc
  dsimp only at hc
  have hd := padded_digits 6 (scientific x).2
  generalize padded 6 (scientific x).2 = ds at hd hc
  generalize (scientific x).1 = X at hc
  split at hc
  · simp only [List.mem_append, List.mem_cons, List.not_mem_nil, or_false] at hc
    rcases hc with ((hc | hc) | hc | hc) | hc
    · exact .inl (hd c (List.mem_of_mem_take hc))
    · rcases hp _ (fun d hm => hd d (List.mem_of_mem_drop hm)) c hc with h | h
      · exact .inl h
      · exact .inr (.inl h)
    · exact .inr (.inr (.inl hc))
    · split at hc
      · exact .inr (.inr (.inr (.inl hc)))
      · exact .inr (.inr (.inr (.inr hc)))
    · exact .inl (padded_digits _ _ c hc)
  · split at hc
    · rcases List.mem_cons.1 hc with rfl | hc
      · exact .inl (by decide)
      · rcases hp _ (fun d hm => by
          rcases List.mem_append.1 hm with hm | hm
          · rw [List.eq_of_mem_replicate hm]; decide
          · exact hd d hm) c hc with h | h
        · exact .inl h
        · exact .inr (.inl h)
    · rcases List.mem_append.1 hc with hc | hc
      · exact .inl (hd c (List.mem_of_mem_take hc))
      · rcases hp _ (fun d hm => hd d (List.mem_of_mem_drop hm)) c hc with h | h
        · exact .inl h
        · exact .inr (.inl h)

theorem showPos_head {x : ℚ} (hx : 0 < x) : ∃ c s, showPos x = c :: s ∧ IsDigit c := by
  obtain ⟨n1, n2, -⟩ := scientific_spec hx
  unfold showPos
  dsimp only
  have hd := padded_digits 6 (scientific x).2
  have hn := padded_ne 6 (scientific x).2
  generalize padded 6 (scientific x).2 = ds at hd hn
  cases ds with
  | nil => exact (hn rfl).elim
  | cons c s =>
    split
    · exact ⟨c, _, rfl, hd c (by simp)⟩
    · split
      · exact ⟨48, _, rfl, by decide⟩
      · exact ⟨c, _, rfl, hd c (by simp)⟩

/-- The number written for `x` is a multiple of the place of its sixth digit. -/
theorem six_eq {x : ℚ} (hx : 0 < x) : six x = (nearest (x / 10 ^ (Int.log 10 x - 5)) : ℚ) * 10 ^ (Int.log 10 x - 5) := by
  have h1 := Int.zpow_log_le_self (b := 10) (by norm_num) hx
  unfold six scientific
  generalize Int.log 10 x = e at h1
  push_cast at h1
  have hp : (0 : ℚ) < 10 ^ (e - 5) := zpow_pos (by norm_num) _
  have h0 : 0 ≤ nearest (x / 10 ^ (e - 5)) := by
    have : ((0 : ℤ) : ℚ) ≤ x / 10 ^ (e - 5) := by push_cast; exact div_nonneg hx.le hp.le
    have := nearest_mono this
    rwa [nearest_int] at this
  obtain ⟨n, hn⟩ : ∃ n : ℕ, nearest (x / 10 ^ (e - 5)) = n := ⟨_, (Int.toNat_of_nonneg h0).symm⟩
  dsimp only
  rw [hn, Int.toNat_natCast]
  split
  · rename_i h
    rw [h, show e + 1 - 5 = (e - 5) + 1 by ring, zpow_add_one₀ (by norm_num)]; push_cast; ring
  · rw [Int.cast_natCast]

theorem six_le {x : ℚ} (hx : 0 < x) {a : ℤ} (ha : Int.log 10 x < a) : six x ≤ 10 ^ a := by
  have h2 := Int.lt_zpow_succ_log_self (b := 10) (by norm_num) x
  rw [six_eq hx]
  generalize Int.log 10 x = e at h2 ha
  push_cast at h2
  have hp : (0 : ℚ) < 10 ^ (e - 5) := zpow_pos (by norm_num) _
  have e2 : (10 : ℚ) ^ (e + 1) = 10 ^ 6 * 10 ^ (e - 5) := by
    rw [← zpow_natCast, ← zpow_add₀ (by norm_num)]; congr 1; push_cast; ring
  have hy : x / 10 ^ (e - 5) ≤ ((1000000 : ℤ) : ℚ) := by
    rw [div_le_iff₀ hp]; push_cast; linarith
  have hn := nearest_mono hy
  rw [nearest_int] at hn
  have hn' : (nearest (x / 10 ^ (e - 5)) : ℚ) ≤ 10 ^ 6 := by
    have : ((nearest (x / 10 ^ (e - 5)) : ℤ) : ℚ) ≤ ((1000000 : ℤ) : ℚ) := by exact_mod_cast hn
    push_cast at this; linarith
  calc _ ≤ (10 : ℚ) ^ 6 * 10 ^ (e - 5) := mul_le_mul_of_nonneg_right hn' hp.le
    _ = 10 ^ (e + 1) := e2.symm
    _ ≤ 10 ^ a := zpow_le_zpow_right₀ (by norm_num) (by omega)

theorem le_six {x : ℚ} (hx : 0 < x) : 10 ^ (Int.log 10 x) ≤ six x := by
  have h1 := Int.zpow_log_le_self (b := 10) (by norm_num) hx
  rw [six_eq hx]
  generalize Int.log 10 x = e at h1
  push_cast at h1
  have hp : (0 : ℚ) < 10 ^ (e - 5) := zpow_pos (by norm_num) _
  have e1 : (10 : ℚ) ^ e = 10 ^ 5 * 10 ^ (e - 5) := by
    rw [← zpow_natCast, ← zpow_add₀ (by norm_num)]; congr 1; push_cast; ring
  have hy : ((100000 : ℤ) : ℚ) ≤ x / 10 ^ (e - 5) := by
    rw [le_div_iff₀ hp]; push_cast; linarith
  have hn := nearest_mono hy
  rw [nearest_int] at hn
  have hn' : (10 : ℚ) ^ 5 ≤ (nearest (x / 10 ^ (e - 5)) : ℚ) := by
    have : ((100000 : ℤ) : ℚ) ≤ ((nearest (x / 10 ^ (e - 5)) : ℤ) : ℚ) := by exact_mod_cast hn
    push_cast at this; linarith
  rw [e1]
  exact mul_le_mul_of_nonneg_right hn' hp.le

theorem six_mono {x y : ℚ} (hx : 0 < x) (h : x ≤ y) : six x ≤ six y := by
  have hy := hx.trans_le h
  rcases (Int.log_mono_right (b := 10) hx h).lt_or_eq with hl | hl
  · exact (six_le hx hl).trans (le_six hy)
  · rw [six_eq hx, six_eq hy, hl]
    have hp : (0 : ℚ) < 10 ^ (Int.log 10 y - 5) := zpow_pos (by norm_num) _
    refine mul_le_mul_of_nonneg_right ?_ hp.le
    exact_mod_cast nearest_mono (div_le_div_of_nonneg_right h hp.le)

theorem six_pos {x : ℚ} (hx : 0 < x) : 0 < six x := lt_of_lt_of_le (zpow_pos (by norm_num) _) (le_six hx)

/-- Numbers with at most six digits are written exactly. -/
theorem six_self {x : ℚ} (hx : 0 < x) {m k : ℤ} (hm : |m| < 10 ^ 6) (h : x = m * 10 ^ k) : six x = x := by
  have h1 := Int.zpow_log_le_self (b := 10) (by norm_num) hx
  rw [six_eq hx]
  generalize Int.log 10 x = e at h1
  push_cast at h1
  have hk : (0 : ℚ) < 10 ^ k := zpow_pos (by norm_num) _
  have hlt : (10 : ℚ) ^ e < 10 ^ (6 + k) := by
    refine h1.trans_lt ?_
    rw [h, zpow_add₀ (by norm_num)]
    refine mul_lt_mul_of_pos_right ?_ hk
    have := (abs_lt.1 hm).2
    exact_mod_cast this
  have hek := (zpow_lt_zpow_iff_right₀ (by norm_num : (1 : ℚ) < 10)).1 hlt
  obtain ⟨j, hj⟩ : ∃ j : ℕ, k - (e - 5) = j := ⟨(k - (e - 5)).toNat, by omega⟩
  have hy : x / 10 ^ (e - 5) = ((m * 10 ^ j : ℤ) : ℚ) := by
    rw [h, mul_div_assoc, ← zpow_sub₀ (by norm_num), hj, zpow_natCast]; push_cast; ring
  rw [hy, nearest_int, ← hy, div_mul_cancel₀]
  exact (zpow_pos (by norm_num) _).ne'

end Pooya.Reading
