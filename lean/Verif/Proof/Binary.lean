import Verif.Spec.Rounding
import Mathlib.Tactic.Linarith
import Mathlib.Tactic.FieldSimp
import Mathlib.Tactic.NormNum

/-! Rounding to a number of binary digits. -/

namespace Pooya

theorem nearest_near (y : ℚ) : |(nearest y : ℚ) - y| ≤ 1 / 2 := by
  have h1 := Int.floor_le y
  have h2 := Int.lt_floor_add_one y
  unfold nearest
  split_ifs <;> push_cast <;> rw [abs_le] <;> constructor <;> linarith

theorem nearest_int (n : ℤ) : nearest (n : ℚ) = n := by
  unfold nearest
  rw [Int.floor_intCast, sub_self, if_pos (by norm_num)]

theorem nearest_mono : Monotone nearest := by
  intro x y h
  have hf := Int.floor_le_floor h
  rcases hf.lt_or_eq with hf | hf
  · have h1 : nearest x ≤ ⌊x⌋ + 1 := by unfold nearest; split_ifs <;> omega
    have h2 : ⌊y⌋ ≤ nearest y := by unfold nearest; split_ifs <;> omega
    omega
  · unfold nearest
    rw [hf]
    split_ifs <;> first | omega | (exfalso; linarith)

variable {p : Nat} {x y : ℚ}

theorem ulp_pos (p : Nat) (x : ℚ) : 0 < ulp p x := zpow_pos (by norm_num) _

theorem ulp_scale (hp : 0 < p) : (2 : ℚ) ^ (p - 1) * ulp p x = 2 ^ Int.log 2 x := by
  unfold ulp
  rw [← zpow_natCast, ← zpow_add₀ (by norm_num)]
  congr 1
  omega

theorem ulp_scale' : (2 : ℚ) ^ p * ulp p x = 2 ^ (Int.log 2 x + 1) := by
  unfold ulp
  rw [← zpow_natCast, ← zpow_add₀ (by norm_num)]
  congr 1
  omega

/-- Rounding of positive numbers. -/
theorem binary_pos (hx : 0 ≤ x) : binary p x = nearest (x / ulp p x) * ulp p x := if_neg (not_lt.2 hx)

theorem binary_zero : binary p 0 = 0 := by
  rw [binary_pos (le_refl _), zero_div]
  have := nearest_int 0
  rw [Int.cast_zero] at this
  rw [this, Int.cast_zero, zero_mul]

theorem binary_neg (x : ℚ) : binary p (-x) = -binary p x := by
  rcases lt_trichotomy x 0 with h | rfl | h
  · rw [binary_pos (by linarith)]
    unfold binary
    rw [if_pos h, neg_neg]
  · rw [neg_zero, binary_zero, neg_zero]
  · rw [binary_pos h.le]
    unfold binary
    rw [if_pos (by linarith), neg_neg]

/-- The digits are between `2 ^ (p - 1)` and `2 ^ p`. -/
theorem digits (hp : 0 < p) (hx : 0 < x) : (2 : ℤ) ^ (p - 1) ≤ nearest (x / ulp p x) ∧ nearest (x / ulp p x) ≤ 2 ^ p := by
  have hu := ulp_pos p x
  have h1 : ((2 : ℕ) : ℚ) ^ Int.log 2 x ≤ x := Int.zpow_log_le_self (by norm_num) hx
  have h2 : x < ((2 : ℕ) : ℚ) ^ (Int.log 2 x + 1) := Int.lt_zpow_succ_log_self (by norm_num) x
  have h1 : (2 : ℚ) ^ (p - 1) * ulp p x ≤ x := by rw [ulp_scale hp]; exact_mod_cast h1
  have h2 : x < (2 : ℚ) ^ p * ulp p x := by rw [ulp_scale']; exact_mod_cast h2
  constructor
  · have := nearest_mono ((le_div_iff₀ hu).2 h1)
    rwa [show (2 : ℚ) ^ (p - 1) = (((2 : ℤ) ^ (p - 1) : ℤ) : ℚ) by push_cast; rfl, nearest_int] at this
  · have := nearest_mono ((div_le_iff₀ hu).2 h2.le)
    rwa [show (2 : ℚ) ^ p = (((2 : ℤ) ^ p : ℤ) : ℚ) by push_cast; rfl, nearest_int] at this

/-- The result is between the powers of two around the number. -/
theorem binade (hp : 0 < p) (hx : 0 < x) : (2 : ℚ) ^ Int.log 2 x ≤ binary p x ∧ binary p x ≤ 2 ^ (Int.log 2 x + 1) := by
  obtain ⟨h1, h2⟩ := digits hp hx
  rw [binary_pos hx.le]
  have hu := ulp_pos p x
  constructor
  · rw [← ulp_scale hp]
    exact mul_le_mul_of_nonneg_right (by exact_mod_cast h1) hu.le
  · rw [← ulp_scale']
    exact mul_le_mul_of_nonneg_right (by exact_mod_cast h2) hu.le

theorem binary_nonneg (hp : 0 < p) (hx : 0 ≤ x) : 0 ≤ binary p x := by
  rcases hx.lt_or_eq with h | rfl
  · exact le_trans (zpow_nonneg (by norm_num) _) (binade hp h).1
  · rw [binary_zero]

theorem binary_mono_pos (hp : 0 < p) (hx : 0 < x) (h : x ≤ y) : binary p x ≤ binary p y := by
  have hy := hx.trans_le h
  rcases (Int.log_mono_right (b := 2) hx h).lt_or_eq with e | e
  · refine (binade hp hx).2.trans (le_trans ?_ (binade hp hy).1)
    exact zpow_le_zpow_right₀ (by norm_num) (by omega)
  · rw [binary_pos hx.le, binary_pos hy.le]
    have hu : ulp p x = ulp p y := by unfold ulp; rw [e]
    rw [hu]
    have hp := ulp_pos p y
    exact mul_le_mul_of_nonneg_right (by exact_mod_cast nearest_mono (div_le_div_of_nonneg_right h hp.le)) hp.le

theorem binary_mono (hp : 0 < p) : Monotone (binary p) := by
  intro x y h
  rcases lt_or_ge 0 x with hx | hx
  · exact binary_mono_pos hp hx h
  · rcases lt_or_ge y 0 with hy | hy
    · have := binary_mono_pos hp (show 0 < -y by linarith) (show -y ≤ -x by linarith)
      rw [binary_neg, binary_neg] at this
      linarith
    · have h1 := binary_nonneg hp (show 0 ≤ -x by linarith)
      have h2 := binary_nonneg hp hy
      rw [binary_neg] at h1
      linarith

/-- Multiples of a power of two with at most `p` digits are left as they are. -/
theorem binary_digits (hp : 0 < p) {n : ℤ} {k : ℤ} (h1 : |n| ≤ 2 ^ p) : binary p (n * 2 ^ k) = n * 2 ^ k := by
  have key : ∀ n : ℤ, 0 ≤ n → n ≤ 2 ^ p → binary p (n * 2 ^ k) = n * 2 ^ k := by
    intro n h0 h1
    rcases h0.lt_or_eq with h0 | rfl
    swap
    · rw [Int.cast_zero, zero_mul, binary_zero]
    have hk : (0 : ℚ) < 2 ^ k := zpow_pos (by norm_num) _
    have hn : (0 : ℚ) < n := by exact_mod_cast h0
    have hx : (0 : ℚ) < n * 2 ^ k := mul_pos hn hk
    rw [binary_pos hx.le]
    -- the number is a multiple of its last digit
    have hd : ∃ z : ℤ, (n * 2 ^ k : ℚ) / ulp p (n * 2 ^ k) = z := by
      by_cases hl : Int.log 2 (n * 2 ^ k : ℚ) + 1 - p ≤ k
      · obtain ⟨j, hj⟩ := Int.eq_ofNat_of_zero_le (show 0 ≤ k - (Int.log 2 (n * 2 ^ k : ℚ) + 1 - p) by omega)
        refine ⟨n * 2 ^ j, ?_⟩
        rw [div_eq_iff (ulp_pos _ _).ne']
        unfold ulp
        push_cast
        rw [mul_assoc, ← zpow_natCast, ← zpow_add₀ (by norm_num)]
        congr 2
        omega
      · -- then it is `2 ^ p * 2 ^ k`
        have h2 : ((2 : ℕ) : ℚ) ^ Int.log 2 (n * 2 ^ k : ℚ) ≤ n * 2 ^ k := Int.zpow_log_le_self (by norm_num) hx
        have h3 : (2 : ℚ) ^ (p + k : ℤ) ≤ n * 2 ^ k := le_trans (b := (2 : ℚ) ^ Int.log 2 (n * 2 ^ k : ℚ)) (zpow_le_zpow_right₀ (by norm_num) (by omega)) (by exact_mod_cast h2)
        rw [zpow_add₀ (by norm_num), zpow_natCast] at h3
        have h4 : (n : ℚ) ≤ 2 ^ p := by exact_mod_cast h1
        have h5 : (n : ℚ) = 2 ^ p := le_antisymm h4 (le_of_mul_le_mul_right h3 hk)
        have h6 : (n * 2 ^ k : ℚ) = ((2 : ℕ) : ℚ) ^ (p + k : ℤ) := by
          rw [h5, Nat.cast_ofNat, zpow_add₀ (by norm_num), zpow_natCast]
        refine ⟨2 ^ (p - 1), ?_⟩
        rw [div_eq_iff (ulp_pos _ _).ne']
        push_cast
        rw [ulp_scale hp, h6, Int.log_zpow (by norm_num)]
        norm_num
    obtain ⟨z, hz⟩ := hd
    rw [hz, nearest_int, ← hz, div_mul_cancel₀ _ (ulp_pos _ _).ne']
  rcases le_total 0 n with h0 | h0
  · exact key n h0 (by rwa [abs_of_nonneg h0] at h1)
  · have := key (-n) (by omega) (by rwa [abs_of_nonpos h0] at h1)
    rw [Int.cast_neg, neg_mul, binary_neg] at this
    linarith

theorem binary_form (hp : 0 < p) (x : ℚ) : ∃ n k : ℤ, |n| ≤ 2 ^ p ∧ binary p x = n * 2 ^ k := by
  rcases lt_trichotomy x 0 with h | rfl | h
  · have hx : 0 < -x := by linarith
    obtain ⟨h1, h2⟩ := digits hp hx
    refine ⟨-nearest (-x / ulp p (-x)), Int.log 2 (-x) + 1 - p, ?_, ?_⟩
    · rw [abs_neg, abs_of_nonneg (le_trans (by positivity) h1)]; exact h2
    · unfold binary; rw [if_pos h]; push_cast; rw [neg_mul]; rfl
  · exact ⟨0, 0, by simp, by rw [binary_zero]; simp⟩
  · obtain ⟨h1, h2⟩ := digits hp h
    exact ⟨nearest (x / ulp p x), Int.log 2 x + 1 - p, by rw [abs_of_nonneg (le_trans (by positivity) h1)]; exact h2, binary_pos h.le⟩

theorem binary_near (hp : 0 < p) (x : ℚ) : |binary p x - x| ≤ |x| / 2 ^ p := by
  have key : ∀ x : ℚ, 0 < x → |binary p x - x| ≤ x / 2 ^ p := by
    intro x hx
    have hu := ulp_pos p x
    have h1 : ((2 : ℕ) : ℚ) ^ Int.log 2 x ≤ x := Int.zpow_log_le_self (by norm_num) hx
    have h1 : (2 : ℚ) ^ (p - 1) * ulp p x ≤ x := by rw [ulp_scale hp]; exact_mod_cast h1
    rw [binary_pos hx.le, show (nearest (x / ulp p x) : ℚ) * ulp p x - x = (nearest (x / ulp p x) - x / ulp p x) * ulp p x by field_simp,
      abs_mul, abs_of_pos hu]
    have h2 := mul_le_mul_of_nonneg_right (nearest_near (x / ulp p x)) hu.le
    refine h2.trans ?_
    rw [le_div_iff₀ (by positivity)]
    have : (2 : ℚ) ^ p = 2 * 2 ^ (p - 1) := by rw [← pow_succ']; congr 1; omega
    rw [this]
    linarith
  rcases lt_trichotomy x 0 with h | rfl | h
  · have := key (-x) (by linarith)
    rw [binary_neg] at this
    rw [abs_of_neg h, ← abs_neg, neg_sub]
    rwa [show -binary p x - -x = x - binary p x by ring] at this
  · rw [binary_zero]; simp
  · rw [abs_of_pos h]; exact key x h

/-- Rounding to `p` binary digits is a rounding. -/
theorem binary_rounding (hp : 0 < p) {R ρ : ℚ} (h : R / 2 ^ p ≤ ρ) : Rounding (binary p) R ρ where
  mono := binary_mono hp
  idem x := by
    obtain ⟨n, k, h1, h2⟩ := binary_form hp x
    rw [h2, binary_digits hp h1]
  zero := binary_zero
  two := by
    have := binary_digits hp (n := 1) (k := 1) (by rw [abs_one]; exact one_le_pow₀ (by norm_num))
    norm_num at this
    exact this
  near x hx := (binary_near hp x).trans (le_trans (div_le_div_of_nonneg_right hx (by positivity)) h)

end Pooya
