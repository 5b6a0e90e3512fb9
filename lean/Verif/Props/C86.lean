import Verif.Spec.Ideal
import Verif.Props.C41

/-! # C86: operations on infinities and not-a-numbers are limits -/

namespace Pooya.C86

open Pooya Filter Topology Ext

theorem near_neBot (a : Ext ℝ) : (near a).NeBot := by
  rcases a with x | (_ | _) | _ <;> (unfold near; infer_instance)

theorem near0_neBot (a : Ext ℝ) : (near0 a).NeBot := by
  unfold near0
  split
  · infer_instance
  · exact near_neBot a

/-- Different values have nothing near in common. -/
theorem apart {α : Type} {f : α → ℝ} {L : Filter α} [L.NeBot] {c c' : Ext ℝ} (h : Tendsto f L (near c)) (h' : Tendsto f L (near c')) (n : c ≠ nan) (n' : c' ≠ nan) : c = c' := by
  rcases c with x | (_ | _) | _ <;> rcases c' with y | (_ | _) | _ <;> simp only [near] at h h' <;> first
    | exact (n rfl).elim
    | exact (n' rfl).elim
    | rfl
    | rw [tendsto_nhds_unique h h']
    | exact (not_tendsto_atTop_of_tendsto_nhds h h').elim
    | exact (not_tendsto_atTop_of_tendsto_nhds h' h).elim
    | exact (not_tendsto_atBot_of_tendsto_nhds h h').elim
    | exact (not_tendsto_atBot_of_tendsto_nhds h' h).elim
    | exact (h.not_tendsto disjoint_atTop_atBot h').elim
    | exact (h.not_tendsto disjoint_atBot_atTop h').elim

theorem limit_unique {f : ℝ × ℝ → ℝ} {L : Filter (ℝ × ℝ)} [L.NeBot] {c c' : Ext ℝ} (h : Limit f L c) (h' : Limit f L c') : c = c' := by
  by_cases n : c = nan
  · rw [n, h.2 n c' h'.1]
  · by_cases n' : c' = nan
    · exact (n (h'.2 n' c h.1)).elim
    · exact apart h.1 h'.1 n n'

/-- There is no limit if there are two ways with different constants. -/
theorem none_of {f : ℝ × ℝ → ℝ} {L : Filter (ℝ × ℝ)} {α : Type} {l : Filter α} [l.NeBot] (g : ℝ → α → ℝ × ℝ) (v : ℝ → ℝ) (p q : ℝ) (hpq : v p ≠ v q) (hL : ∀ k, k = p ∨ k = q → Tendsto (g k) l L)
    (hv : ∀ k, k = p ∨ k = q → ∀ᶠ y in l, f (g k y) = v k) : Limit f L nan := by
  refine ⟨tendsto_top, fun _ c' h => ?_⟩
  by_contra n
  have key : ∀ k, k = p ∨ k = q → c' = num (v k) := by
    intro k hk
    have h1 : Tendsto (fun y => f (g k y)) l (near c') := h.comp (hL k hk)
    have h2 : Tendsto (fun y => f (g k y)) l (near (num (v k))) := tendsto_nhds_of_eventually_eq (hv k hk)
    exact apart h1 h2 n (by intro e; cases e)
  have := (key p (.inl rfl)).symm.trans (key q (.inr rfl))
  exact hpq (num.inj this)

theorem limit_of {f : ℝ × ℝ → ℝ} {L : Filter (ℝ × ℝ)} {c : Ext ℝ} (h : Tendsto f L (near c)) (n : c ≠ nan) : Limit f L c := ⟨h, fun e => (n e).elim⟩

theorem rounded_num (rnd : ℝ → ℝ) (M x : ℝ) : fit rnd M x = rounded rnd M (num x) := by
  unfold fit rounded
  by_cases h : |rnd x| ≤ M
  · simp [h]
  · by_cases h0 : 0 < x <;> simp [h, h0]

/-! ## Operations -/

section
variable {a b : Ext ℝ}

theorem fst_near : Tendsto (fun p : ℝ × ℝ => p.1) (near a ×ˢ near b) (near a) := tendsto_fst
theorem snd_near : Tendsto (fun p : ℝ × ℝ => p.2) (near a ×ˢ near b) (near b) := tendsto_snd

theorem top_swap {L : Filter (ℝ × ℝ)} {f : ℝ × ℝ → ℝ} {c : Ext ℝ} (h : Limit (fun p => f p.swap) (L.map Prod.swap) c) : Limit f L c := by
  refine ⟨?_, fun e c' hc' => h.2 e c' ?_⟩
  · have := h.1.comp (tendsto_map (f := Prod.swap) (x := L))
    exact this
  · rw [tendsto_map'_iff]
    exact hc'

theorem add_nan : Limit (fun p : ℝ × ℝ => p.1 + p.2) (near nan ×ˢ near b) nan := by
  have := near_neBot b
  exact none_of (l := near b) (fun k y => (k - y, y)) id 0 1 (by simp) (fun k _ => tendsto_top.prodMk tendsto_id) (fun k _ => .of_forall fun y => by simp)

theorem nan_add : Limit (fun p : ℝ × ℝ => p.1 + p.2) (near a ×ˢ near nan) nan := by
  have := near_neBot a
  exact none_of (l := near a) (fun k y => (y, k - y)) id 0 1 (by simp) (fun k _ => tendsto_id.prodMk tendsto_top) (fun k _ => .of_forall fun y => by simp)

/-- C86: a sum is the rounded limit of sums. -/
theorem C86_add (rnd : ℝ → ℝ) (M : ℝ) (a b : Ext ℝ) : ∃ c, Limit (fun p => p.1 + p.2) (near a ×ˢ near b) c ∧ (Arith.extended rnd M).add a b = rounded rnd M c := by
  show ∃ c, _ ∧ Ext.add rnd M a b = _
  rcases a with x | (_ | _) | _ <;> rcases b with y | (_ | _) | _
  · exact ⟨num (x + y), limit_of (fst_near.add snd_near) (by simp), rounded_num ..⟩
  · exact ⟨inf false, limit_of (Tendsto.add_atBot fst_near snd_near) (by simp), rfl⟩
  · exact ⟨inf true, limit_of (Tendsto.add_atTop fst_near snd_near) (by simp), rfl⟩
  · exact ⟨nan, nan_add, rfl⟩
  · exact ⟨inf false, limit_of (Tendsto.atBot_add fst_near snd_near) (by simp), rfl⟩
  · exact ⟨inf false, limit_of (Tendsto.atBot_add_atBot fst_near snd_near) (by simp), rfl⟩
  · exact ⟨nan, none_of (l := atTop) (fun k y => (k - y, y)) id 0 1 (by simp) (fun k _ => (tendsto_atBot_add_const_left _ k tendsto_neg_atTop_atBot).prodMk tendsto_id)
      (fun k _ => .of_forall fun y => by simp), rfl⟩
  · exact ⟨nan, nan_add, rfl⟩
  · exact ⟨inf true, limit_of (Tendsto.atTop_add fst_near snd_near) (by simp), rfl⟩
  · exact ⟨nan, none_of (l := atTop) (fun k y => (y, k - y)) id 0 1 (by simp) (fun k _ => tendsto_id.prodMk (tendsto_atBot_add_const_left _ k tendsto_neg_atTop_atBot))
      (fun k _ => .of_forall fun y => by simp), rfl⟩
  · exact ⟨inf true, limit_of (Tendsto.atTop_add_atTop fst_near snd_near) (by simp), rfl⟩
  · exact ⟨nan, nan_add, rfl⟩
  all_goals exact ⟨nan, add_nan, rfl⟩

theorem near_neg (b : Ext ℝ) : near b.neg = (near b).map Neg.neg := by
  rcases b with y | (_ | _) | _
  · show 𝓝 (-y) = _; exact (Homeomorph.neg ℝ).map_nhds_eq y |>.symm
  · show atTop = map Neg.neg atBot; exact (OrderIso.neg ℝ).map_atBot.symm
  · show atBot = map Neg.neg atTop; exact (OrderIso.neg ℝ).map_atTop.symm
  · show ⊤ = map Neg.neg ⊤
    rw [← principal_univ, map_principal, Set.image_univ, neg_surjective.range_eq]

/-- C86: a difference is the rounded limit of differences. -/
theorem C86_sub (rnd : ℝ → ℝ) (M : ℝ) (a b : Ext ℝ) : ∃ c, Limit (fun p => p.1 - p.2) (near a ×ˢ near b) c ∧ (Arith.extended rnd M).sub a b = rounded rnd M c := by
  obtain ⟨c, h1, h2⟩ := C86_add rnd M a b.neg
  have hm : near a ×ˢ near b.neg = (near a ×ˢ near b).map (Prod.map id Neg.neg) := by
    rw [near_neg, ← prod_map_map_eq', map_id]
  have key : ∀ c', Tendsto (fun p : ℝ × ℝ => p.1 + p.2) (near a ×ˢ near b.neg) (near c') ↔ Tendsto (fun p : ℝ × ℝ => p.1 - p.2) (near a ×ˢ near b) (near c') := by
    intro c'
    rw [hm, tendsto_map'_iff]
    have : ((fun p : ℝ × ℝ => p.1 + p.2) ∘ Prod.map id Neg.neg) = fun p : ℝ × ℝ => p.1 - p.2 := by
      funext p; simp [sub_eq_add_neg]
    rw [this]
  exact ⟨c, ⟨(key c).1 h1.1, fun e c' h => h1.2 e c' ((key c').2 h)⟩, h2⟩

theorem nonzero (b : Ext ℝ) : (near b ⊓ 𝓟 {0}ᶜ).NeBot := by
  rcases b with y | (_ | _) | _
  · by_cases h : y = 0
    · subst h; exact inferInstanceAs (𝓝[≠] (0 : ℝ)).NeBot
    · have : near (num y) ⊓ 𝓟 {0}ᶜ = 𝓝 y := inf_eq_left.2 (le_principal_iff.2 (isOpen_compl_singleton.mem_nhds h))
      rw [this]; infer_instance
  · have : near (inf false) ⊓ 𝓟 {0}ᶜ = atBot := inf_eq_left.2 (le_principal_iff.2 ((eventually_lt_atBot 0).mono fun _ h => h.ne))
    rw [this]; infer_instance
  · have : near (inf true) ⊓ 𝓟 {0}ᶜ = atTop := inf_eq_left.2 (le_principal_iff.2 ((eventually_gt_atTop 0).mono fun _ h => h.ne'))
    rw [this]; infer_instance
  · show (⊤ ⊓ 𝓟 {0}ᶜ).NeBot
    rw [top_inf_eq, principal_neBot_iff]
    exact ⟨1, one_ne_zero⟩

theorem nonzero_ev (b : Ext ℝ) : ∀ᶠ y in near b ⊓ 𝓟 {0}ᶜ, y ≠ 0 := mem_inf_of_right (mem_principal_self _)

theorem mul_nan : Limit (fun p : ℝ × ℝ => p.1 * p.2) (near nan ×ˢ near b) nan := by
  have := nonzero b
  exact none_of (l := near b ⊓ 𝓟 {0}ᶜ) (fun k y => (k / y, y)) id 0 1 (by simp) (fun k _ => tendsto_top.prodMk (tendsto_id.mono_left inf_le_left))
    (fun k _ => (nonzero_ev b).mono fun y h => by simp [h])

theorem nan_mul : Limit (fun p : ℝ × ℝ => p.1 * p.2) (near a ×ˢ near nan) nan := by
  have := nonzero a
  exact none_of (l := near a ⊓ 𝓟 {0}ᶜ) (fun k y => (y, k / y)) id 0 1 (by simp) (fun k _ => (tendsto_id.mono_left inf_le_left).prodMk tendsto_top)
    (fun k _ => (nonzero_ev a).mono fun y h => mul_div_cancel₀ k h)

theorem div_far (k : ℝ) (s : Bool) : Tendsto (fun y : ℝ => k / y) (near (inf s)) (𝓝 0) := by
  cases s
  · exact tendsto_const_nhds.div_atBot tendsto_id
  · exact tendsto_const_nhds.div_atTop tendsto_id

/-- The limit of products of numbers near two values, one of them infinite. -/
theorem mul_inf {L : Filter (ℝ × ℝ)} {f g : ℝ × ℝ → ℝ} (s : Bool) (x : ℝ) (hx : x ≠ 0) (hf : Tendsto f L (near (inf s))) (hg : Tendsto g L (𝓝 x)) :
    Tendsto (fun p => f p * g p) L (near (inf (s == decide (0 < x)))) := by
  rcases lt_or_gt_of_ne hx with h | h
  · cases s
    · simpa [near, not_lt.2 h.le] using Tendsto.atBot_mul_neg h hf hg
    · simpa [near, not_lt.2 h.le] using Tendsto.atTop_mul_neg h hf hg
  · cases s
    · simpa [near, h] using Tendsto.atBot_mul_pos h hf hg
    · simpa [near, h] using Tendsto.atTop_mul_pos h hf hg

theorem mul_infs {L : Filter (ℝ × ℝ)} {f g : ℝ × ℝ → ℝ} (s s' : Bool) (hf : Tendsto f L (near (inf s))) (hg : Tendsto g L (near (inf s'))) :
    Tendsto (fun p => f p * g p) L (near (inf (s == s'))) := by
  cases s <;> cases s'
  · exact Tendsto.atBot_mul_atBot₀ hf hg
  · exact Tendsto.atBot_mul_atTop₀ hf hg
  · exact Tendsto.atTop_mul_atBot₀ hf hg
  · exact Tendsto.atTop_mul_atTop₀ hf hg

/-- C86: a product is the rounded limit of products. -/
theorem C86_mul (rnd : ℝ → ℝ) (M : ℝ) (a b : Ext ℝ) : ∃ c, Limit (fun p => p.1 * p.2) (near a ×ˢ near b) c ∧ (Arith.extended rnd M).mul a b = rounded rnd M c := by
  show ∃ c, _ ∧ Ext.mul rnd M a b = _
  rcases a with x | s | _ <;> rcases b with y | s' | _
  · exact ⟨num (x * y), limit_of (fst_near.mul snd_near) (by simp), rounded_num ..⟩
  · by_cases h : x = 0
    · subst h
      have := nonzero (inf s')
      refine ⟨nan, none_of (l := near (inf s') ⊓ 𝓟 {0}ᶜ) (fun k y => (k / y, y)) id 0 1 (by simp)
        (fun k _ => ((div_far k s').mono_left inf_le_left).prodMk (tendsto_id.mono_left inf_le_left)) (fun k _ => (nonzero_ev _).mono fun y h => by simp [h]), by simp [Ext.mul, rounded]⟩
    · refine ⟨inf (s' == decide (0 < x)), limit_of ?_ (by simp), by simp [Ext.mul, rounded, h]⟩
      simpa only [mul_comm] using mul_inf s' x h snd_near (fst_near (a := num x))
  · exact ⟨nan, nan_mul, rfl⟩
  · by_cases h : y = 0
    · subst h
      have := nonzero (inf s)
      refine ⟨nan, none_of (l := near (inf s) ⊓ 𝓟 {0}ᶜ) (fun k y => (y, k / y)) id 0 1 (by simp)
        (fun k _ => (tendsto_id.mono_left inf_le_left).prodMk ((div_far k s).mono_left inf_le_left)) (fun k _ => (nonzero_ev _).mono fun y h => mul_div_cancel₀ k h), by simp [Ext.mul, rounded]⟩
    · exact ⟨inf (s == decide (0 < y)), limit_of (mul_inf s y h fst_near snd_near) (by simp), by simp [Ext.mul, rounded, h]⟩
  · exact ⟨inf (s == s'), limit_of (mul_infs s s' fst_near snd_near) (by simp), rfl⟩
  · exact ⟨nan, nan_mul, rfl⟩
  all_goals exact ⟨nan, mul_nan, rfl⟩

theorem near0_of (h : b ≠ num 0) : near0 b = near b := if_neg h

theorem near0_ne (b : Ext ℝ) (hb : b ≠ nan) : ∀ᶠ y in near0 b, y ≠ 0 := by
  by_cases h : b = num 0
  · rw [h, near0, if_pos rfl]
    exact eventually_mem_nhdsWithin.mono fun y hy => ne_of_gt hy
  · rw [near0_of h]
    rcases b with y | (_ | _) | _
    · exact isOpen_compl_singleton.mem_nhds fun e => h (by rw [e])
    · exact (eventually_lt_atBot 0).mono fun _ h => h.ne
    · exact (eventually_gt_atTop 0).mono fun _ h => h.ne'
    · exact (hb rfl).elim

/-- C86: a quotient is the rounded limit of quotients, a zero in the denominator being `+0`. -/
theorem C86_div (rnd : ℝ → ℝ) (M : ℝ) (a b : Ext ℝ) (hr : rnd 0 = 0) (hM : 0 ≤ M) :
    ∃ c, Limit (fun p => p.1 / p.2) (near a ×ˢ near0 b) c ∧ (Arith.extended rnd M).div a b = rounded rnd M c := by
  show ∃ c, _ ∧ Ext.div rnd M a b = _
  by_cases hb : b = nan
  · subst hb
    have := nonzero a
    rw [near0_of (by simp)]
    refine ⟨nan, none_of (l := near a ⊓ 𝓟 {0}ᶜ) (fun k x => (x, x / k)) id 1 2 (by simp) (fun k _ => (tendsto_id.mono_left inf_le_left).prodMk tendsto_top)
      (fun k hk => (nonzero_ev a).mono fun x h => by
        have : k ≠ 0 := by rcases hk with rfl | rfl <;> norm_num
        simp only [id]
        field_simp), ?_⟩
    rcases a with x | s | _ <;> rfl
  have h0 := near0_ne b hb
  have := near0_neBot b
  by_cases ha : a = nan
  · subst ha
    refine ⟨nan, none_of (l := near0 b) (fun k y => (k * y, y)) id 0 1 (by simp) (fun k _ => tendsto_top.prodMk tendsto_id)
      (fun k _ => h0.mono fun y h => by simp [h]), ?_⟩
    rcases b with x | s | _ <;> rfl
  have f1 : Tendsto (fun p : ℝ × ℝ => p.1) (near a ×ˢ near0 b) (near a) := tendsto_fst
  have f2 : Tendsto (fun p : ℝ × ℝ => p.2) (near a ×ˢ near0 b) (near0 b) := tendsto_snd
  simp only [div_eq_mul_inv]
  by_cases hz : b = num 0
  · subst hz
    have f3 : Tendsto (fun p : ℝ × ℝ => p.2⁻¹) (near a ×ˢ near0 (num 0)) (near (inf true)) := by
      rw [near0, if_pos rfl] at *
      exact tendsto_inv_nhdsGT_zero.comp f2
    rcases a with x | s | _
    · by_cases hx : x = 0
      · subst hx
        refine ⟨nan, none_of (l := 𝓝[>] (0 : ℝ)) (fun k y => (k * y, y)) id 1 2 (by simp) (fun k _ => ?_)
          (fun k _ => eventually_mem_nhdsWithin.mono fun y hy => by
            have : y ≠ 0 := ne_of_gt hy
            simp [this]), by simp [Ext.div, rounded]⟩
        rw [near0, if_pos rfl]
        refine Tendsto.prodMk ?_ tendsto_id
        have : Tendsto (fun y : ℝ => k * y) (𝓝 0) (𝓝 (k * 0)) := tendsto_const_nhds.mul tendsto_id
        rw [mul_zero] at this
        exact this.mono_left nhdsWithin_le_nhds
      · refine ⟨inf (decide (0 < x)), limit_of ?_ (by simp), by simp [Ext.div, rounded, hx]⟩
        have := mul_inf true x hx f3 f1
        simpa only [mul_comm, beq_iff_eq, Bool.true_beq] using this
    · refine ⟨inf s, limit_of ?_ (by simp), by simp [Ext.div, rounded]⟩
      have := mul_infs s true f1 f3
      simpa using this
    · exact (ha rfl).elim
  · rw [near0_of hz] at *
    rcases b with y | s' | _
    · have hy : y ≠ 0 := fun e => hz (by rw [e])
      have f3 : Tendsto (fun p : ℝ × ℝ => p.2⁻¹) (near a ×ˢ near (num y)) (𝓝 y⁻¹) := Tendsto.inv₀ f2 hy
      rcases a with x | s | _
      · refine ⟨num (x * y⁻¹), limit_of (Tendsto.mul f1 f3) (by simp), ?_⟩
        rw [← rounded_num, ← div_eq_mul_inv]
        simp [Ext.div, hy]
      · refine ⟨inf (s == decide (0 < y⁻¹)), limit_of (mul_inf s _ (inv_ne_zero hy) f1 f3) (by simp), ?_⟩
        have : (0 < y⁻¹) ↔ 0 ≤ y := by
          rw [inv_pos]
          exact ⟨le_of_lt, fun h => lt_of_le_of_ne h (Ne.symm hy)⟩
        simp [Ext.div, rounded, this]
      · exact (ha rfl).elim
    · have f3 : Tendsto (fun p : ℝ × ℝ => p.2⁻¹) (near a ×ˢ near (inf s')) (𝓝 0) := by
        cases s'
        · exact tendsto_inv_atBot_zero.comp f2
        · exact tendsto_inv_atTop_zero.comp f2
      rcases a with x | s | _
      · refine ⟨num 0, limit_of ?_ (by simp), ?_⟩
        · have := Tendsto.mul f1 f3
          rwa [mul_zero] at this
        · simp [Ext.div, rounded, hr, hM]
      · simp only [← div_eq_mul_inv]
        have hp : ∀ k : ℝ, 0 < k → Tendsto (fun y : ℝ => k * y) (near (inf s)) (near (inf s)) := by
          intro k hk
          cases s
          · exact tendsto_id.const_mul_atBot hk
          · exact tendsto_id.const_mul_atTop hk
        have hn : Tendsto (fun y : ℝ => (if s = s' then 1 else -1) * y) (near (inf s)) (near (inf s')) := by
          cases s <;> cases s' <;> simp only [near, if_true, one_mul, reduceCtorEq, if_false, neg_mul]
          · exact tendsto_id
          · exact tendsto_neg_atBot_atTop
          · exact tendsto_neg_atTop_atBot
          · exact tendsto_id
        have := near_neBot (inf s)
        refine ⟨nan, none_of (l := near (inf s)) (fun k y => (k * y, (if s = s' then 1 else -1) * y)) (fun k => k / (if s = s' then 1 else -1)) 1 2 ?_
          (fun k hk => (hp k (by rcases hk with rfl | rfl <;> norm_num)).prodMk hn) (fun k _ => ?_), rfl⟩
        · split <;> norm_num
        · have : ∀ᶠ y : ℝ in near (inf s), y ≠ 0 := by
            have := near0_ne (inf s) (by simp)
            rwa [near0_of (by simp)] at this
          refine this.mono fun y h => ?_
          exact mul_div_mul_right _ _ h
      · exact (ha rfl).elim
    · exact (hb rfl).elim

/-- C86: literals and absolute values. -/
theorem C86_abs (rnd : ℝ → ℝ) (M : ℝ) (a : Ext ℝ) : Tendsto (fun x => |x|) (near a) (near ((Arith.extended rnd M).abs a)) ∧ ((Arith.extended rnd M).abs a = nan ↔ a = nan) := by
  show Tendsto _ _ (near (Ext.abs a)) ∧ (Ext.abs a = nan ↔ a = nan)
  rcases a with x | (_ | _) | _
  · exact ⟨(continuous_abs.tendsto x), by simp [Ext.abs]⟩
  · exact ⟨tendsto_abs_atBot_atTop, by simp [Ext.abs]⟩
  · exact ⟨tendsto_abs_atTop_atTop, by simp [Ext.abs]⟩
  · exact ⟨tendsto_top, by simp [Ext.abs]⟩

theorem C86_lit (rnd : ℝ → ℝ) (M : ℝ) (q : ℚ) : (Arith.extended rnd M).lit q = rounded rnd M (num (q : ℝ)) := rounded_num ..

/-! ## Comparisons -/

/-- C86: one value is less than another if all numbers near it are. -/
theorem C86_lt (rnd : ℝ → ℝ) (M : ℝ) (a b : Ext ℝ) : (Arith.extended rnd M).lt a b = true ↔ ∀ᶠ p in near a ×ˢ near b, p.1 < p.2 := by
  show Ext.lt a b = true ↔ _
  have no : ∀ {α : Type} {l : Filter α} [l.NeBot] (g : α → ℝ × ℝ), Tendsto g l (near a ×ˢ near b) → (∀ y, ¬ (g y).1 < (g y).2) → ¬ ∀ᶠ p in near a ×ˢ near b, p.1 < p.2 := by
    intro α l _ g hg hn h
    obtain ⟨y, hy⟩ := (hg.eventually h).exists
    exact hn y hy
  have far : ∀ (c : Ext ℝ) (x : ℝ), (c = num x ∨ c = inf true) → ∀ y < x, ∀ᶠ z in near c, y < z := by
    rintro c x (rfl | rfl) y hy
    · exact eventually_gt_nhds hy
    · exact eventually_gt_atTop y
  have low : ∀ (c : Ext ℝ) (x : ℝ), (c = num x ∨ c = inf false) → ∀ y, x < y → ∀ᶠ z in near c, z < y := by
    rintro c x (rfl | rfl) y hy
    · exact eventually_lt_nhds hy
    · exact eventually_lt_atBot y
  have yes : ∀ x y z : ℝ, (a = num x ∨ a = inf false) → (b = num y ∨ b = inf true) → x < z → z < y → ∀ᶠ p in near a ×ˢ near b, p.1 < p.2 :=
    fun x y z ha hb h1 h2 => ((low a x ha z h1).prod_mk (far b y hb z h2)).mono fun p h => h.1.trans h.2
  rcases a with x | (_ | _) | _ <;> rcases b with y | (_ | _) | _
  · simp only [Ext.lt, decide_eq_true_eq]
    refine ⟨fun h => ?_, fun h => ?_⟩
    · obtain ⟨z, h1, h2⟩ := exists_between h
      exact yes x y z (.inl rfl) (.inl rfl) h1 h2
    · by_contra hn
      exact no (l := (⊤ : Filter Unit)) (fun _ => (x, y)) (tendsto_const_nhds.prodMk tendsto_const_nhds) (fun _ => hn) h
  · exact iff_of_false (by simp [Ext.lt]) (no (l := atBot) (fun z => (x, min z x)) (tendsto_const_nhds.prodMk (tendsto_atBot_mono (fun z => min_le_left z x) tendsto_id)) fun z => by simp)
  · exact iff_of_true rfl (yes x (x + 2) (x + 1) (.inl rfl) (.inr rfl) (by linarith) (by linarith))
  · exact iff_of_false (by simp [Ext.lt]) (no (l := (⊤ : Filter Unit)) (fun _ => (x, x)) (tendsto_const_nhds.prodMk tendsto_top) fun z => lt_irrefl _)
  · exact iff_of_true rfl (yes (y - 2) y (y - 1) (.inr rfl) (.inl rfl) (by linarith) (by linarith))
  · exact iff_of_false (by simp [Ext.lt]) (no (l := atBot) (fun z => (z, z)) (tendsto_id.prodMk tendsto_id) fun z => lt_irrefl _)
  · exact iff_of_true rfl (yes 0 2 1 (.inr rfl) (.inr rfl) (by norm_num) (by norm_num))
  · exact iff_of_false (by simp [Ext.lt]) (no (l := atBot) (fun z => (z, z)) (tendsto_id.prodMk tendsto_top) fun z => lt_irrefl _)
  · exact iff_of_false (by simp [Ext.lt]) (no (l := atTop) (fun z => (max z y, y)) ((tendsto_atTop_mono (fun z => le_max_left z y) tendsto_id).prodMk tendsto_const_nhds) fun z => by simp)
  · exact iff_of_false (by simp [Ext.lt]) (no (l := atTop) (fun z => (z, min (-z) z)) (tendsto_id.prodMk (tendsto_atBot_mono (fun z => min_le_left (-z) z) tendsto_neg_atTop_atBot)) fun z => by simp)
  · exact iff_of_false (by simp [Ext.lt]) (no (l := atTop) (fun z => (z, z)) (tendsto_id.prodMk tendsto_id) fun z => lt_irrefl _)
  · exact iff_of_false (by simp [Ext.lt]) (no (l := atTop) (fun z => (z, z)) (tendsto_id.prodMk tendsto_top) fun z => lt_irrefl _)
  · exact iff_of_false (by simp [Ext.lt]) (no (l := 𝓝 y) (fun z => (z, z)) (tendsto_top.prodMk tendsto_id) fun z => lt_irrefl _)
  · exact iff_of_false (by simp [Ext.lt]) (no (l := atBot) (fun z => (z, z)) (tendsto_top.prodMk tendsto_id) fun z => lt_irrefl _)
  · exact iff_of_false (by simp [Ext.lt]) (no (l := atTop) (fun z => (z, z)) (tendsto_top.prodMk tendsto_id) fun z => lt_irrefl _)
  · exact iff_of_false (by simp [Ext.lt]) (no (l := 𝓝 (0 : ℝ)) (fun z => (z, z)) (tendsto_top.prodMk tendsto_top) fun z => lt_irrefl _)

/-- C86: values are equal to themselves only, except that a not-a-number is not. -/
theorem C86_eq (rnd : ℝ → ℝ) (M : ℝ) (a b : Ext ℝ) : (Arith.extended rnd M).eq a b = true ↔ a = b ∧ a ≠ nan := by
  show Ext.eq a b = true ↔ _
  rcases a with x | (_ | _) | _ <;> rcases b with y | (_ | _) | _ <;> simp [Ext.eq]

/-- C86: less or equal. -/
theorem C86_le (rnd : ℝ → ℝ) (M : ℝ) (a b : Ext ℝ) :
    (Arith.extended rnd M).le a b = true ↔ (Arith.extended rnd M).lt a b = true ∨ (Arith.extended rnd M).eq a b = true := by
  show Ext.le a b = true ↔ Ext.lt a b = true ∨ Ext.eq a b = true
  rcases a with x | (_ | _) | _ <;> rcases b with y | (_ | _) | _ <;> simp [Ext.le, Ext.lt, Ext.eq, le_iff_lt_or_eq]

/-- The operations are determined: there is only one limit. -/
theorem C86_limit (f : ℝ × ℝ → ℝ) (a b c c' : Ext ℝ) : (Limit f (near a ×ˢ near b) c → Limit f (near a ×ˢ near b) c' → c = c') ∧
    (Limit f (near a ×ˢ near0 b) c → Limit f (near a ×ˢ near0 b) c' → c = c') := by
  have h1 := near_neBot a
  have h2 := near_neBot b
  have h3 := near0_neBot b
  exact ⟨limit_unique, limit_unique⟩

/-- There are sums with and without a limit. -/
example : Limit (fun p => p.1 + p.2) (near (inf true) ×ˢ near (num 3)) (inf true) ∧ ¬ Limit (fun p => p.1 + p.2) (near (inf true) ×ˢ near (num 3)) nan ∧
    Limit (fun p => p.1 + p.2) (near (inf true) ×ˢ near (inf false)) nan := by
  have h : Limit (fun p => p.1 + p.2) (near (inf true) ×ˢ near (num 3)) (inf true) := limit_of (Tendsto.atTop_add fst_near snd_near) (by simp)
  refine ⟨h, fun h' => ?_, none_of (l := atTop) (fun k y => (y, k - y)) id 0 1 (by simp)
    (fun k _ => tendsto_id.prodMk (tendsto_atBot_add_const_left _ k tendsto_neg_atTop_atBot)) (fun k _ => .of_forall fun y => by simp)⟩
  cases (C86_limit _ _ _ _ _).1 h h'

/-! ## Blocks -/

section
variable {rnd : ℝ → ℝ} {M : ℝ} {dbg : Bool} {l : Leaf (Ext ℝ)} {t : Ext ℝ} {w : World (Ext ℝ)} {o : SigId}

/-- C86, `Gain`: the rounded limit of the products, if the input or the gain is not a finite number. -/
theorem C86_gain_block {x : SigId} {k a c : Ext ℝ} (hk : l.kind = .gain (.scalar k) x o) (hx : Holds dbg w x (.scalar a)) (hc : Limit (fun p => p.1 * p.2) (near k ×ˢ near a) c)
    (ho : Takes dbg w o (.scalar (rounded rnd M c))) : letI := Arith.extended rnd M; Outputs dbg l t w o (.scalar (rounded rnd M c)) := by
  let _ := Arith.extended rnd M
  obtain ⟨c', h1, h2⟩ := C86_mul rnd M k a
  rw [(C86_limit _ _ _ _ _).1 hc h1, ← h2] at ho ⊢
  exact C41.C41_gain hk hx ho

/-- C86, `Subtract`. -/
theorem C86_subtract_block {x1 x2 : SigId} {a b c : Ext ℝ} (hk : l.kind = .subtract x1 x2 o) (h1 : Holds dbg w x1 (.scalar a)) (h2 : Holds dbg w x2 (.scalar b))
    (hc : Limit (fun p => p.1 - p.2) (near a ×ˢ near b) c) (ho : Takes dbg w o (.scalar (rounded rnd M c))) :
    letI := Arith.extended rnd M; Outputs dbg l t w o (.scalar (rounded rnd M c)) := by
  let _ := Arith.extended rnd M
  obtain ⟨c', e1, e2⟩ := C86_sub rnd M a b
  rw [(C86_limit _ _ _ _ _).1 hc e1, ← e2] at ho ⊢
  exact C41.C41_subtract hk h1 h2 ho

/-- C86, `Divide`. -/
theorem C86_divide_block {x1 x2 : SigId} {a b c : Ext ℝ} (hr : rnd 0 = 0) (hM : 0 ≤ M) (hk : l.kind = .divide x1 x2 o) (h1 : Holds dbg w x1 (.scalar a))
    (h2 : Holds dbg w x2 (.scalar b)) (hc : Limit (fun p => p.1 / p.2) (near a ×ˢ near0 b) c) (ho : Takes dbg w o (.scalar (rounded rnd M c))) :
    letI := Arith.extended rnd M; Outputs dbg l t w o (.scalar (rounded rnd M c)) := by
  let _ := Arith.extended rnd M
  obtain ⟨c', e1, e2⟩ := C86_div rnd M a b hr hM
  rw [(C86_limit _ _ _ _ _).2 hc e1, ← e2] at ho ⊢
  exact C41.C41_divide hk h1 h2 ho

end

noncomputable def third : World (Ext ℝ) where
  sig s := if s = 2 then { ty := .scalar } else { ty := .scalar, value := some (.scalar (if s = 0 then num 3 else num 0)), assigned := true }
  mem _ := { value := .int 0 }
  done _ := false
  log := []

/-- `Divide` of 3 by 0. -/
example : letI := Arith.extended (id : ℝ → ℝ) 100
    Outputs true ({ id := 1, links := [], kind := .divide 0 1 2 } : Leaf (Ext ℝ)) (num 0) third 2 (.scalar (inf true)) := by
  have hl : Limit (fun p => p.1 / p.2) (near (num 3) ×ˢ near0 (num 0)) (inf true) := by
    obtain ⟨c, h1, h2⟩ := C86_div id 100 (num 3) (num 0) rfl (by norm_num)
    refine limit_of ?_ (by simp)
    have f1 : Tendsto (fun p : ℝ × ℝ => p.1) (near (num 3) ×ˢ near0 (num 0)) (𝓝 3) := tendsto_fst
    have f2 : Tendsto (fun p : ℝ × ℝ => p.2⁻¹) (near (num 3) ×ˢ near0 (num 0)) atTop := by
      rw [near0, if_pos rfl]
      exact tendsto_inv_nhdsGT_zero.comp tendsto_snd
    show Tendsto _ _ atTop
    simpa only [div_eq_mul_inv, mul_comm] using Tendsto.atTop_mul_pos (by norm_num : (0 : ℝ) < 3) f2 f1
  exact C86_divide_block (rnd := id) (M := 100) (c := inf true) rfl (by norm_num) rfl (a := num 3) (b := num 0) ⟨by simp [third], fun _ => by simp [third]⟩
    ⟨by simp [third], fun _ => by simp [third]⟩ hl ⟨by simp [third, rounded, Val.hasTag], fun _ => ⟨by simp [third], by simp [third, rounded, Val.sizeOk]⟩⟩

end

end Pooya.C86
