import Verif.Proof.Erring

/-! The errors of all steps together. -/

namespace Pooya.Acc

open Pooya Set Filter Asymptotics Topology

set_option linter.unusedSectionVars false

section
variable {E : Type} [NormedAddCommGroup E] {S : ℝ → E → ℝ → E → Prop}

/-- Steps `S` that follow each other, from time to time. -/
inductive Path (S : ℝ → E → ℝ → E → Prop) : ℝ → E → List ℝ → E → Prop
  | nil {t : ℝ} {x : E} : Path S t x [] x
  | cons {t u : ℝ} {x x1 z : E} {us : List ℝ} : S t x u x1 → Path S u x1 us z → Path S t x (u :: us) z

theorem last_ge {R : ℝ → ℝ → Prop} (hR : ∀ s u, R s u → s ≤ u) : ∀ (ts : List ℝ) (t : ℝ), (t :: ts).IsChain R → t ≤ (t :: ts).getLast (by simp) := by
  intro ts
  induction ts with
  | nil => intro t _; simp
  | cons u us ih =>
    intro t h
    obtain ⟨h1, h2⟩ := List.isChain_cons_cons.1 h
    rw [List.getLast_cons (by simp)]
    exact (hR _ _ h1).trans (ih u h2)

/-- The growth of the errors. -/
theorem Path.error {Y : ℝ → E} {a b C κ η ε δ e0 : ℝ} (hC : 0 ≤ C) (hκ : 0 ≤ κ) (hε : 0 ≤ ε) (he0 : 0 ≤ e0)
    (hS : ∀ t x u x', S t x u x' → a ≤ t → t < u → u - t ≤ η → u ≤ b → ‖x - Y t‖ ≤ δ → ‖x' - Y u‖ ≤ ‖x - Y t‖ + (u - t) * (C * (ε + ‖x - Y t‖)) + κ)
    {N : ℕ} (hN : Real.exp (C * (b - a)) * (e0 + C * (b - a) * ε + N * κ) ≤ δ) : ∀ (ts : List ℝ) {t : ℝ} {x z : E} {k : ℕ}, a ≤ t → k + ts.length ≤ N → Path S t x ts z →
      (t :: ts).IsChain (fun s u => s < u ∧ u - s ≤ η) → (t :: ts).getLast (by simp) ≤ b → ‖x - Y t‖ ≤ Real.exp (C * (t - a)) * (e0 + C * (t - a) * ε + k * κ) →
      ‖z - Y ((t :: ts).getLast (by simp))‖ ≤ Real.exp (C * (b - a)) * (e0 + C * (b - a) * ε + N * κ) := by
  have mono : ∀ t (k : ℕ), a ≤ t → t ≤ b → k ≤ N → Real.exp (C * (t - a)) * (e0 + C * (t - a) * ε + k * κ) ≤ Real.exp (C * (b - a)) * (e0 + C * (b - a) * ε + N * κ) := by
    intro t k h1 h2 h3
    have h4 : 0 ≤ t - a := by linarith
    have h5 : (k : ℝ) ≤ N := by exact_mod_cast h3
    gcongr
  intro ts
  induction ts with
  | nil =>
    intro t x z k h1 h2 hp _ hb he
    cases hp
    exact he.trans (mono t k h1 hb (by simpa using h2))
  | cons u us ih =>
    intro t x z k h1 h2 hp hch hb he
    cases hp with
    | cons hs hp =>
      rename_i x1
      obtain ⟨⟨htu, hη⟩, hch'⟩ := List.isChain_cons_cons.1 hch
      rw [List.getLast_cons (by simp)] at hb
      have hub : u ≤ b := (last_ge (fun s u q => q.1.le) us u hch').trans hb
      simp only [List.length_cons] at h2
      have q := hS t x u x1 hs h1 htu hη hub ((he.trans (mono t k h1 (by linarith) (by omega))).trans hN)
      have := ih (k := k + 1) (h1.trans htu.le) (by omega) hp hch' hb ?_
      · simpa [List.getLast_cons (l := u :: us) (a := t) (by simp)] using this
      have hh : 0 ≤ u - t := by linarith
      have h5 : 1 + C * (u - t) ≤ Real.exp (C * (u - t)) := by linarith [Real.add_one_le_exp (C * (u - t))]
      have h6 : Real.exp (C * (u - a)) = Real.exp (C * (u - t)) * Real.exp (C * (t - a)) := by rw [← Real.exp_add]; congr 1; ring
      have h7 : 1 ≤ Real.exp (C * (u - a)) := Real.one_le_exp (mul_nonneg hC (by linarith))
      have h8 : (1 + C * (u - t)) * ‖x - Y t‖ ≤ Real.exp (C * (u - a)) * (e0 + C * (t - a) * ε + k * κ) := by
        rw [h6, mul_assoc]
        exact mul_le_mul h5 he (norm_nonneg _) (Real.exp_pos _).le
      have h9 : C * (u - t) * ε + κ ≤ Real.exp (C * (u - a)) * (C * (u - t) * ε + κ) := le_mul_of_one_le_left (by positivity) h7
      calc _ ≤ _ := q
        _ = (1 + C * (u - t)) * ‖x - Y t‖ + (C * (u - t) * ε + κ) := by ring
        _ ≤ _ := add_le_add h8 h9
        _ = _ := by push_cast; ring

/-- Steps of some length are not too many. -/
theorem count_le {c : ℝ} : ∀ (ts : List ℝ) (t : ℝ), (t :: ts).IsChain (fun s u => c ≤ u - s) → ts.length * c ≤ (t :: ts).getLast (by simp) - t := by
  intro ts
  induction ts with
  | nil => intro t _; simp
  | cons u us ih =>
    intro t h
    obtain ⟨h1, h2⟩ := List.isChain_cons_cons.1 h
    have := ih u h2
    rw [List.getLast_cons (by simp), List.length_cons]
    push_cast
    linarith

end

variable {d : Sketch} {a b : ℝ} {X : SigId → ℝ → ℝ} {n : Nat} {o g : Fin n → SigId} {sol : ℝ → (Fin n → ℝ) → SigId → ℝ} {rank : BlkId → Nat}

/-- The states of the course. -/
def path (X : SigId → ℝ → ℝ) (o : Fin n → SigId) (t : ℝ) : Fin n → ℝ := fun k => X (o k) t

/-- A computed step. -/
structure Case (n : Nat) where
  A : Arith ℝ
  R : ℝ
  ρ : ℝ
  t : ℝ
  u : ℝ
  x : Fin n → ℝ
  y : Fin n → ℝ

/-- Steps become short and exact. -/
def fading (a b : ℝ) (X : SigId → ℝ → ℝ) (o : Fin n → SigId) (S : Case n → Prop) : Filter (Case n) :=
  (comap (fun c => (c.u - c.t, c.x - path X o c.t, c.ρ)) (𝓝 (0, 0, 0)) ⊓ comap Case.R atTop) ⊓
    𝓟 {c | c.A.Within c.R c.ρ ∧ 0 ≤ c.ρ ∧ (a ≤ c.t ∧ c.t < c.u ∧ c.R * c.ρ ≤ c.u - c.t ∧ c.u + c.R * c.ρ ≤ b) ∧ S c}

theorem fading_in {S : Case n → Prop} : ∀ᶠ c in fading a b X o S, c.A.Within c.R c.ρ ∧ 0 ≤ c.ρ ∧ (a ≤ c.t ∧ c.t < c.u ∧ c.R * c.ρ ≤ c.u - c.t ∧ c.u + c.R * c.ρ ≤ b) ∧ S c :=
  mem_inf_of_right (mem_principal_self _)

theorem fading_steps {S : Case n → Prop} : Steps (fading a b X o S) Case.A Case.R Case.ρ a b X o Case.t Case.u Case.x := by
  have h : Tendsto (fun c : Case n => (c.u - c.t, c.x - path X o c.t, c.ρ)) (fading a b X o S) (𝓝 (0, 0, 0)) := tendsto_comap.mono_left (inf_le_left.trans inf_le_left)
  have h2 := (continuous_fst.tendsto _).comp ((continuous_snd.tendsto _).comp h)
  refine ⟨⟨fading_in.mono fun c q => q.1, tendsto_comap.mono_left (inf_le_left.trans inf_le_right), (continuous_snd.tendsto _).comp ((continuous_snd.tendsto _).comp h)⟩,
    fading_in.mono fun c q => q.2.1, fading_in.mono fun c q => q.2.2.1, (continuous_fst.tendsto _).comp h, fun k => ?_⟩
  exact (continuous_apply k).tendsto _ |>.comp h2

theorem of_fading {S P : Case n → Prop} (h : ∀ᶠ c in fading a b X o S, P c) : ∃ δ > 0, ∃ K, ∀ c : Case n, K ≤ c.R → c.A.Within c.R c.ρ → 0 ≤ c.ρ →
    a ≤ c.t → c.t < c.u → c.R * c.ρ ≤ c.u - c.t → c.u + c.R * c.ρ ≤ b → S c → c.u - c.t ≤ δ → ‖c.x - path X o c.t‖ ≤ δ → c.ρ ≤ δ → P c := by
  unfold fading at h
  rw [eventually_inf_principal, eventually_inf] at h
  obtain ⟨s, hs, s', hs', h⟩ := h
  obtain ⟨w, hw, hws⟩ := mem_comap.1 hs
  obtain ⟨w', hw', hws'⟩ := mem_comap.1 hs'
  obtain ⟨ε, hε, hb⟩ := Metric.mem_nhds_iff.1 hw
  obtain ⟨K, hK⟩ := mem_atTop_sets.1 hw'
  refine ⟨ε / 2, by linarith, K, fun c h0 h1 h2 h3 h4 h5 h6 h7 h8 h9 h10 => h c ⟨hws (hb ?_), hws' (hK _ h0)⟩ ⟨h1, h2, ⟨h3, h4, h5, h6⟩, h7⟩⟩
  have e : (0 : ℝ × (Fin n → ℝ) × ℝ) = (0, 0, 0) := rfl
  rw [Metric.mem_ball, Prod.dist_eq, Prod.dist_eq]
  simp only [dist_zero_right]
  rw [max_lt_iff, max_lt_iff, Real.norm_of_nonneg (by linarith), Real.norm_of_nonneg h2]
  exact ⟨by linarith, by linarith, by linarith⟩

/-- The errors of one step, compared to the exact step `Φ`. -/
theorem one_step {S : Case n → Prop} {Φ : ℝ → (Fin n → ℝ) → ℝ → Fin n → ℝ} (h : ∀ k, (fun c : Case n => c.y k - Φ c.t c.x c.u k) =O[fading a b X o S] Case.ρ) :
    ∃ δ > 0, ∃ C ≥ 0, ∀ c : Case n, C ≤ c.R → c.A.Within c.R c.ρ → 0 ≤ c.ρ →
      a ≤ c.t → c.t < c.u → c.R * c.ρ ≤ c.u - c.t → c.u + c.R * c.ρ ≤ b → S c → c.u - c.t ≤ δ → ‖c.x - path X o c.t‖ ≤ δ → c.ρ ≤ δ → ‖c.y - Φ c.t c.x c.u‖ ≤ C * c.ρ := by
  have h' : (fun c : Case n => c.y - Φ c.t c.x c.u) =O[fading a b X o S] Case.ρ := isBigO_pi.2 h
  obtain ⟨C, hC⟩ := h'.bound
  obtain ⟨δ, hδ, K, key⟩ := of_fading hC
  refine ⟨δ, hδ, max (max C K) 0, le_max_right _ _, fun c h0 h1 h2 h3 h4 h5 h6 h7 h8 h9 h10 => ?_⟩
  have := key c ((le_max_right _ _).trans ((le_max_left _ _).trans h0)) h1 h2 h3 h4 h5 h6 h7 h8 h9 h10
  rw [Real.norm_of_nonneg h2] at this
  exact this.trans (mul_le_mul_of_nonneg_right ((le_max_left _ _).trans (le_max_left _ _)) h2)

/-! ### The signals -/

/-- Computed signals. -/
structure Show (n : Nat) where
  A : Arith ℝ
  R : ℝ
  ρ : ℝ
  t : ℝ
  x : Fin n → ℝ
  Z : SigId → ℝ

def shows (d : Sketch) (a b : ℝ) (X : SigId → ℝ → ℝ) (o : Fin n → SigId) : Filter (Show n) :=
  (comap (fun c => (c.x - path X o c.t, c.ρ)) (𝓝 (0, 0)) ⊓ comap Show.R atTop) ⊓
    𝓟 {c | c.A.Within c.R c.ρ ∧ c.t ∈ Icc a b ∧ d.About c.A c.R c.ρ c.t c.Z ∧ ∀ k, c.Z (o k) = c.x k}

theorem signal_error (ref : Ref d o g sol) (hd : Calm d rank a b X) {s : SigId} (hs : s ∈ d.signals) : ∃ δ > 0, ∃ C ≥ 0, ∀ (A : Arith ℝ) (R ρ t : ℝ) (x : Fin n → ℝ) (Z : SigId → ℝ),
    C ≤ R → A.Within R ρ → 0 ≤ ρ → t ∈ Icc a b → d.About A R ρ t Z → (∀ k, Z (o k) = x k) → ‖x - path X o t‖ ≤ δ → ρ ≤ δ → |Z s - X s t| ≤ C * (ρ + ‖x - path X o t‖) := by
  have hin : ∀ᶠ c in shows d a b X o, c.A.Within c.R c.ρ ∧ c.t ∈ Icc a b ∧ d.About c.A c.R c.ρ c.t c.Z ∧ ∀ k, c.Z (o k) = c.x k := mem_inf_of_right (mem_principal_self _)
  have ht : Tendsto (fun c : Show n => (c.x - path X o c.t, c.ρ)) (shows d a b X o) (𝓝 (0, 0)) := tendsto_comap.mono_left (inf_le_left.trans inf_le_left)
  have fine : Fine (shows d a b X o) Show.A Show.R Show.ρ := ⟨hin.mono fun c q => q.1, tendsto_comap.mono_left (inf_le_left.trans inf_le_right), (continuous_snd.tendsto _).comp ht⟩
  have near : ∀ k, Tendsto (fun c : Show n => c.x k - X (o k) c.t) (shows d a b X o) (𝓝 0) := fun k =>
    ((continuous_apply k).tendsto _).comp ((continuous_fst.tendsto _).comp ht)
  have hins : ∀ᶠ c in shows d a b X o, c.t ∈ Icc a b := hin.mono fun c q => q.2.1
  have st : Stage (shows d a b X o) Show.A Show.R Show.ρ d a b X o Show.t Show.t Show.x Show.Z := by
    refine ⟨hins, hins, by simpa using isBigO_zero _ _, hin.mono fun c q => q.2.2.1, near, fun k => ⟨?_, ?_⟩⟩
    · exact congr_err (p' := fun c => c.x k) (by simpa using isBigO_zero _ _) (hin.mono fun c q => q.2.2.2 k)
    · obtain ⟨K, hK⟩ := isCompact_Icc.exists_bound_of_continuousOn (hd.cont _ (ref.mem k)).continuousOn
      have h1 : (fun c : Show n => X (o k) c.t) =O[shows d a b X o] (fun _ => (1 : ℝ)) := IsBigO.of_bound K (hins.mono fun i hi => by simpa using hK _ hi)
      simpa using ((near k).isBigO_one ℝ).add h1
  obtain ⟨C, hC⟩ := (st.close fine ref hd s hs).err.bound
  obtain ⟨r, hr, L, hL, hnear⟩ := ref.near hd hs
  unfold shows at hC
  rw [eventually_inf_principal, eventually_inf] at hC
  obtain ⟨w1, hs1, w2, hs2, h⟩ := hC
  obtain ⟨w, hw, hws⟩ := mem_comap.1 hs1
  obtain ⟨w', hw', hws'⟩ := mem_comap.1 hs2
  obtain ⟨ε, hε, hb⟩ := Metric.mem_nhds_iff.1 hw
  obtain ⟨K, hK⟩ := mem_atTop_sets.1 hw'
  refine ⟨min r (ε / 2), lt_min hr (by linarith), max (max (max C L) K) 0, le_max_right _ _, fun A R ρ t x Z h0 h1 h2 h3 h4 h5 h6 h7 => ?_⟩
  have h6' := h6.trans (min_le_right _ _)
  have h7' := h7.trans (min_le_right _ _)
  have q1 := h ⟨A, R, ρ, t, x, Z⟩ ⟨hws (hb ?_), hws' (hK _ ((le_max_right _ _).trans ((le_max_left _ _).trans h0)))⟩ ⟨h1, h3, h4, h5⟩
  · have q2 := hnear t h3 x (h6.trans (min_le_left _ _))
    simp only at q1
    rw [Real.norm_eq_abs, Real.norm_of_nonneg h2] at q1
    have q3 := abs_add_le (Z s - sol t x s) (sol t x s - X s t)
    rw [sub_add_sub_cancel] at q3
    have m1 : C ≤ max (max (max C L) K) 0 := (le_max_left _ _).trans ((le_max_left _ _).trans (le_max_left _ _))
    have m2 : L ≤ max (max (max C L) K) 0 := (le_max_right _ _).trans ((le_max_left _ _).trans (le_max_left _ _))
    have q4 := mul_le_mul_of_nonneg_right m1 h2
    have q5 := mul_le_mul_of_nonneg_right m2 (norm_nonneg (x - path X o t))
    have q6 : L * ‖x - fun i => X (o i) t‖ = L * ‖x - path X o t‖ := rfl
    linarith
  · rw [Metric.mem_ball, Prod.dist_eq]
    simp only [dist_zero_right]
    rw [max_lt_iff, Real.norm_of_nonneg h2]
    exact ⟨by linarith, by linarith⟩

theorem uniform_list {P : SigId → ℝ → ℝ → Prop} (hm : ∀ s δ δ' C C', P s δ C → δ' ≤ δ → C ≤ C' → 0 ≤ C → P s δ' C') : ∀ (xs : List SigId),
    (∀ s ∈ xs, ∃ δ > 0, ∃ C ≥ 0, P s δ C) → ∃ δ > 0, ∃ C ≥ 0, ∀ s ∈ xs, P s δ C := by
  intro xs
  induction xs with
  | nil => intro _; exact ⟨1, one_pos, 0, le_refl _, fun s hs => by cases hs⟩
  | cons s xs ih =>
    intro h
    obtain ⟨δ, h1, C, h2, h3⟩ := ih (fun q hq => h q (.tail _ hq))
    obtain ⟨δ', k1, C', k2, k3⟩ := h s (.head _)
    refine ⟨min δ δ', lt_min h1 k1, max C C', h2.trans (le_max_left _ _), fun q hq => ?_⟩
    rcases List.mem_cons.1 hq with rfl | hq
    · exact hm _ _ _ _ _ k3 (min_le_right _ _) (le_max_right _ _) k2
    · exact hm _ _ _ _ _ (h3 q hq) (min_le_left _ _) (le_max_left _ _) h2

theorem signals_error (ref : Ref d o g sol) (hd : Calm d rank a b X) : ∃ δ > 0, ∃ C ≥ 0, ∀ s ∈ d.signals, ∀ (A : Arith ℝ) (R ρ t : ℝ) (x : Fin n → ℝ) (Z : SigId → ℝ),
    C ≤ R → A.Within R ρ → 0 ≤ ρ → t ∈ Icc a b → d.About A R ρ t Z → (∀ k, Z (o k) = x k) → ‖x - path X o t‖ ≤ δ → ρ ≤ δ → |Z s - X s t| ≤ C * (ρ + ‖x - path X o t‖) := by
  refine uniform_list (P := fun s δ C => ∀ (A : Arith ℝ) (R ρ t : ℝ) (x : Fin n → ℝ) (Z : SigId → ℝ),
    C ≤ R → A.Within R ρ → 0 ≤ ρ → t ∈ Icc a b → d.About A R ρ t Z → (∀ k, Z (o k) = x k) → ‖x - path X o t‖ ≤ δ → ρ ≤ δ → |Z s - X s t| ≤ C * (ρ + ‖x - path X o t‖)) ?_ _
    (fun s hs => signal_error ref hd hs)
  intro s δ δ' C C' h h1 h2 h3 A R ρ t x Z q1 q2 q3 q4 q5 q6 q7 q8
  refine (h A R ρ t x Z (h2.trans q1) q2 q3 q4 q5 q6 (q7.trans h1) (q8.trans h1)).trans (mul_le_mul_of_nonneg_right h2 ?_)
  have := norm_nonneg (x - path X o t)
  linarith

/-! ### All together -/

/-- A method of order `p` whose steps `S` are computed with errors: the errors of all signals after any number of steps. -/
theorem total_error (ref : Ref d o g sol) (hd : Calm d rank a b X) {S : Arith ℝ → ℝ → ℝ → ℝ → (Fin n → ℝ) → ℝ → (Fin n → ℝ) → Prop} {Φ : ℝ → (Fin n → ℝ) → ℝ → Fin n → ℝ} {p : ℕ} (hp : 1 ≤ p)
    (hS : ∀ k, (fun c : Case n => c.y k - Φ c.t c.x c.u k) =O[fading a b X o (fun c => S c.A c.R c.ρ c.t c.x c.u c.y)] Case.ρ)
    (hΦ : ∃ δ > 0, ∃ C ≥ 0, ∀ t u x, a ≤ t → t < u → u ≤ b → u - t ≤ δ → ‖x - path X o t‖ ≤ δ →
      ‖Φ t x u - x - (path X o u - path X o t)‖ ≤ (u - t) * (C * ((u - t) ^ p + ‖x - path X o t‖))) :
    ∃ η0 > 0, ∃ B > 0, ∀ (A : Arith ℝ) (ρ : ℝ), 0 ≤ ρ → ρ ≤ η0 → A.Within B ρ → ∀ η, η ≤ η0 → ∀ ts : List ℝ,
      (a :: ts).IsChain (fun s u => s < u ∧ B * ρ ≤ u - s ∧ u - s ≤ η) → (a :: ts).getLast (by simp) + B * ρ ≤ b → ∀ (x0 z : Fin n → ℝ) (Z : SigId → ℝ),
      ‖x0 - path X o a‖ ≤ ρ → Path (fun t x u y => S A B ρ t x u y) a x0 ts z → d.About A B ρ ((a :: ts).getLast (by simp)) Z → (∀ k, Z (o k) = z k) →
      0 ≤ η → ∀ s ∈ d.signals, |Z s - X s ((a :: ts).getLast (by simp))| ≤ B * (η ^ p + (ts.length + 1) * ρ) := by
  obtain ⟨δ1, hδ1, C1, hC1, k1⟩ := one_step hS
  obtain ⟨δ2, hδ2, C2, hC2, k2⟩ := hΦ
  obtain ⟨δ3, hδ3, C3, hC3, k3⟩ := signals_error ref hd
  have hba : 0 ≤ b - a := by linarith [hd.lt]
  obtain ⟨B1, hB1, hB1p⟩ : ∃ B1, B1 = Real.exp (C2 * (b - a)) * (1 + C2 * (b - a) + C1) ∧ 0 < B1 := ⟨_, rfl, by positivity⟩
  obtain ⟨δ, hδ, m1, m2, m3⟩ : ∃ δ > 0, δ ≤ δ1 ∧ δ ≤ δ2 ∧ δ ≤ δ3 :=
    ⟨min (min δ1 δ2) δ3, lt_min (lt_min hδ1 hδ2) hδ3, (min_le_left _ _).trans (min_le_left _ _), (min_le_left _ _).trans (min_le_right _ _), min_le_right _ _⟩
  obtain ⟨B, hB, n1, n2, n3, n4⟩ : ∃ B > 0, C1 ≤ B ∧ C3 ≤ B ∧ B1 * (b - a) ≤ δ / 3 * B ∧ C3 * (1 + B1) ≤ B := by
    refine ⟨C1 + C3 + B1 * (b - a) / (δ / 3) + C3 * (1 + B1) + 1, by positivity, ?_, ?_, ?_, ?_⟩
    · have : 0 ≤ C3 + B1 * (b - a) / (δ / 3) + C3 * (1 + B1) + 1 := by positivity
      linarith
    · have : 0 ≤ C1 + B1 * (b - a) / (δ / 3) + C3 * (1 + B1) + 1 := by positivity
      linarith
    · have e : δ / 3 * (B1 * (b - a) / (δ / 3)) = B1 * (b - a) := by field_simp
      have : 0 ≤ δ / 3 * (C1 + C3 + C3 * (1 + B1) + 1) := by positivity
      linarith
    · have : 0 ≤ C1 + C3 + B1 * (b - a) / (δ / 3) + 1 := by positivity
      linarith
  obtain ⟨η0, hη0, l1, l2, l3⟩ : ∃ η0 > 0, η0 ≤ δ ∧ η0 ≤ 1 ∧ B1 * η0 ≤ δ / 3 := by
    refine ⟨min (min δ 1) (δ / 3 / B1), lt_min (lt_min hδ one_pos) (by positivity), (min_le_left _ _).trans (min_le_left _ _), (min_le_left _ _).trans (min_le_right _ _), ?_⟩
    have := mul_le_mul_of_nonneg_left (min_le_right (min δ 1) (δ / 3 / B1)) hB1p.le
    rwa [mul_div_cancel₀ _ hB1p.ne'] at this
  refine ⟨η0, hη0, B, hB, fun A ρ hρ hρ' hA η hη ts hch hlast x0 z Z hx0 hpath hab hZ hη0' s hs => ?_⟩
  have hBρ : 0 ≤ B * ρ := mul_nonneg hB.le hρ
  have hlb : (a :: ts).getLast (by simp) ≤ b := by linarith
  have hla : a ≤ (a :: ts).getLast (by simp) := last_ge (fun s u q => q.1.le) ts a hch
  have hcount : ts.length * (B * ρ) ≤ b - a := (count_le ts a (hch.imp fun s u q => q.2.1)).trans (by linarith)
  have hN : B1 * (ts.length * ρ) ≤ δ / 3 := by
    have h1 : B * (B1 * (ts.length * ρ)) ≤ B * (δ / 3) := by
      calc B * (B1 * (ts.length * ρ)) = B1 * (ts.length * (B * ρ)) := by ring
        _ ≤ B1 * (b - a) := mul_le_mul_of_nonneg_left hcount hB1p.le
        _ ≤ _ := by linarith
    exact le_of_mul_le_mul_left h1 hB
  have hηp : η ^ p ≤ η := by
    calc η ^ p ≤ η ^ 1 := pow_le_pow_of_le_one hη0' (hη.trans l2) hp
      _ = η := pow_one _
  have htot : Real.exp (C2 * (b - a)) * (ρ + C2 * (b - a) * η ^ p + ts.length * (C1 * ρ)) ≤ B1 * (η ^ p + (ts.length + 1) * ρ) := by
    rw [hB1]
    have : 0 ≤ Real.exp (C2 * (b - a)) := (Real.exp_pos _).le
    have hp0 : 0 ≤ η ^ p := pow_nonneg hη0' _
    have hl0 : (0 : ℝ) ≤ ts.length := Nat.cast_nonneg _
    rw [mul_assoc (Real.exp (C2 * (b - a))) (1 + C2 * (b - a) + C1)]
    refine mul_le_mul_of_nonneg_left ?_ this
    have e1 : 0 ≤ C2 * (b - a) * ((ts.length + 1) * ρ) := by positivity
    have e2 : 0 ≤ C1 * η ^ p := by positivity
    have e3 : 0 ≤ C1 * ρ := by positivity
    have e4 : 0 ≤ ts.length * ρ := by positivity
    nlinarith
  have hδB : B1 * (η ^ p + (ts.length + 1) * ρ) ≤ δ := by
    have e1 := mul_le_mul_of_nonneg_left (hηp.trans hη) hB1p.le
    have e2 := mul_le_mul_of_nonneg_left hρ' hB1p.le
    linarith
  have hstep : ∀ t x u x', (B * ρ ≤ u - t ∧ u + B * ρ ≤ b ∧ S A B ρ t x u x') → a ≤ t → t < u → u - t ≤ η → u ≤ b → ‖x - path X o t‖ ≤ δ →
      ‖x' - path X o u‖ ≤ ‖x - path X o t‖ + (u - t) * (C2 * (η ^ p + ‖x - path X o t‖)) + C1 * ρ := by
    rintro t x u x' ⟨w1, w2, w3⟩ h1 h2 h3 h4 h5
    have q1 := k1 ⟨A, B, ρ, t, u, x, x'⟩ n1 hA hρ h1 h2 w1 w2 w3 (by simp only; linarith) (h5.trans m1) (by simp only; linarith)
    have q2 := k2 t u x h1 h2 h4 (by linarith) (h5.trans m2)
    simp only at q1
    have e : x' - path X o u = (x - path X o t) + (Φ t x u - x - (path X o u - path X o t)) + (x' - Φ t x u) := by abel
    have q3 := (norm_add_le ((x - path X o t) + (Φ t x u - x - (path X o u - path X o t))) (x' - Φ t x u)).trans (add_le_add (norm_add_le _ _) (le_refl _))
    rw [← e] at q3
    have q4 : (u - t) ^ p ≤ η ^ p := pow_le_pow_left₀ (by linarith) h3 p
    have q5 : (u - t) * (C2 * ((u - t) ^ p + ‖x - path X o t‖)) ≤ (u - t) * (C2 * (η ^ p + ‖x - path X o t‖)) := by
      refine mul_le_mul_of_nonneg_left (mul_le_mul_of_nonneg_left ?_ hC2) (by linarith)
      linarith
    linarith
  have hpath' : ∀ (ts : List ℝ) {t : ℝ} {x z : Fin n → ℝ}, (t :: ts).IsChain (fun s u => s < u ∧ B * ρ ≤ u - s ∧ u - s ≤ η) → (t :: ts).getLast (by simp) + B * ρ ≤ b →
      Path (fun t x u y => S A B ρ t x u y) t x ts z → Path (fun t x u x' => B * ρ ≤ u - t ∧ u + B * ρ ≤ b ∧ S A B ρ t x u x') t x ts z := by
    intro ts
    induction ts with
    | nil => intro t x z _ _ hp; cases hp; exact .nil
    | cons u us ih =>
      intro t x z hch hl hp
      cases hp with
      | cons q1 q2 =>
        obtain ⟨c1, c2⟩ := List.isChain_cons_cons.1 hch
        rw [List.getLast_cons (by simp)] at hl
        have := last_ge (fun s u q => q.1.le) us u c2
        exact .cons ⟨c1.2.1, by linarith, q1⟩ (ih c2 hl q2)
  have herr := Path.error (Y := path X o) (a := a) (b := b) (η := η) hC2 (mul_nonneg hC1 hρ) (pow_nonneg hη0' p) hρ hstep (N := ts.length) (htot.trans hδB) ts (k := 0) (le_refl _) (by simp)
    (hpath' ts hch hlast hpath) (hch.imp fun s u q => ⟨q.1, q.2.2⟩) hlb (by simpa using hx0)
  have herr' := herr.trans htot
  have fin := k3 s hs A B ρ _ z Z n2 hA hρ ⟨hla, hlb⟩ hab hZ ((herr'.trans hδB).trans m3) (by linarith)
  have hpos : 0 ≤ η ^ p + (ts.length + 1) * ρ := by
    have := pow_nonneg hη0' p
    positivity
  have hρle : ρ ≤ η ^ p + (ts.length + 1) * ρ := by
    have e1 := pow_nonneg hη0' p
    have e2 : 0 ≤ ts.length * ρ := by positivity
    linarith
  calc _ ≤ _ := fin
    _ ≤ C3 * ((η ^ p + (ts.length + 1) * ρ) + B1 * (η ^ p + (ts.length + 1) * ρ)) := mul_le_mul_of_nonneg_left (add_le_add hρle herr') hC3
    _ = C3 * (1 + B1) * (η ^ p + (ts.length + 1) * ρ) := by ring
    _ ≤ _ := mul_le_mul_of_nonneg_right n4 hpos

end Pooya.Acc
