import Verif.Proof.Fourth
import Verif.Proof.Sharp
import Verif.Props.C67

/-! # C68: the methods of order 4 converge with order 4 -/

namespace Pooya.C68

open Pooya Set

set_option linter.unusedSectionVars false

attribute [local instance] Arith.exact

/-- The methods of order 4. -/
theorem step_fourth {n : Nat} {f : ℝ → List ℝ → List ℝ} (hf : ∀ t x, x.length = n → (f t x).length = n) {st : Stepper ℝ} (he : st ∈ [rk4, rkf45]) :
    ∃ T : Tableau, Conv.Fourth T ∧ ∀ t u (v : Fin n → ℝ), ((st t (List.ofFn v) u).exec (m := Id) f).1 = List.ofFn (T.step (C61.vec n f) t v (u - t)) := by
  have key : ∀ t u (v : Fin n → ℝ), (st t (List.ofFn v) u).Dim n → ((st t (List.ofFn v) u).exec (m := Id) f) = (st t (List.ofFn v) u).exec (m := Id) (onLists (C61.vec n f)) :=
    fun t u v hd => C61.exec_congr hf (C61.onLists_vec hf) _ hd
  have hdim := fun t u (v : Fin n → ℝ) => C44.C44_dimension n t (List.ofFn v) u (by simp)
  simp only [List.mem_cons, List.not_mem_nil, or_false] at he
  rcases he with rfl | rfl
  · exact ⟨_, Conv.fourth_rk4, fun t u v => by rw [key t u v (hdim t u v).2.1, C44.C44_rk4]⟩
  · exact ⟨_, Conv.fourth_fehlberg4, fun t u v => by rw [key t u v (hdim t u v).2.2, C44.C44_rkf45]⟩

/-- C68: a closed diagram of blocks without memory, simulated with `Rk4` or `Rkf45`.  Let `y` be the solution of the differential equation that the equations of the
diagram define, on `[t0, T]`, beginning with the initial conditions given to the integrators, with five continuous derivatives.  Near `y`, let the right-hand side be a
linear function `A t` of the distance, up to the square of the distance, where `A` has two continuous derivatives.  Whatever increasing times with distances up to `η` the
simulator is run for, the error of the state is then at most proportional to the fourth power of `η`. -/
theorem C68_order (cfg : Config ℝ) (ps : List (Wire ℝ)) (ty : SigId → Ty) (rank : BlkId → Nat) (h : cfg.Sealed ps ty rank)
    (hme : ∀ p ∈ ps, p.obj.Memoryless) (hs : ∃ p ∈ ps, p.obj.isState = true) (st : Stepper ℝ) (hst : cfg.stepper = some st) (he : st ∈ [rk4, rkf45])
    (wd : World ℝ) (hw : wd.New cfg ty) (hlog : wd.log = []) (tPrev t0 minH maxH : ℝ) (h0 : 0 < minH) (h1 : minH < maxH) (m0 : Machine ℝ)
    (hinit : Call.exec cfg (.init t0) { w := wd, s := { tPrev := tPrev } } = .ok () m0) (T r L Q : ℝ) (hT : t0 < T) (hr : 0 < r)
    (y y1 : ℝ → Fin m0.s.nState → ℝ) (hy : C61.Solves cfg m0.vars wd.mem ∅ t0 T y y1 r L) (hs5 : ContDiffOn ℝ 5 y (Icc t0 T))
    (A : ℝ → (Fin m0.s.nState → ℝ) →L[ℝ] (Fin m0.s.nState → ℝ)) (hA : ContDiffOn ℝ 2 A (Icc t0 T))
    (hq : ∀ t ∈ Icc t0 T, ∀ x d : Fin m0.s.nState → ℝ, ‖x - y t‖ ≤ r → Rhs cfg m0.vars wd.mem t (List.ofFn x) (List.ofFn d) →
      ‖d - y1 t - A t (x - y t)‖ ≤ Q * ‖x - y t‖ ^ 2) :
    ∃ η0 > 0, ∃ B, ∀ η, 0 ≤ η → η ≤ η0 → ∀ ts : List ℝ, (t0 :: ts).Pairwise (· < ·) → (t0 :: ts).IsChain (fun s u => u - s ≤ η) → (t0 :: ts).getLast (by simp) ≤ T →
      (∃ m, RunsTo cfg minH maxH m0 ts m) ∧ ∀ m, RunsTo cfg minH maxH m0 ts m → ∃ v : Fin m0.s.nState → ℝ, cfg.Stands m0.vars m.w.mem (List.ofFn v) ∧
        ‖v - y ((t0 :: ts).getLast (by simp))‖ ≤ B * η ^ 4 ∧ ∀ mem, Solution cfg m0.vars mem ((t0 :: ts).getLast (by simp)) (List.ofFn v) m.w.shown := by
  obtain ⟨m0', V, n, f, x0, g1, rfl, rfl, g4, g5, g6, g7, g8, g9, g10, g11⟩ := C60.C60_trajectory cfg ps ty rank h hme hs st hst
    (by simp only [List.mem_cons, List.not_mem_nil, or_false] at he ⊢; tauto) wd hw hlog tPrev t0 minH maxH h0 h1
  rw [hinit] at g1
  cases g1
  have hx0 : x0 = List.ofFn (y t0) := packed_unique g10 hy.initial (fun _ _ => rfl)
  have hrhs : ∀ t (v d : Fin m0.s.nState → ℝ), Rhs cfg m0.vars wd.mem t (List.ofFn v) (List.ofFn d) ↔ d = C61.vec _ f t v := by
    intro t v d
    rw [g8 _ _ _ _ (by simp), C61.vec_eq g9]
    exact List.ofFn_injective.eq_iff
  obtain ⟨tab, hfour, hΦ⟩ := step_fourth g9 he
  obtain ⟨M1, hM1⟩ := Conv.ladder_of hT (m := 5) (by exact_mod_cast hs5)
  obtain ⟨M2, hM2⟩ := Conv.ladder_of hT (m := 2) (by exact_mod_cast hA)
  have hu : UniqueDiffOn ℝ (Icc t0 T) := uniqueDiffOn_Icc hT
  have hy1 : ∀ t ∈ Icc t0 T, iteratedDerivWithin 1 y (Icc t0 T) t = y1 t := fun t ht => by
    rw [iteratedDerivWithin_one]
    exact (hy.deriv t ht (by simp)).derivWithin (hu t ht)
  have hsl : Conv.Sleek (C61.vec _ f) (fun k => iteratedDerivWithin k y (Icc t0 T)) (fun k => iteratedDerivWithin k A (Icc t0 T)) t0 T r Q (max M1 M2) := by
    refine ⟨⟨hM1.deriv, fun k hk t ht => (hM1.bound k hk t ht).trans (le_max_left _ _)⟩, ⟨hM2.deriv, fun k hk t ht => (hM2.bound k hk t ht).trans (le_max_right _ _)⟩,
      fun t ht x hx => ?_⟩
    rw [hy1 t ht]
    simp only [iteratedDerivWithin_zero] at hx ⊢
    exact hq t ht x _ hx ((hrhs t x _).2 rfl)
  obtain ⟨δ, hδ, B, hB, key⟩ := hfour.iter hsl hr
  refine ⟨δ, hδ, B, fun η e1 e2 ts hp hg hl => ?_⟩
  obtain ⟨k1, k2⟩ := g11 ts hp
  refine ⟨k1, fun m hm => ?_⟩
  obtain ⟨x, hfo, _, hstand, hsol⟩ := k2 m hm
  obtain ⟨us, hpu, hgu, hlu, hx⟩ := C61.follows_times hfo hg
  have hxe : x = List.ofFn (Conv.iter (fun t x u => tab.step (C61.vec _ f) t x (u - t)) t0 (y t0) us) := by
    rw [hx, hx0, C61.iterate_vec hΦ]
  have := key η e1 e2 us hpu hgu (by rw [hlu]; exact hl)
  simp only [iteratedDerivWithin_zero, hlu] at this
  exact ⟨_, hxe ▸ hstand, this, hxe ▸ hsol⟩

/-- `x' = x`, `x(0) = 1`: the error of the exponential function. -/
example (st : Strategy) (sp : Stepper ℝ) (hsp : sp ∈ [rk4, rkf45]) (T : ℝ) (hT : 0 < T) :
    ∃ m0, Call.exec (C61.Growth.cfg st sp) (.init 0) { w := C61.Growth.world, s := { tPrev := 0 } } = .ok () m0 ∧
    ∃ η0 > 0, ∃ B, ∀ η, 0 ≤ η → η ≤ η0 → ∀ ts : List ℝ, (0 :: ts).Pairwise (· < ·) → (0 :: ts).IsChain (fun s u => u - s ≤ η) → (0 :: ts).getLast (by simp) ≤ T →
      (∃ m, RunsTo (C61.Growth.cfg st sp) (1/10) 10 m0 ts m) ∧ ∀ m, RunsTo (C61.Growth.cfg st sp) (1/10) 10 m0 ts m →
        ∃ v : ℝ, (m.w.mem 2).value = .scalar v ∧ |v - Real.exp ((0 :: ts).getLast (by simp))| ≤ B * η ^ 4 := by
  have hsp' : sp ∈ [euler, rk4, rkf45] := .tail _ hsp
  obtain ⟨m0, g1, g2, g3⟩ := C61.Growth.started st sp hsp'
  refine ⟨m0, g1, ?_⟩
  have hs : C61.Solves (C61.Growth.cfg st sp) m0.vars C61.Growth.world.mem ∅ 0 T (fun t (_ : Fin m0.s.nState) => Real.exp t) (fun t _ => Real.exp t) 1 1 := by
    rw [g3]; exact C61.Growth.solves st sp T g2
  have of1 : ∀ v : Fin m0.s.nState → ℝ, List.ofFn v = [v ⟨0, by omega⟩] := fun v => by
    refine List.ext_getElem (by simp [g2]) fun i h _ => ?_
    have : i = 0 := by simp [g2] at h; exact h
    subst this; simp
  obtain ⟨η, h1, B, h2⟩ := C68_order (C61.Growth.cfg st sp) C61.Growth.wires _ _ (C61.Growth.closed st sp hsp') (by simp [C61.Growth.wires, Make.Memoryless]) ⟨_, .tail _ (.head _), rfl⟩
    sp rfl hsp C61.Growth.world (C61.Growth.fresh st sp) rfl 0 0 (1/10) 10 (by norm_num) (by norm_num) m0 g1 T 1 1 0 hT one_pos _ _ hs
    (contDiff_pi.2 fun _ => Real.contDiff_exp).contDiffOn (fun _ => .id ℝ _) contDiffOn_const (by
      intro t _ x d _ hd
      rw [g3, of1, of1, C61.Growth.rhs_iff] at hd
      have : d = x := by
        funext i
        have e : i = ⟨0, by omega⟩ := Fin.ext (by omega)
        rw [e]; exact hd
      rw [this, ContinuousLinearMap.id_apply, sub_self, norm_zero, zero_mul])
  refine ⟨η, h1, B, fun η q1 q2 ts a1 a2 a3 => ?_⟩
  obtain ⟨k1, k2⟩ := h2 η q1 q2 ts a1 a2 a3
  refine ⟨k1, fun m hm => ?_⟩
  obtain ⟨v, q1, q2, _⟩ := k2 m hm
  rw [g3, of1, C61.Growth.stands_iff] at q1
  exact ⟨_, q1, (norm_le_pi_norm (v - fun _ => Real.exp _) ⟨0, by omega⟩).trans q2⟩

variable {cfg : Config ℝ} {d : Sketch} {ws : List (Wire ℝ)} {rank : BlkId → Nat} {wd : World ℝ}

/-- The linear part of the right-hand side of a smooth drawing. -/
theorem linearised (h : cfg.Drawn d ws) (hc : d.Closed rank) (hw : wd.Begins d) {V : Vars} (hV : V.Of d) {n : Nat} (hn : n = V.scalars.length)
    (hnd : ∀ p ∈ d.pieces, p.part.isDelay = false) {t0 T : ℝ} {X : SigId → ℝ → ℝ} (hsh : ∀ s ∈ d.signals, Sharp d (fun i : Fin n => V.scalars.getD i 0) t0 T X (fun _ Z => Z s)) :
    ∃ A : ℝ → (Fin n → ℝ) →L[ℝ] (Fin n → ℝ), ContDiffOn ℝ 2 A (Icc t0 T) ∧ ∃ r > 0, ∃ Q ≥ 0, ∀ t ∈ Icc t0 T, ∀ (mem : BlkId → Mem ℝ) (x d : Fin n → ℝ),
      ‖x - C66.states V X n t‖ ≤ r → Rhs cfg V mem t (List.ofFn x) (List.ofFn d) →
      ‖d - C66.slopes cfg V X n t - A t (x - C66.states V X n t)‖ ≤ Q * ‖x - C66.states V X n t‖ ^ 2 := by
  have hrow : ∀ i : Fin n, ∃ lam : Fin n → ℝ → ℝ, (∀ j, ContDiffOn ℝ 2 (lam j) (Icc t0 T)) ∧ ∃ r > 0, ∃ Q ≥ 0, ∀ t ∈ Icc t0 T, ∀ δ, 0 ≤ δ → δ ≤ r → ∀ Z, d.Off X t δ Z →
      |Z ((cfg.deriv (V.scalars.getD i 0)).getD 0) - C66.slopes cfg V X n t i - linear (fun i : Fin n => V.scalars.getD i 0) X (fun j => lam j t) t Z| ≤ Q * δ ^ 2 := by
    intro i
    obtain ⟨p, hp, hi, e, y, e1, e2, hy⟩ := C66.slot h hc hw hV hn i
    have := (hsh y hy).near
    unfold C66.slopes
    rw [e, e2, Option.getD_some]
    exact this
  choose lam hlam r hr Q hQ hnear using hrow
  obtain ⟨r0, hr0, hr0'⟩ : ∃ r0 > 0, ∀ i, r0 ≤ r i := by
    rcases isEmpty_or_nonempty (Fin n) with he | he
    · exact ⟨1, one_pos, fun i => (he.false i).elim⟩
    · obtain ⟨i, hi⟩ := Finite.exists_min r
      exact ⟨r i, hr i, hi⟩
  refine ⟨fun t => ∑ i, ∑ j, lam i j t • (ContinuousLinearMap.single ℝ (fun _ : Fin n => ℝ) i).comp (ContinuousLinearMap.proj j), ?_, r0, hr0, ∑ i, Q i,
    Finset.sum_nonneg fun i _ => hQ i, ?_⟩
  · exact ContDiffOn.sum fun i _ => ContDiffOn.sum fun j _ => (hlam i j).smul contDiffOn_const
  rintro t ht mem x dx hx ⟨val, hs, hd⟩
  have off := C66.off_of h hc hV hn (X := X) hs (fun p hp e => by rw [hnd p hp] at e; cases e)
  have hsum : ∀ i, Q i ≤ ∑ j, Q j := fun i => Finset.single_le_sum (fun j _ => hQ j) (Finset.mem_univ i)
  rw [pi_norm_le_iff_of_nonneg (by have := Finset.sum_nonneg fun i (_ : i ∈ Finset.univ) => hQ i; positivity)]
  intro i
  have k := hnear i t ht _ (norm_nonneg _) (hx.trans (hr0' i)) _ off
  rw [hV.arrays, packed_scalars] at hd
  have q := C66.at_signals hn hd i
  obtain ⟨p, hp, hi, e, y, e1, e2, hy⟩ := C66.slot h hc hw hV hn i
  rw [e, e2, Option.bind_some] at q
  rw [e, e2, Option.getD_some, q] at k
  have e3 : (∑ i, ∑ j, lam i j t • (ContinuousLinearMap.single ℝ (fun _ : Fin n => ℝ) i).comp (ContinuousLinearMap.proj j)) (x - C66.states V X n t) i =
      linear (fun i : Fin n => V.scalars.getD i 0) X (fun j => lam i j t) t (fun s => scal (val s)) := by
    unfold linear
    simp only [C66.state_at hV hn hs, _root_.sum_apply, _root_.smul_apply, Finset.sum_apply, ContinuousLinearMap.comp_apply]
    rw [Finset.sum_eq_single i]
    · simp [C66.states, scal]
    · intro j _ hj
      simp [hj.symm]
    · simp
  rw [Pi.sub_apply, Pi.sub_apply, e3, Real.norm_eq_abs]
  exact k.trans (mul_le_mul_of_nonneg_right (hsum i) (by positivity))

theorem order (cfg : Config ℝ) (d : Sketch) (rank : BlkId → Nat) (h : cfg.Draws d) (hst : ∃ st ∈ [rk4, rkf45], cfg.stepper = some st) (hc : d.Closed rank) (hin : ∃ p ∈ d.pieces, p.part.isIntegrator = true) (wd : World ℝ)
    (hw : wd.Begins d) (tPrev t0 T minH maxH : ℝ) (h0 : 0 < minH) (h1 : minH < maxH) (hT : t0 < T) (X : SigId → ℝ → ℝ)
    (hX : d.Course ∅ t0 T X) (hr : d.Smooth t0 T X) :
    ∃ m0, Call.exec cfg (.init t0) { w := wd, s := { tPrev := tPrev } } = .ok () m0 ∧ ∃ η0 > 0, ∃ B, ∀ η, 0 ≤ η → η ≤ η0 → ∀ ts : List ℝ,
      (t0 :: ts).Pairwise (· < ·) → (t0 :: ts).IsChain (fun s u => u - s ≤ η) → (t0 :: ts).getLast (by simp) ≤ T →
      (∃ m, RunsTo cfg minH maxH m0 ts m) ∧ ∀ m, RunsTo cfg minH maxH m0 ts m →
        ∀ s ∈ d.pieces.map Piece.out ++ d.inputs.map Prod.fst, ∃ v, m.w.shown s = some (.scalar v) ∧ |v - X s ((t0 :: ts).getLast (by simp))| ≤ B * η ^ 4 := by
  obtain ⟨ws, hd⟩ := h.drawn
  have hcl := hd.closed hc hw
  have hnd : ∀ p ∈ d.pieces, p.part.isDelay = false := by
    intro p hp
    have := hr.1 p hp
    unfold Piece.Smooth at this
    revert this
    cases p.part <;> simp [Part.isDelay]
  have hme : ∀ w ∈ ws, w.obj.Memoryless := fun w hm => by obtain ⟨p, hp, e⟩ := hd.piece w hm; exact Piece.memoryless e (hnd p hp)
  have hstate : ∃ w ∈ ws, w.obj.isState = true := by
    obtain ⟨p, hp, e⟩ := hin
    obtain ⟨w, hm, e'⟩ := hd.wire p hp
    exact ⟨w, hm, by rw [Piece.isState_eq e', e]⟩
  obtain ⟨st, he, hs⟩ := hst
  obtain ⟨m0, _, _, _, _, hinit, _⟩ := C60.C60_trajectory cfg ws _ rank hcl hme hstate st hs (by simp only [List.mem_cons, List.not_mem_nil, or_false] at he ⊢; tauto)
    wd (hd.new hw) hw.log tPrev t0 minH maxH h0 h1
  refine ⟨m0, hinit, ?_⟩
  obtain ⟨hV, hn⟩ := C66.vars_of hd hc hw hinit
  have ho : States d (fun i : Fin m0.s.nState => m0.vars.scalars.getD i 0) := by
    refine ⟨fun i => ?_, fun p hp hi => ?_⟩
    · obtain ⟨p, hp, hi, e, _⟩ := C66.slot hd hc hw hV hn i
      exact ⟨p, hp, hi, e.symm⟩
    · obtain ⟨j, hj, e⟩ := List.getElem_of_mem ((hV.scalars _).2 ⟨p, hp, hi, rfl⟩)
      exact ⟨⟨j, hn ▸ hj⟩, by show m0.vars.scalars.getD j 0 = p.out; rw [List.getD_eq_getElem?_getD, List.getElem?_eq_getElem hj, e]; rfl⟩
  have hsh := Sharp.all ho hT hc hr hX
  obtain ⟨r, hr0, L, hL, k1, k2, kb, k3⟩ := C66.solves hd hc hw hV hn hnd hX (fun s hs => (hsh s hs).nice ho)
  obtain ⟨A, hA, r', hr', Q, hQ, hq⟩ := linearised hd hc hw hV hn hnd hsh
  have h5 : ContDiffOn ℝ 5 (C66.states m0.vars X m0.s.nState) (Icc t0 T) := by
    rw [contDiffOn_pi]
    intro i
    obtain ⟨p, hp, hi, e, _⟩ := C66.slot hd hc hw hV hn i
    unfold C66.states
    rw [e]
    exact_mod_cast smooth_course hT hc hr hX 5 (le_refl _) p hp hi
  have k1' : C61.Solves cfg m0.vars wd.mem ∅ t0 T (C66.states m0.vars X m0.s.nState) (C66.slopes cfg m0.vars X m0.s.nState) (min r r') L :=
    ⟨k1.initial, k1.cont, k1.deriv, k1.rhs, fun t ht x d hx => k1.lipschitz t ht x d (hx.trans (min_le_left _ _))⟩
  obtain ⟨η0, hη0, B, key⟩ := C68_order cfg ws _ rank hcl hme hstate st hs he wd (hd.new hw) hw.log tPrev t0 minH maxH h0 h1 m0 hinit T (min r r') L Q hT (lt_min hr0 hr') _ _ k1'
    h5 A hA (fun t ht x d hx => hq t ht _ x d (hx.trans (min_le_right _ _)))
  have hB1 : 0 < |B| + 1 := by have := abs_nonneg B; linarith
  refine ⟨min (min 1 η0) (r / (|B| + 1)), lt_min (lt_min one_pos hη0) (div_pos hr0 hB1), L * B, fun η q1 q2 ts a1 a2 a3 => ?_⟩
  have q2' := q2.trans (min_le_left _ _)
  have K := key η q1 (q2'.trans (min_le_right _ _)) ts a1 a2 a3
  refine ⟨K.1, fun m hm s hs' => ?_⟩
  obtain ⟨v, _, e2, e3⟩ := K.2 m hm
  have hlast : t0 ≤ (t0 :: ts).getLast (by simp) := by
    rcases List.mem_cons.1 (List.getLast_mem (l := t0 :: ts) (by simp)) with e | e
    · exact e.ge
    · exact ((List.pairwise_cons.1 a1).1 _ e).le
  have hsmall : B * η ^ 4 ≤ r := by
    have p0 : η ^ 4 ≤ η := by
      calc η ^ 4 ≤ η ^ 1 := pow_le_pow_of_le_one q1 (q2'.trans (min_le_left _ _)) (by norm_num)
        _ = η := pow_one _
    have p1 : B * η ^ 4 ≤ |B| * η ^ 4 := mul_le_mul_of_nonneg_right (le_abs_self B) (by positivity)
    have p2 : (|B| + 1) * η ≤ r := by
      have := q2.trans (min_le_right _ _)
      rw [le_div_iff₀ hB1] at this
      linarith
    have p3 := mul_le_mul_of_nonneg_left p0 (abs_nonneg B)
    linarith
  obtain ⟨z, hz, hb⟩ := k3 _ ⟨hlast, a3⟩ wd.mem v _ (e2.trans hsmall) (e3 wd.mem) s hs'
  refine ⟨z, hz, hb.trans ?_⟩
  rw [mul_assoc]
  exact mul_le_mul_of_nonneg_left e2 hL

/-- C68 for drawings: a program that builds the drawing `d` and simulates it with `Rk4` or `Rkf45`, with any of the simulators, the blocks in any order and grouped in any
submodels.  Let `X` be a course of the signals on `[t0, T]` that satisfies the equations of the drawing, and let the functions in the blocks have four continuous
derivatives along the course.  Whatever increasing times with distances up to `η` the new simulator is run for, the calls return and the error of all signals is at most
proportional to the fourth power of `η`. -/
theorem C68_drawing (cfg : Config ℝ) (d : Sketch) (rank : BlkId → Nat) (h : cfg.Draws d) (hst : ∃ st ∈ [rk4, rkf45], cfg.stepper = some st) (hc : d.Closed rank) (hin : ∃ p ∈ d.pieces, p.part.isIntegrator = true) (wd : World ℝ)
    (hw : wd.Begins d) (tPrev t0 T minH maxH : ℝ) (h0 : 0 < minH) (h1 : minH < maxH) (hT : t0 < T) (X : SigId → ℝ → ℝ)
    (hX : d.Course ∅ t0 T X) (hr : d.Smooth t0 T X) :
    ∃ η0 > 0, ∃ B, ∀ η, 0 ≤ η → η ≤ η0 → ∀ ts : List ℝ, (t0 :: ts).Pairwise (· < ·) → (t0 :: ts).IsChain (fun s u => u - s ≤ η) →
      (t0 :: ts).getLast (by simp) ≤ T → (∃ m, RunsTo cfg minH maxH { w := wd, s := { tPrev := tPrev } } (t0 :: ts) m) ∧
      ∀ m, RunsTo cfg minH maxH { w := wd, s := { tPrev := tPrev } } (t0 :: ts) m → ∀ s ∈ d.pieces.map Piece.out ++ d.inputs.map Prod.fst,
        ∃ v, m.w.shown s = some (.scalar v) ∧ |v - X s ((t0 :: ts).getLast (by simp))| ≤ B * η ^ 4 := by
  obtain ⟨m0, hi, key⟩ := order cfg d rank h hst hc hin wd hw tPrev t0 T minH maxH h0 h1 hT X hX hr
  simp only [C66.runs_first hi]
  exact key

/-- C68, recorded: under the same conditions, everything a `History` records and `export_csv` writes has an error at most proportional to the fourth power of the largest
distance of the times. -/
theorem C68_recorded (cfg : Config ℝ) (d : Sketch) (rank : BlkId → Nat) (h : cfg.Draws d) (hst : ∃ st ∈ [rk4, rkf45], cfg.stepper = some st) (hc : d.Closed rank) (hin : ∃ p ∈ d.pieces, p.part.isIntegrator = true) (wd : World ℝ)
    (hw : wd.Begins d) (tPrev t0 T minH maxH : ℝ) (h0 : 0 < minH) (h1 : minH < maxH) (hT : t0 < T) (X : SigId → ℝ → ℝ)
    (hX : d.Course ∅ t0 T X) (hr : d.Smooth t0 T X) :
    ∃ η0 > 0, ∃ B, ∀ η, 0 ≤ η → η ≤ η0 → ∀ ts : List ℝ, (t0 :: ts).Pairwise (· < ·) → (t0 :: ts).IsChain (fun s u => u - s ≤ η) → (t0 :: ts).getLast (by simp) ≤ T →
      ∀ (grow : Nat) (l : List SigId) (order : List (SigId × Rows (List ℝ)) → List (SigId × Rows (List ℝ))), 1 ≤ grow → ts.length + grow < 4294967296 → l ≠ [] → l.Nodup →
      (∀ s ∈ l, s ∈ d.pieces.map Piece.out ++ d.inputs.map Prod.fst) → (∀ l, (order l).Perm l) →
      (∃ h, Session cfg minH maxH { w := wd, s := { tPrev := tPrev } } grow l (t0 :: ts) h) ∧
      ∀ h, Session cfg minH maxH { w := wd, s := { tPrev := tPrev } } grow l (t0 :: ts) h → h.nrows = ts.length + 1 ∧
        (∀ (k : Nat) (t : ℝ), (t0 :: ts)[k]? = some t → h.timeAt k = some t ∧ ∀ s ∈ l, ∃ v, h.rowAt s k = some [v] ∧ |v - X s t| ≤ B * η ^ 4) ∧
        ∃ (csv : Csv ℝ) (ks : List SigId), exportCsv (fun s => (wd.sig s).ty) order h = .ok (some csv) ∧ ks.Perm l ∧ csv.header = ks.map (fun s => ⟨s, none⟩) ∧
          csv.lines.length = ts.length + 1 ∧ ∀ (k : Nat) (t : ℝ), (t0 :: ts)[k]? = some t →
            ∃ v : SigId → ℝ, csv.lines[k]? = some (some t, ks.map (fun s => some (v s))) ∧ ∀ s ∈ l, |v s - X s t| ≤ B * η ^ 4 := by
  obtain ⟨η0, hη, B, key⟩ := C68_drawing cfg d rank h hst hc hin wd hw tPrev t0 T minH maxH h0 h1 hT X hX hr
  refine ⟨η0, hη, B, fun η q1 q2 ts a1 a2 a3 grow l order b1 b2 b3 b4 b5 b6 => C67.recorded h hc hw h0 h1 a1 (fun j hj => ?_) b1 b2 b3 b4 b5 order b6⟩
  refine key η q1 q2 _ (a1.sublist ((List.take_sublist j ts).cons_cons t0)) ?_ ((C67.le_last a1 ?_).trans a3)
  · have := a2.take (j + 1)
    rwa [List.take_succ_cons] at this
  · rcases List.mem_cons.1 (List.getLast_mem (l := t0 :: ts.take j) (by simp)) with e | e
    · rw [e]; exact .head _
    · exact .tail _ (List.mem_of_mem_take e)

/-! ## The samples -/

/-- samples/test04_mass_spring.cpp with `Rk4` or `Rkf45`: at all times up to `T`, the error of the position is at most proportional to the fourth power of the step size. -/
theorem C68_mass_spring (cfg : Config ℝ) (h : cfg.Draws C66.massSpring) (hst : ∃ st ∈ [rk4, rkf45], cfg.stepper = some st) (wd : World ℝ) (hw : wd.Begins C66.massSpring)
    (tPrev T minH maxH : ℝ) (h0 : 0 < minH) (h1 : minH < maxH) (hT : 0 < T) :
    ∃ η0 > 0, ∃ B, ∀ η, 0 ≤ η → η ≤ η0 → ∀ ts : List ℝ, (0 :: ts).Pairwise (· < ·) → (0 :: ts).IsChain (fun s u => u - s ≤ η) → (0 :: ts).getLast (by simp) ≤ T →
      (∃ m, RunsTo cfg minH maxH { w := wd, s := { tPrev := tPrev } } (0 :: ts) m) ∧
      ∀ m, RunsTo cfg minH maxH { w := wd, s := { tPrev := tPrev } } (0 :: ts) m →
        ∃ v, m.w.shown 0 = some (.scalar v) ∧ |v - 0.1 * Real.sin ((0 :: ts).getLast (by simp))| ≤ B * η ^ 4 := by
  obtain ⟨η0, hη, B, key⟩ := C68_drawing cfg C66.massSpring _ h hst C66.massSpring_closed ⟨⟨1, .integrator 0.1, [2], 1⟩, by simp [C66.massSpring], rfl⟩ wd hw tPrev 0 T minH maxH h0 h1 hT C66.massSpringCourse (C66.massSpring_course T)
    ⟨by simp [C66.massSpring, Piece.Smooth], by simp [C66.massSpring]⟩
  refine ⟨η0, hη, B, fun η q1 q2 ts a1 a2 a3 => ⟨(key η q1 q2 ts a1 a2 a3).1, fun m hm => ?_⟩⟩
  exact (key η q1 q2 ts a1 a2 a3).2 m hm 0 (by simp [C66.massSpring])

/-- The sample can be built with these methods, for every simulator. -/
example (k : Strategy) (st : Stepper ℝ) (hst : st ∈ [rk4, rkf45]) :
    (∃ cfg : Config ℝ, cfg.Draws C66.massSpring ∧ cfg.strategy = k ∧ cfg.stepper = some st) ∧ ∃ wd : World ℝ, wd.Begins C66.massSpring :=
  C66.C66_buildable C66.massSpring _ C66.massSpring_closed (by simp [C66.massSpring, Piece.Fits]) k (some st)
    (.inr ⟨st, by simp only [List.mem_cons, List.not_mem_nil, or_false] at hst ⊢; tauto, rfl⟩) (fun _ => ⟨⟨1, .integrator 0.1, [2], 1⟩, by simp [C66.massSpring], rfl⟩)

/-- samples/test05_pendulum.cpp with `Rk4` or `Rkf45`: the error of the angle. -/
theorem C68_pendulum (cfg : Config ℝ) (h : cfg.Draws C66.pendulum) (hst : ∃ st ∈ [rk4, rkf45], cfg.stepper = some st) (wd : World ℝ) (hw : wd.Begins C66.pendulum)
    (tPrev T minH maxH : ℝ) (h0 : 0 < minH) (h1 : minH < maxH)
    (hT : 0 < T) (φ ω : ℝ → ℝ) (hφ : φ 0 = Real.pi / 4) (hω : ω 0 = 0) (dφ : ∀ t ∈ Icc 0 T, HasDerivWithinAt φ (ω t) (Icc 0 T) t)
    (dω : ∀ t ∈ Icc 0 T, HasDerivWithinAt ω (-(9.81 / 0.1 * Real.sin (φ t))) (Icc 0 T) t) :
    ∃ η0 > 0, ∃ B, ∀ η, 0 ≤ η → η ≤ η0 → ∀ ts : List ℝ, (0 :: ts).Pairwise (· < ·) → (0 :: ts).IsChain (fun s u => u - s ≤ η) → (0 :: ts).getLast (by simp) ≤ T →
      (∃ m, RunsTo cfg minH maxH { w := wd, s := { tPrev := tPrev } } (0 :: ts) m) ∧
      ∀ m, RunsTo cfg minH maxH { w := wd, s := { tPrev := tPrev } } (0 :: ts) m →
        ∃ v, m.w.shown 0 = some (.scalar v) ∧ |v - φ ((0 :: ts).getLast (by simp))| ≤ B * η ^ 4 := by
  have hsm : C66.pendulum.Smooth 0 T (C66.pendulumCourse φ ω) := by
    refine ⟨?_, by simp [C66.pendulum, contDiffOn_const]⟩
    intro p hp
    simp only [C66.pendulum, List.mem_cons, List.not_mem_nil, or_false] at hp
    rcases hp with rfl | rfl | rfl | rfl | rfl <;> try trivial
    exact fun t _ => (Real.contDiff_sin.comp contDiff_snd).contDiffAt
  obtain ⟨η0, hη, B, key⟩ := C68_drawing cfg C66.pendulum _ h hst C66.pendulum_closed ⟨⟨1, .integrator 0, [2], 1⟩, by simp [C66.pendulum], rfl⟩ wd hw tPrev 0 T minH maxH h0 h1 hT _ (C66.pendulum_course hφ hω dφ dω) hsm
  refine ⟨η0, hη, B, fun η q1 q2 ts a1 a2 a3 => ⟨(key η q1 q2 ts a1 a2 a3).1, fun m hm => ?_⟩⟩
  exact (key η q1 q2 ts a1 a2 a3).2 m hm 0 (by simp [C66.pendulum])

/-- The sample can be built, and the motion exists. -/
example (T : ℝ) (hT : 0 < T) (k : Strategy) (st : Stepper ℝ) (hst : st ∈ [rk4, rkf45]) :
    ((∃ cfg : Config ℝ, cfg.Draws C66.pendulum ∧ cfg.strategy = k ∧ cfg.stepper = some st) ∧ ∃ wd : World ℝ, wd.Begins C66.pendulum) ∧
    ∃ φ ω : ℝ → ℝ, φ 0 = Real.pi / 4 ∧ ω 0 = 0 ∧ (∀ t ∈ Icc 0 T, HasDerivWithinAt φ (ω t) (Icc 0 T) t) ∧
      ∀ t ∈ Icc 0 T, HasDerivWithinAt ω (-(9.81 / 0.1 * Real.sin (φ t))) (Icc 0 T) t :=
  ⟨C66.C66_buildable C66.pendulum _ C66.pendulum_closed (by simp [C66.pendulum, Piece.Fits]) k (some st)
    (.inr ⟨st, by simp only [List.mem_cons, List.not_mem_nil, or_false] at hst ⊢; tauto, rfl⟩) (fun _ => ⟨⟨1, .integrator 0, [2], 1⟩, by simp [C66.pendulum], rfl⟩),
    C66.pendulum_moves T hT⟩

end Pooya.C68
