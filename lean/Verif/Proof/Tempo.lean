import Verif.Proof.Pace
import Verif.Proof.Linear

/-! Linear relations between simulations with step size control: if the states have the same absolute values, the simulations take the same steps. -/

namespace Pooya

/-- The step at times later by `d`. -/
def StepEv.later {F : Type} [_root_.Field F] (d : F) : StepEv F → StepEv F
  | .trial a b => .trial (a + d) (b + d)
  | .accept a b => .accept (a + d) (b + d)

end Pooya

namespace Pooya.Superpose

open Pooya C69 C72 Within

set_option linter.unusedSectionVars false

section
variable {F I : Type} [_root_.Field F] [LinearOrder F] [IsStrictOrderedRing F]
attribute [local instance] Arith.exact

variable {c : I → F} {M : SigId → Submodule F (I → F)} {cfg : I → Config F} {V : I → Vars} {g : I → SigId × Nat → F} {mm mm' : I → BlkId → Mem F} {t u : F}

theorem Tied.sub (hg : Superpose.Tied M V g) {f : I → SigId × Nat → F} (hf : Superpose.Tied M V f) : Superpose.Tied M V fun i q => g i q - f i q :=
  fun i q hq => (M q.1).sub_mem (hg i q hq) (hf i q hq)

theorem Tied.axmy (hg : Superpose.Tied M V g) {f : I → SigId × Nat → F} (hf : Superpose.Tied M V f) (k : F) : Superpose.Tied M V fun i q => g i q - k * f i q :=
  hg.sub (hf.smul k)

/-- The values of the states differ in sign only. -/
def Even (M : SigId → Submodule F (I → F)) (V : I → Vars) : Prop := ∀ i, ∀ s ∈ (V i).scalars ++ (V i).arrays, ∀ x ∈ M s, ∀ j k, |x j| = |x k|

theorem slots_state {V : Vars} {q : SigId × Nat} (hq : q ∈ Within.slots V) : q.1 ∈ V.scalars ++ V.arrays := by
  unfold Within.slots at hq
  simp only [List.mem_append, List.mem_map, List.mem_flatMap, List.mem_range] at hq ⊢
  rcases hq with ⟨s, hs, rfl⟩ | ⟨s, hs, k, _, rfl⟩
  · exact .inl hs
  · exact .inr hs

theorem Bond.slots (h : Bond c M cfg V) (i j : I) {q : SigId × Nat} (hq : q ∈ Within.slots (V i)) : q ∈ Within.slots (V j) := by
  unfold Within.slots at hq ⊢
  simp only [List.mem_append, List.mem_map, List.mem_flatMap, List.mem_range] at hq ⊢
  rcases hq with ⟨s, hs, rfl⟩ | ⟨s, hs, k, hk, rfl⟩
  · exact .inl ⟨s, h.scalars i j s hs, rfl⟩
  · exact .inr ⟨s, h.arrays i j s hs, k, h.size i j s hs ▸ hk, rfl⟩

theorem Bond.maxAbs (h : Bond c M cfg V) (hev : Even M V) (hg : Superpose.Tied M V g) (i j : I) :
    Pooya.maxAbs ((Within.slots (V i)).map (g i)) = Pooya.maxAbs ((Within.slots (V j)).map (g j)) := by
  have key : ∀ i j, Pooya.maxAbs ((Within.slots (V i)).map (g i)) ≤ Pooya.maxAbs ((Within.slots (V j)).map (g j)) := fun i j => by
    refine (maxAbs_le _ _ (maxAbs_nonneg _)).2 fun x hx => ?_
    obtain ⟨q, hq, rfl⟩ := List.mem_map.1 hx
    rw [hev i q.1 (slots_state hq) _ (hg i q (slots_state hq)) i j]
    exact le_maxAbs _ (List.mem_map.2 ⟨q, h.slots i j hq, rfl⟩)
  exact le_antisymm (key i j) (key j i)

theorem By.single {R : F → List F → List F → Prop} {st : Stepper F} (hst : st ∈ [euler, rk4]) {x y : List F} {q : F} (h : (st t x u).By R (y, q)) : q = u - t := by
  simp only [List.mem_cons, List.not_mem_nil, or_false] at hst
  rcases hst with rfl | rfl
  · obtain ⟨_, _, e⟩ := h
    exact congrArg Prod.snd e
  · obtain ⟨_, _, _, _, _, _, _, _, e⟩ := h
    exact congrArg Prod.snd e

theorem Bond.trial [Nonempty I] (h : Bond c M cfg V) (hev : Even M V) {st : Stepper F} (hst : st ∈ [euler, rk4, rkf45]) (hg : Superpose.Tied M V g)
    (hm : ∀ i, ∀ l ∈ (cfg i).model.leaves, l.Held c M fun j => mm j l.id) {y : I → List F} {q : I → F}
    (hs : ∀ i, (st (t + c i) ((Within.slots (V i)).map (g i)) (u + c i)).By (Rhs (cfg i) (V i) (mm i)) (y i, q i)) :
    (∃ f, (∀ i, y i = (Within.slots (V i)).map (f i)) ∧ Superpose.Tied M V f) ∧ ∀ i j, q i = q j := by
  have eh : ∀ i, (u + c i) -. (t + c i) = u - t := fun i => add_sub_add_right_eq_sub _ _ _
  have single : ∀ st' ∈ [euler, rk4], st = st' → (∃ f, (∀ i, y i = (Within.slots (V i)).map (f i)) ∧ Superpose.Tied M V f) ∧ ∀ i j, q i = q j := by
    rintro _ hin rfl
    refine ⟨h.step hin hg hm hs, fun i j => ?_⟩
    rw [By.single hin (hs i), By.single hin (hs j)]
    exact (eh i).trans (eh j).symm
  simp only [List.mem_cons, List.not_mem_nil, or_false] at hst
  rcases hst with rfl | rfl | rfl
  · exact single _ (by simp) rfl
  · exact single _ (by simp) rfl
  clear single
  choose d1 h1 d2 h2 d3 h3 d4 h4 d5 h5 d6 h6 e using hs
  have et : ∀ (k : F) i, (t + c i) +. k *. (u - t) = t + k * (u - t) + c i := fun k i => add_right_comm _ _ _
  obtain ⟨f1, hf1, k1⟩ := h.rhs hg hm h1
  replace k1 := k1.smul (u - t)
  obtain ⟨f2, hf2, k2⟩ := h.rhs (t := t + _ * (u - t)) (d := d2) (hg.axpy k1 (Arith.lit 1 /. Arith.lit 4)) hm fun i => by
    have := h2 i
    simp only [hf1, eh, vsmul_slots, vadd_slots, et] at this
    exact this
  replace k2 := k2.smul (u - t)
  obtain ⟨f3, hf3, k3⟩ := h.rhs (t := t + _ * (u - t)) (d := d3) ((hg.axpy k1 (Arith.lit 3 /. Arith.lit 8 *. Arith.lit 1 /. Arith.lit 4)).axpy k2 (Arith.lit 3 /. Arith.lit 8 *. Arith.lit 3 /. Arith.lit 4)) hm fun i => by
    have := h3 i
    simp only [hf1, hf2, eh, vsmul_slots, vadd_slots, et] at this
    exact this
  replace k3 := k3.smul (u - t)
  obtain ⟨f4, hf4, k4⟩ := h.rhs (t := t + _ * (u - t)) (d := d4) (((hg.axpy k1 (Arith.lit 12 /. Arith.lit 13 *. Arith.lit 161 /. Arith.lit 169)).axmy k2 (Arith.lit 12 /. Arith.lit 13 *. Arith.lit 600 /. Arith.lit 169)).axpy
      k3 (Arith.lit 12 /. Arith.lit 13 *. Arith.lit 608 /. Arith.lit 169)) hm fun i => by
    have := h4 i
    simp only [hf1, hf2, hf3, eh, vsmul_slots, vadd_slots, vsub_slots, et] at this
    exact this
  replace k4 := k4.smul (u - t)
  obtain ⟨f5, hf5, k5⟩ := h.rhs (t := u) (d := d5) ((((hg.axpy k1 (Arith.lit 8341 /. Arith.lit 4104)).axmy k2 (Arith.lit 32832 /. Arith.lit 4104)).axpy k3 (Arith.lit 29440 /. Arith.lit 4104)).axmy
      k4 (Arith.lit 845 /. Arith.lit 4104)) hm fun i => by
    have := h5 i
    simp only [hf1, hf2, hf3, hf4, eh, vsmul_slots, vadd_slots, vsub_slots] at this
    exact this
  replace k5 := k5.smul (u - t)
  obtain ⟨f6, hf6, k6⟩ := h.rhs (t := t + _ * (u - t)) (d := d6) (((((hg.axmy k1 (Arith.lit 1 /. Arith.lit 2 *. Arith.lit 6080 /. Arith.lit 10260)).axpy k2 (Arith.lit 1 /. Arith.lit 2 *. Arith.lit 41040 /. Arith.lit 10260)).axmy
      k3 (Arith.lit 1 /. Arith.lit 2 *. Arith.lit 28352 /. Arith.lit 10260)).axpy k4 (Arith.lit 1 /. Arith.lit 2 *. Arith.lit 9295 /. Arith.lit 10260)).axmy
      k5 (Arith.lit 1 /. Arith.lit 2 *. Arith.lit 5643 /. Arith.lit 10260)) hm fun i => by
    have := h6 i
    simp only [hf1, hf2, hf3, hf4, hf5, eh, vsmul_slots, vadd_slots, vsub_slots, et] at this
    exact this
  replace k6 := k6.smul (u - t)
  have hv := (((hg.axpy k1 (Arith.lit 2375 /. Arith.lit 20520)).axpy k3 (Arith.lit 11264 /. Arith.lit 20520)).axpy k4 (Arith.lit 10985 /. Arith.lit 20520)).axmy k5 (Arith.lit 4104 /. Arith.lit 20520)
  have hz := ((((hg.axpy k1 (Arith.lit 33440 /. Arith.lit 282150)).axpy k3 (Arith.lit 146432 /. Arith.lit 282150)).axpy k4 (Arith.lit 142805 /. Arith.lit 282150)).axmy
    k5 (Arith.lit 50787 /. Arith.lit 282150)).axpy k6 (Arith.lit 10260 /. Arith.lit 282150)
  have e' : ∀ i, (y i, q i) = ((Within.slots (V i)).map _, rkf45NewH (u - t) (Pooya.maxAbs ((Within.slots (V i)).map _))) := fun i => by
    have e := e i
    simp only [hf1, hf2, hf3, hf4, hf5, hf6, eh, vsmul_slots, vadd_slots, vsub_slots] at e
    exact e
  refine ⟨⟨_, fun i => congrArg Prod.fst (e' i), hv⟩, fun i j => ?_⟩
  exact (congrArg Prod.snd (e' i)).trans ((congrArg (rkf45NewH (u - t)) (h.maxAbs hev (hv.sub hz) i j)).trans (congrArg Prod.snd (e' j)).symm)

theorem Adapts.inv {K : Type} [Arith K] {cfg : Config K} {V : Vars} {st : Stepper K} {minH maxH t t1 t2 : K} {mem mem' : BlkId → Mem K} {force : Bool} {x y : List K}
    {es : List (StepEv K)} {val : SigId → Option (Val K)} (h : Adapts cfg V st minH maxH t mem t1 t2 force x es y val mem') :
    ∃ x1 q, (st t1 x t2).By (Rhs cfg V mem) (x1, q) ∧
      (¬ Suits minH t1 t2 force q → ∃ es', es = .trial t1 t2 :: es' ∧ Adapts cfg V st minH maxH t mem t1 (t1 +. limited minH maxH q) (q <=. minH) x es' y val mem') ∧
      (Suits minH t1 t2 force q → (t2 <. t) = true → ∃ val1 mem1 es', es = .trial t1 t2 :: .accept t1 t2 :: es' ∧ Committed cfg V mem t2 x1 val1 mem1 ∧
        Adapts cfg V st minH maxH t mem1 t2 (fmin (t2 +. limited minH maxH q) t) false x1 es' y val mem') ∧
      (Suits minH t1 t2 force q → (t2 <. t) = false → es = [.trial t1 t2, .accept t1 t2] ∧ y = x1 ∧ Committed cfg V mem t y val mem') := by
  cases h with
  | reject a1 a2 a3 a4 => exact ⟨_, _, a2, fun _ => ⟨_, rfl, a4⟩, fun s => (a3 s).elim, fun s => (a3 s).elim⟩
  | step a1 a2 a3 a4 a5 a6 => exact ⟨_, _, a2, fun s => (s a3).elim, fun _ _ => ⟨_, _, _, rfl, a5, a6⟩, fun _ e => by rw [a4] at e; cases e⟩
  | last a1 a2 a3 a4 a5 => exact ⟨_, _, a2, fun s => (s a3).elim, fun _ e => (by rw [a4] at e; cases e), fun _ _ => ⟨rfl, rfl, a5⟩⟩

theorem suits_later (minH t1 t2 d q : F) (force : Bool) : Suits minH (t1 + d) (t2 + d) force q ↔ Suits minH t1 t2 force q := by
  unfold Suits
  rw [show (t2 + d) -. (t1 + d) = t2 -. t1 from add_sub_add_right_eq_sub _ _ _]

theorem lt_later (a b d : F) : ((a + d) <. (b + d)) = (a <. b) := by
  show decide (a + d < b + d) = decide (a < b)
  simp only [add_lt_add_iff_right]

theorem fmin_later (a b d : F) : fmin (a + d) (b + d) = fmin a b + d := by
  unfold fmin
  rw [lt_later]
  split <;> rfl

theorem Bond.adapts [Nonempty I] (h : Bond c M cfg V) (hev : Even M V) {st : Stepper F} (hst : st ∈ [euler, rk4, rkf45]) {minH maxH : F} : ∀ (n : Nat) {t1 t2 : F} {force : Bool}
    {mem mem' : I → BlkId → Mem F} {x y : I → List F} {es : I → List (StepEv F)} {val : I → SigId → Option (Val F)}, (∃ i, (es i).length ≤ n) →
    (∀ i, ∀ l ∈ (cfg i).model.leaves, l.Held c M fun j => mem j l.id) → (∃ g, (∀ i, x i = (Within.slots (V i)).map (g i)) ∧ Superpose.Tied M V g) →
    (∀ i, Adapts (cfg i) (V i) st minH maxH (t + c i) (mem i) (t1 + c i) (t2 + c i) force (x i) (es i) (y i) (val i) (mem' i)) →
    (∃ e : List (StepEv F), ∀ i, es i = e.map (StepEv.later (c i))) ∧ Superpose.Bound c M cfg V t fun i => ⟨mem' i, t + c i, y i, val i⟩ := by
  intro n
  obtain ⟨i0⟩ := id ‹Nonempty I›
  induction n with
  | zero =>
    rintro t1 t2 force mem mem' x y es val ⟨i, hi⟩ hm hg ha
    obtain ⟨x1, q, _, r1, r2, r3⟩ := Adapts.inv (ha i)
    exfalso
    by_cases hs : Suits minH (t1 + c i) (t2 + c i) force q
    · by_cases hl : ((t2 + c i) <. (t + c i)) = true
      · obtain ⟨_, _, _, e, _⟩ := r2 hs hl
        rw [e] at hi; simp at hi
      · rw [(r3 hs (by simpa using hl)).1] at hi; simp at hi
    · obtain ⟨_, e, _⟩ := r1 hs
      rw [e] at hi; simp at hi
  | succ n ih =>
    rintro t1 t2 force mem mem' x y es val ⟨k, hk⟩ hm ⟨g, hx, hg⟩ ha
    have hi := fun i => Adapts.inv (ha i)
    choose x1 q hby r1 r2 r3 using hi
    obtain ⟨⟨f, hf, tf⟩, hq⟩ := h.trial hev hst (t := t1) (u := t2) (y := x1) (q := q) hg hm fun i => by rw [← hx i]; exact hby i
    obtain ⟨Q, rfl⟩ : ∃ Q, q = fun _ => Q := ⟨q i0, funext fun i => hq i i0⟩
    simp only [suits_later, lt_later] at r1 r2 r3
    by_cases hs : Suits minH t1 t2 force Q
    · by_cases hl : (t2 <. t) = true
      · have r2 := fun i => r2 i hs hl
        choose val1 mem1 es' e1 e2 e3 using r2
        have hb := h.committed (b := fun i => ⟨mem1 i, t2 + c i, x1 i, val1 i⟩) (fun _ => rfl) hm tf hf e2
        obtain ⟨⟨e, he⟩, hB⟩ := ih (t1 := t2) (t2 := fmin (t2 +. limited minH maxH Q) t) (es := es') ⟨k, by rw [e1] at hk; simp at hk; omega⟩ hb.mem hb.state fun i => by
          have := e3 i
          rw [show t2 + c i +. limited minH maxH Q = t2 +. limited minH maxH Q + c i from add_right_comm _ _ _, fmin_later] at this
          exact this
        exact ⟨⟨.trial t1 t2 :: .accept t1 t2 :: e, fun i => by rw [e1, he]; rfl⟩, hB⟩
      · have r3 := fun i => r3 i hs (by simpa using hl)
        obtain rfl : y = x1 := funext fun i => (r3 i).2.1
        exact ⟨⟨[.trial t1 t2, .accept t1 t2], fun i => (r3 i).1⟩, h.committed (b := fun i => ⟨mem' i, t + c i, y i, val i⟩) (fun _ => rfl) hm tf hf fun i => (r3 i).2.2⟩
    · have r1 := fun i => r1 i hs
      choose es' e1 e2 using r1
      obtain ⟨⟨e, he⟩, hB⟩ := ih (t1 := t1) (t2 := t1 +. limited minH maxH Q) (es := es') ⟨k, by rw [e1] at hk; simp at hk; omega⟩ hm ⟨g, hx, hg⟩ fun i => by
        have := e2 i
        rw [show t1 + c i +. limited minH maxH Q = t1 +. limited minH maxH Q + c i from add_right_comm _ _ _] at this
        exact this
      exact ⟨⟨.trial t1 t2 :: e, fun i => by rw [e1, he]; rfl⟩, hB⟩

theorem paces_cons {cfg : Config F} {V : Vars} {minH maxH : F} {a z : Snapshot F} {u : F} {ts : List F} {es : List (StepEv F)} (hp : Paces cfg V minH maxH a (u :: ts) es z) :
    ∃ b es1 es2, b.time = u ∧ es = es1 ++ es2 ∧ Paces cfg V minH maxH b ts es2 z ∧
      ((V.scalars ++ V.arrays ≠ [] ∧ ∃ st, cfg.stepper = some st ∧ Adapts cfg V st minH maxH u a.mem a.time u false a.state es1 b.state b.vals b.mem) ∨
        (V.scalars ++ V.arrays = [] ∧ es1 = [] ∧ Committed cfg V a.mem u b.state b.vals b.mem)) := by
  generalize hl : u :: ts = l at hp
  cases hp with
  | nil => cases hl
  | @steps _ b _ ts' st es es' k1 k2 k3 k4 =>
    obtain ⟨rfl, rfl⟩ := List.cons_eq_cons.1 hl
    exact ⟨b, es, es', rfl, rfl, k4, .inl ⟨k1, st, k2, k3⟩⟩
  | @sample _ b _ ts' es k1 k2 k3 =>
    obtain ⟨rfl, rfl⟩ := List.cons_eq_cons.1 hl
    exact ⟨b, [], es, rfl, rfl, k3, .inr ⟨k1, rfl, k2⟩⟩

theorem Bond.paces [Nonempty I] (h : Bond c M cfg V) (hev : Even M V) (he : ∀ i st, (cfg i).stepper = some st → st ∈ [euler, rk4, rkf45])
    (hst : ∀ i j, (V i).scalars ++ (V i).arrays ≠ [] → (cfg i).stepper = (cfg j).stepper) {minH maxH : F}
    {ts : List F} : ∀ {t : F} {a b : I → Snapshot F} {es : I → List (StepEv F)}, Superpose.Bound c M cfg V t a → (∀ i, Paces (cfg i) (V i) minH maxH (a i) (ts.map (· + c i)) (es i) (b i)) →
      (∃ e : List (StepEv F), ∀ i, es i = e.map (StepEv.later (c i))) ∧ ∃ t', Superpose.Bound c M cfg V t' b := by
  obtain ⟨i0⟩ := id ‹Nonempty I›
  induction ts with
  | nil =>
    intro t a b es ha hp
    have : ∀ i, b i = a i ∧ es i = [] := fun i => by
      have := hp i
      rw [List.map_nil] at this
      generalize b i = bi, es i = ei, hl : ([] : List F) = l at this
      cases this with
      | nil => exact ⟨rfl, rfl⟩
      | steps => cases hl
      | sample => cases hl
    obtain rfl : b = a := funext fun i => (this i).1
    exact ⟨⟨[], fun i => (this i).2⟩, t, ha⟩
  | cons u ts ih =>
    intro t a z es ha hp
    have hp' := fun i => paces_cons (hp i)
    choose b es1 es2 b1 b2 b3 b4 using hp'
    suffices hB : (∃ e : List (StepEv F), ∀ i, es1 i = e.map (StepEv.later (c i))) ∧ Superpose.Bound c M cfg V u b by
      obtain ⟨⟨e, he⟩, hB⟩ := hB
      obtain ⟨⟨e', he'⟩, r⟩ := ih hB b3
      exact ⟨⟨e ++ e', fun i => by rw [b2, he, he', List.map_append]⟩, r⟩
    obtain ⟨g, hg1, hg2⟩ := ha.state
    by_cases hV : (V i0).scalars ++ (V i0).arrays = []
    · have hV' : ∀ i, (V i).scalars ++ (V i).arrays = [] := fun i => List.eq_nil_iff_forall_not_mem.2 fun s hs => by have := h.state i i0 hs; rw [hV] at this; cases this
      have b4 := fun i => ((b4 i).resolve_left fun k => k.1 (hV' i)).2
      refine ⟨⟨[], fun i => (b4 i).1⟩, h.committed (g := g) b1 ha.mem hg2 (fun i => ?_) fun i => (b4 i).2⟩
      rw [((packed_nil (hV' i)).1 (b4 i).2.solution.state)]
      unfold Within.slots
      rw [(List.append_eq_nil_iff.1 (hV' i)).1, (List.append_eq_nil_iff.1 (hV' i)).2]
      rfl
    · have hV' : ∀ i, (V i).scalars ++ (V i).arrays ≠ [] := fun i e => hV (List.eq_nil_iff_forall_not_mem.2 fun s hs => by have := h.state i0 i hs; rw [e] at this; cases this)
      have b4 := fun i => ((b4 i).resolve_right fun k => hV' i k.1).2
      choose st c1 c2 using b4
      have hs : ∀ i, st i = st i0 := fun i => by
        have := hst i i0 (hV' i)
        rw [c1, c1] at this
        exact Option.some.inj this
      obtain ⟨r1, r2⟩ := h.adapts (t := u) hev (he i0 _ (c1 i0)) (minH := minH) (maxH := maxH) _ (t1 := t) (t2 := u) (force := false) (mem := fun i => (a i).mem) (mem' := fun i => (b i).mem) (x := fun i => (a i).state) (y := fun i => (b i).state)
        (es := es1) (val := fun i => (b i).vals) ⟨i0, Nat.le_refl _⟩ ha.mem ha.state fun i => by
          have := c2 i
          rw [hs, ha.time] at this
          exact this
      exact ⟨r1, ⟨b1, r2.state, r2.mem, r2.vals⟩⟩

end
end Pooya.Superpose
