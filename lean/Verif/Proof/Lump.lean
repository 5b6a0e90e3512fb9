import Verif.Spec.Lump
import Verif.Proof.Restrict

/-! Linear maps of the state that turn the right-hand side into another one turn steps into steps. -/

namespace Pooya.Lump

open Pooya Within

set_option linter.unusedSectionVars false

section
variable {F : Type} [_root_.Field F] [LinearOrder F] [IsStrictOrderedRing F]
attribute [local instance] Arith.exact

/-- The weighted sum of components. -/
def total (g : SigId × Nat → F) (qs : List (F × SigId × Nat)) : F := (qs.map fun q => q.1 * g q.2).sum

theorem total_cons (g : SigId × Nat → F) (a : F) (q : SigId × Nat) (qs : List (F × SigId × Nat)) : total g ((a, q) :: qs) = a * g q + total g qs := by
  simp [total]

theorem total_add (g h : SigId × Nat → F) (qs : List (F × SigId × Nat)) : total (fun q => g q + h q) qs = total g qs + total h qs := by
  induction qs with
  | nil => simp [total]
  | cons q qs ih =>
    obtain ⟨a, q⟩ := q
    simp only [total_cons, ih]
    ring

theorem total_sub (g h : SigId × Nat → F) (qs : List (F × SigId × Nat)) : total (fun q => g q - h q) qs = total g qs - total h qs := by
  induction qs with
  | nil => simp [total]
  | cons q qs ih =>
    obtain ⟨a, q⟩ := q
    simp only [total_cons, ih]
    ring

theorem total_smul (c : F) (g : SigId × Nat → F) (qs : List (F × SigId × Nat)) : total (fun q => c * g q) qs = c * total g qs := by
  induction qs with
  | nil => simp [total]
  | cons q qs ih =>
    obtain ⟨a, q⟩ := q
    simp only [total_cons, ih]
    ring

theorem total_congr {g h : SigId × Nat → F} {qs : List (F × SigId × Nat)} (e : ∀ q ∈ qs, g q.2 = h q.2) : total g qs = total h qs := by
  unfold total
  rw [List.map_congr_left fun q hq => by rw [e q hq]]

/-- The signal has a value with this component. -/
def Has (val : SigId → Option (Val F)) (q : SigId × Nat) : Prop := (∃ v, val q.1 = some (.scalar v) ∧ q.2 = 0) ∨ ∃ xs, val q.1 = some (.array xs) ∧ q.2 < xs.length

theorem weighs_total {val : SigId → Option (Val F)} {qs : List (F × SigId × Nat)} (h : ∀ q ∈ qs, Has val q.2) : Weighs val qs (total (comp val) qs) := by
  induction qs with
  | nil => exact .nil
  | cons q qs ih =>
    obtain ⟨a, s, i⟩ := q
    have ih := ih fun q hq => h q (List.mem_cons_of_mem _ hq)
    rw [total_cons]
    rcases h _ (List.mem_cons_self ..) with ⟨v, e, hi⟩ | ⟨xs, e, hi⟩
    · have e : val s = some (.scalar v) := e
      have hi : i = 0 := hi
      subst hi
      have : comp val (s, 0) = v := by simp only [comp, e]
      rw [this]
      exact .scalar e ih
    · have e : val s = some (.array xs) := e
      have hi : i < xs.length := hi
      have : xs[i]? = some (comp val (s, i)) := by
        simp only [comp, e, List.getD_eq_getElem?_getD, List.getElem?_eq_getElem hi, Option.getD_some]
      exact .array e this ih

theorem weighs_unique {val : SigId → Option (Val F)} {qs : List (F × SigId × Nat)} {r r' : F} (h : Weighs val qs r) (h' : Weighs val qs r') : r = r' := by
  induction h generalizing r' with
  | nil => cases h'; rfl
  | scalar e _ ih =>
    cases h' with
    | scalar e' w => rw [e] at e'; cases e'; rw [ih w]
    | array e' _ w => rw [e] at e'; cases e'
  | array e k _ ih =>
    cases h' with
    | scalar e' w => rw [e] at e'; cases e'
    | array e' k' w => rw [e] at e'; cases e'; rw [k] at k'; cases k'; rw [ih w]

theorem all_total {val : SigId → Option (Val F)} {qss : List (List (F × SigId × Nat))} (h : ∀ qs ∈ qss, ∀ q ∈ qs, Has val q.2) :
    List.Forall₂ (Weighs val) qss (qss.map (total (comp val))) := by
  rw [List.forall₂_map_right_iff, List.forall₂_same]
  exact fun qs hqs => weighs_total (h qs hqs)

variable {S : List (SigId × Nat)} {qss : List (List (F × SigId × Nat))}

/-- The list `v'` consists of the weighted sums of the components `v`. -/
def Of (S : List (SigId × Nat)) (qss : List (List (F × SigId × Nat))) (v v' : List F) : Prop := ∃ g, v = S.map g ∧ v' = qss.map (total g)

theorem Of.add {a a' b b' : List F} (h : Of S qss a a') (k : Of S qss b b') : Of S qss (vadd a b) (vadd a' b') := by
  obtain ⟨g, rfl, rfl⟩ := h
  obtain ⟨f, rfl, rfl⟩ := k
  exact ⟨_, vadd_slots .., (vadd_slots ..).trans (List.map_congr_left fun qs _ => (total_add g f qs).symm)⟩

theorem Of.sub {a a' b b' : List F} (h : Of S qss a a') (k : Of S qss b b') : Of S qss (vsub a b) (vsub a' b') := by
  obtain ⟨g, rfl, rfl⟩ := h
  obtain ⟨f, rfl, rfl⟩ := k
  exact ⟨_, vsub_slots .., (vsub_slots ..).trans (List.map_congr_left fun qs _ => (total_sub g f qs).symm)⟩

theorem Of.smul {a a' : List F} (c : F) (h : Of S qss a a') : Of S qss (vsmul c a) (vsmul c a') := by
  obtain ⟨g, rfl, rfl⟩ := h
  exact ⟨_, vsmul_slots .., (vsmul_slots ..).trans (List.map_congr_left fun qs _ => (total_smul c g qs).symm)⟩

/-- A step turns into the step of the sums. -/
theorem step {R : F → List F → List F → Prop} {f : F → List F → List F} (hR : ∀ t v v' d, Of S qss v v' → R t v d → Of S qss d (f t v')) {st : Stepper F} (hst : st ∈ [euler, rk4, rkf45])
    {t u q : F} {x x' y : List F} (h : Of S qss x x') (hs : (st t x u).By R (y, q)) : Of S qss y ((st t x' u).exec (m := Id) f).1 := by
  simp only [List.mem_cons, List.not_mem_nil, or_false] at hst
  rcases hst with rfl | rfl | rfl
  · obtain ⟨d, h1, e⟩ := hs
    cases e
    exact h.add ((hR _ _ _ _ h h1).smul _)
  · obtain ⟨d1, h1, d2, h2, d3, h3, d4, h4, e⟩ := hs
    cases e
    have k1 := (hR _ _ _ _ h h1).smul ((u -. t) /. Arith.lit 2)
    have k2 := (hR _ _ _ _ (h.add k1) h2).smul ((u -. t) /. Arith.lit 2)
    have k3 := (hR _ _ _ _ (h.add k2) h3).smul (u -. t)
    have k4 := (hR _ _ _ _ (h.add k3) h4).smul (u -. t)
    exact (((h.add (k1.smul _)).add (k2.smul _)).add (k3.smul _)).add (k4.smul _)
  · obtain ⟨d1, h1, d2, h2, d3, h3, d4, h4, d5, h5, d6, h6, e⟩ := hs
    have e1 := congrArg Prod.fst e
    have k1 := (hR _ _ _ _ h h1).smul (u -. t)
    have k2 := (hR _ _ _ _ (h.add (k1.smul _)) h2).smul (u -. t)
    have k3 := (hR _ _ _ _ ((h.add (k1.smul _)).add (k2.smul _)) h3).smul (u -. t)
    have k4 := (hR _ _ _ _ (((h.add (k1.smul _)).sub (k2.smul _)).add (k3.smul _)) h4).smul (u -. t)
    have k5 := (hR _ _ _ _ ((((h.add (k1.smul _)).sub (k2.smul _)).add (k3.smul _)).sub (k4.smul _)) h5).smul (u -. t)
    have hv := (((h.add (k1.smul (Arith.lit 2375 /. Arith.lit 20520))).add (k3.smul (Arith.lit 11264 /. Arith.lit 20520))).add (k4.smul (Arith.lit 10985 /. Arith.lit 20520))).sub (k5.smul (Arith.lit 4104 /. Arith.lit 20520))
    have e1 : y = _ := e1
    rw [e1]
    exact hv

variable {cfg : Config F} {V : Vars} {f : F → List F → List F}

theorem slot_has {val : SigId → Option (Val F)} {size : SigId → Nat} (hsz : ∀ s ∈ V.arrays, size s = V.size s) {x : List F} (h : Packed val size V.scalars V.arrays x) :
    ∀ q ∈ Within.slots V, Has val q := by
  obtain ⟨h1, h2, _⟩ := (packed_iff hsz).1 h
  intro q hq
  unfold Within.slots at hq
  simp only [List.mem_append, List.mem_map, List.mem_flatMap, List.mem_range] at hq
  rcases hq with ⟨s, hs, rfl⟩ | ⟨s, hs, k, hk, rfl⟩
  · obtain ⟨v, e⟩ := h1 s hs
    exact .inl ⟨v, e, rfl⟩
  · obtain ⟨v, e, hv⟩ := h2 s hs
    exact .inr ⟨v, e, by rw [hv, hsz s hs]; exact hk⟩

/-- The state of a solution has the sums of the values. -/
theorem of_packed {val : SigId → Option (Val F)} (hq : ∀ qs ∈ qss, ∀ q ∈ qs, q.2 ∈ Within.slots V) {x x' : List F} (h : Packed val V.size V.scalars V.arrays x)
    (hx : Of (Within.slots V) qss x x') : List.Forall₂ (Weighs val) qss x' := by
  obtain ⟨g, rfl, rfl⟩ := hx
  obtain ⟨_, _, e⟩ := (packed_iff fun _ _ => rfl).1 h
  have he : qss.map (total g) = qss.map (total (comp val)) := List.map_congr_left fun qs hqs => total_congr fun q hq' => List.map_inj_left.1 e q.2 (hq qs hqs q hq')
  rw [he]
  exact all_total fun qs hqs q hq' => slot_has (fun _ _ => rfl) h q.2 (hq qs hqs q hq')

theorem rhs (hl : cfg.Lumps qss f) (hq : ∀ qs ∈ qss, ∀ q ∈ qs, q.2 ∈ Within.slots V) (hsz : ∀ s ∈ V.arrays, (cfg.deriv s).elim 0 V.size = V.size s) {mem : BlkId → Mem F} (t : F) (v v' d : List F)
    (h : Of (Within.slots V) qss v v') (hr : Rhs cfg V mem t v d) : Of (Within.slots V) qss d (f t v') := by
  obtain ⟨val, h1, h2⟩ := hr
  refine ⟨comp fun s => (cfg.deriv s).bind val, ((packed_iff hsz).1 h2).2.2, ?_⟩
  exact (hl V mem t v val v' _ h1 (of_packed hq h1.state h) (all_total fun qs hqs q hq' => slot_has hsz h2 q.2 (hq qs hqs q hq'))).symm

theorem evolves (hl : cfg.Lumps qss f) (hq : ∀ qs ∈ qss, ∀ q ∈ qs, q.2 ∈ Within.slots V) (hsz : ∀ s ∈ V.arrays, (cfg.deriv s).elim 0 V.size = V.size s) {st : Stepper F}
    (hst : st ∈ [euler, rk4, rkf45]) {b : F} {mem mem' : BlkId → Mem F} {t : F} {x x' y : List F} {steps : List (F × F)} {val : SigId → Option (Val F)}
    (h : Of (Within.slots V) qss x x') (he : Evolves cfg V st b mem t x steps y val mem') :
    Of (Within.slots V) qss y (st.over f x' steps) ∧ List.Forall₂ (Weighs val) qss (st.over f x' steps) := by
  induction he generalizing x' with
  | last _ _ a3 a4 =>
    have := step (rhs hl hq hsz) hst h a3
    exact ⟨this, of_packed hq a4.solution.state this⟩
  | step _ _ a3 a4 _ ih => exact ih (step (rhs hl hq hsz) hst h a3)

theorem passes (hl : cfg.Lumps qss f) (hq : ∀ qs ∈ qss, ∀ q ∈ qs, q.2 ∈ Within.slots V) (hsz : ∀ s ∈ V.arrays, (cfg.deriv s).elim 0 V.size = V.size s) (hne : V.scalars ++ V.arrays ≠ [])
    {st : Stepper F} (hs : cfg.stepper = some st) (hst : st ∈ [euler, rk4, rkf45]) {a b : Snapshot F} {ts x' : List F} (hx : Of (Within.slots V) qss a.state x')
    (hv : List.Forall₂ (Weighs a.vals) qss x') (h : Passes cfg V a ts b) :
    ∃ y', Follows st f a.time x' ts y' ∧ (st ∈ [euler, rk4] → y' = st.iterate f a.time x' ts) ∧ List.Forall₂ (Weighs b.vals) qss y' := by
  induction h generalizing x' with
  | nil => exact ⟨x', .nil, fun _ => rfl, hv⟩
  | sample e => exact (hne e).elim
  | steps steps _ e1 e2 e3 e4 _ ih =>
    rw [hs] at e1
    cases e1
    obtain ⟨k1, k2⟩ := evolves hl hq hsz hst hx e4
    obtain ⟨y', r1, r2, r3⟩ := ih k1 k2
    refine ⟨y', .cons steps e2 r1, fun h => ?_, r3⟩
    rw [r2 h, e3 h]
    rfl

end
end Pooya.Lump
