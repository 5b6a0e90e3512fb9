import Verif.Proof.Linear
import Mathlib.Data.Fin.VecNotation
import Mathlib.Tactic.FinCases

/-! # C75: linear diagrams are simulated linearly -/

namespace Pooya.C75

open Pooya C69 C72 Within Superpose

set_option linter.unusedSectionVars false

section
variable {F : Type} [_root_.Field F] [LinearOrder F] [IsStrictOrderedRing F] [Archimedean F]
attribute [local instance] Arith.exact

variable {I : Type} {ps : List (Wire F)} {ty : SigId → Ty} {rank : I → BlkId → Nat} {c : I → F} {M : SigId → Submodule F (I → F)} {cfg : I → Config F} {V : I → Vars}

theorem bond_of (h : ∀ i, (cfg i).Sealed ps ty (rank i)) (hpl : ∀ p ∈ ps, p.obj.Plain) (hl : ∀ i, ∀ l ∈ (cfg i).model.leaves, l.Linear c M)
    (hin : ∀ i s, (∀ t, s ∈ ((cfg i).inputVals t).map Prod.fst) → Fed c M cfg s) (hV : ∀ i, C72.Sorted ps ty (V i)) : Bond c M cfg V where
  leaves i j := leaves_sub (h i) (h j) (fun _ hp => hp) hpl
  linear := hl
  explicit i := explicit_sealed (h i) (hV i).mem
  complete i := (C59.C59_complete (cfg i) ps ty (rank i) (h i)).complete
  post i l hl s hs := by
    obtain ⟨p, hp, f⟩ := C59.leaf_wire (h i) hl
    refine sourced (h i) (hV i).mem ?_
    rcases f.post s hs with k | k
    · exact ⟨p, hp, .inl k⟩
    · exact ⟨p, hp, .inr (f.state s k).1⟩
  held i l hl s hs := by
    obtain ⟨p, hp, f⟩ := C59.leaf_wire (h i) hl
    exact ((hV i).mem s).2 ⟨p, hp, (f.state s hs).2, (f.state s hs).1⟩
  fed := hin
  scalars i j := (sub_of (h i) (h j) (fun _ hp => hp) hpl (hV i) (hV j)).1.scalars
  arrays i j := (sub_of (h i) (h j) (fun _ hp => hp) hpl (hV i) (hV j)).1.arrays
  size i j := (sub_of (h i) (h j) (fun _ hp => hp) hpl (hV i) (hV j)).1.size
  deriv i j := (sub_of (h i) (h j) (fun _ hp => hp) hpl (hV i) (hV j)).2
  slope i s hs d hd := by
    obtain ⟨l, hl', sl⟩ := (C58_states (cfg i) ps (h i).assembled (C59.sealed_proper (h i))).1 s d hd
    have := hl i l hl'
    unfold Leaf.Linear at this
    rcases sl with e | ⟨tr, e⟩ <;> rw [e] at this
    · exact this
    · exact this.elim
  sizes i := size_same (h i) (hV i)

/-- The initial conditions are related. -/
theorem tied_of {w : I → World F} {m0 : I → Machine F} (h : ∀ i, (cfg i).Sealed ps ty (rank i)) (hpl : ∀ p ∈ ps, p.obj.Plain) (hl : ∀ i, ∀ l ∈ (cfg i).model.leaves, l.Linear c M)
    (hmem : ∀ i, ∀ l ∈ (cfg i).model.leaves, l.Held c M fun j => (w j).mem l.id)
    (a3 : ∀ i s, s ∈ (m0 i).vars.scalars ++ (m0 i).vars.arrays ↔ ∃ p ∈ ps, p.obj.isState = true ∧ p.Gives s) :
    Superpose.Tied M (fun i => (m0 i).vars) fun i => comp fun s => ((cfg i).model.leaves.find? (fun l => decide (l.state = some s))).map (fun l => ((w i).mem l.id).value) := by
  intro i q hq
  obtain ⟨p, hp, e1, e2⟩ := (a3 i q.1).1 hq
  obtain ⟨l, hl', e⟩ := state_leaf (h i) hp e1 e2
  have hheld := hmem i l hl'
  have hlin := hl i l hl'
  have key : Lin (M q.1) fun j => ((w j).mem l.id).value := by
    unfold Leaf.state at e
    unfold Leaf.Held at hheld
    unfold Leaf.Linear at hlin
    split at e <;> rename_i hk <;> simp only [hk] at hheld hlin
    · cases e; exact hheld
    · cases e
  exact comp_mem (s := q.1) (k := q.2) (fun j => by rw [find_state (h j) (leaves_sub (h i) (h j) (fun _ hp => hp) hpl l hl') e]; rfl) key

/-- C75: several simulations of one diagram, with Euler's method or Rk4, that differ in the inputs, the initial values, the simulators, the order and the nesting of
the blocks, and in the beginning of time.  Each signal has a linear relation (a subspace of the families of numbers, one for each simulation), the blocks keep the
relations, and they hold for the inputs and for what the blocks hold at the beginning.  Then they hold for all signals at the end of `init` and of every `run`. -/
theorem C75_linear [Nonempty I] (c : I → F) (M : SigId → Submodule F (I → F)) (cfg : I → Config F) (ps : List (Wire F)) (ty : SigId → Ty) (rank : I → BlkId → Nat)
    (h : ∀ i, (cfg i).Sealed ps ty (rank i)) (hpl : ∀ p ∈ ps, p.obj.Plain) (hl : ∀ i, ∀ l ∈ (cfg i).model.leaves, l.Linear c M)
    (hin : ∀ i s, (∀ t, s ∈ ((cfg i).inputVals t).map Prod.fst) → Fed c M cfg s)
    (he : ∀ i st, (cfg i).stepper = some st → st ∈ [euler, rk4]) (hst : (∃ p ∈ ps, p.obj.isState = true) → ∀ i j, (cfg i).stepper = (cfg j).stepper)
    (w : I → World F) (hw : ∀ i, (w i).New (cfg i) ty) (hlog : ∀ i, (w i).log = []) (hmem : ∀ i, ∀ l ∈ (cfg i).model.leaves, l.Held c M fun j => (w j).mem l.id)
    (tPrev minH maxH : I → F) (h0 : ∀ i, 0 < minH i) (h1 : ∀ i, minH i < maxH i) (t0 : F) :
    ∃ m0 : I → Machine F, (∀ i, Call.exec (cfg i) (.init (t0 + c i)) { w := w i, s := { tPrev := tPrev i } } = .ok () (m0 i)) ∧
      (∀ p ∈ ps, ∀ s, p.Takes s ∨ p.Gives s → On M (fun i => (m0 i).w.shown) s) ∧
      ∀ ts : List F, (t0 :: ts).Pairwise (· < ·) → (∀ i, ∃ m, RunsTo (cfg i) (minH i) (maxH i) (m0 i) (ts.map (· + c i)) m) ∧
        ∀ m : I → Machine F, (∀ i, RunsTo (cfg i) (minH i) (maxH i) (m0 i) (ts.map (· + c i)) (m i)) →
          ∀ p ∈ ps, ∀ s, p.Takes s ∨ p.Gives s → On M (fun i => (m i).w.shown) s := by
  obtain ⟨i0⟩ := id ‹Nonempty I›
  have hpass := fun i => C69_passage (cfg i) ps ty (rank i) (h i) hpl (fun st e => by
    have := he i st e
    simp only [List.mem_cons, List.not_mem_nil, or_false] at this ⊢
    rcases this with rfl | rfl <;> simp) (w i) (hw i) (hlog i) (tPrev i) (t0 + c i) (minH i) (maxH i) (h0 i) (h1 i)
  choose m0 V x0 a1 a2 a3 a4 a5 a6 a7 using hpass
  obtain rfl : V = fun i => (m0 i).vars := funext a2
  have hV : ∀ i, C72.Sorted ps ty (m0 i).vars := fun i => sorted_of (h i) (fun _ => C57.ordered_exact) (hw i) (a1 i) (a3 i) (a4 i)
  have hb : Bond c M cfg fun i => (m0 i).vars := bond_of h hpl hl hin hV
  have hx : ∀ i, x0 i = (Within.slots (m0 i).vars).map (comp fun s => ((cfg i).model.leaves.find? (fun l => decide (l.state = some s))).map (fun l => ((w i).mem l.id).value)) :=
    fun i => ((packed_iff fun _ _ => rfl).1 (a5 i)).2.2
  have ht : Superpose.Tied M (fun i => (m0 i).vars) fun i => comp fun s => ((cfg i).model.leaves.find? (fun l => decide (l.state = some s))).map (fun l => ((w i).mem l.id).value) :=
    tied_of h hpl hl hmem a3
  have hb0 : Superpose.Bound c M cfg (fun i => (m0 i).vars) t0 fun i => ⟨(m0 i).w.mem, t0 + c i, x0 i, (m0 i).w.shown⟩ :=
    hb.committed (b := fun i => ⟨(m0 i).w.mem, t0 + c i, x0 i, (m0 i).w.shown⟩) (mm := fun i => (w i).mem) (fun _ => rfl) hmem ht hx a6
  have hts : ∀ ts : List F, (t0 :: ts).Pairwise (· < ·) → ∀ i, ((t0 + c i) :: ts.map (· + c i)).Pairwise (· < ·) := by
    intro ts hts i
    have := hts.map (· + c i) (S := (· < ·)) fun a b hab => add_lt_add_left hab _
    simpa using this
  refine ⟨m0, a1, fun p hp s hs => hb0.vals i0 s (sourced (h i0) (hV i0).mem ⟨p, hp, hs⟩), fun ts hp => ⟨fun i => (a7 i _ (hts ts hp i)).1, fun m hm p hpp s hs => ?_⟩⟩
  have hq := fun i => (a7 i _ (hts ts hp i)).2 (m i) (hm i)
  choose y hy using hq
  obtain ⟨t', hb'⟩ := hb.passes he (fun i j hne => by
    refine hst ?_ i j
    obtain ⟨s, hs⟩ := List.exists_mem_of_ne_nil _ hne
    obtain ⟨p, hp, e, _⟩ := (a3 i s).1 hs
    exact ⟨p, hp, e⟩) hb0 hy
  exact hb'.vals i0 s (sourced (h i0) (hV i0).mem ⟨p, hpp, hs⟩)

/-! ## Superposition -/

/-- `z` is `a x + b y`, for arrays coefficient by coefficient.  Values of any type that are the same agree with this if `a + b = 1`. -/
inductive Combined (a b : F) : Val F → Val F → Val F → Prop
  | scalar (x y : F) : Combined a b (.scalar x) (.scalar y) (.scalar (a * x + b * y))
  | array {n : Nat} (x y : Fin n → F) : Combined a b (.array (List.ofFn x)) (.array (List.ofFn y)) (.array (List.ofFn fun i => a * x i + b * y i))
  | same (v : Val F) : a + b = 1 → Combined a b v v v

/-- The families with `x 2 = a x 0 + b x 1`. -/
def plane (a b : F) : Submodule F (Fin 3 → F) where
  carrier := { x | x 2 = a * x 0 + b * x 1 }
  zero_mem' := by simp
  add_mem' := fun {x y} hx hy => by
    have hx : x 2 = a * x 0 + b * x 1 := hx
    have hy : y 2 = a * y 0 + b * y 1 := hy
    show x 2 + y 2 = a * (x 0 + y 0) + b * (x 1 + y 1)
    rw [hx, hy]; ring
  smul_mem' := fun k x hx => by
    have hx : x 2 = a * x 0 + b * x 1 := hx
    show k * x 2 = a * (k * x 0) + b * (k * x 1)
    rw [hx]; ring

open Classical in
/-- The signals `P` are the same in three simulations; the others are combinations in the third. -/
noncomputable def mixed (a b : F) (P : SigId → Prop) (s : SigId) : Submodule F (Fin 3 → F) := if P s then diag F (Fin 3) else plane a b

theorem combined_of {a b : F} {v : Fin 3 → Val F} (h : Lin (plane a b) v) : Combined a b (v 0) (v 1) (v 2) := by
  rcases h with ⟨x, hx, rfl⟩ | ⟨n, x, hx, rfl⟩ | ⟨hd, w, rfl⟩
  · have hx : x 2 = a * x 0 + b * x 1 := hx
    simp only [hx]
    exact .scalar _ _
  · have hx : ∀ j, x j 2 = a * x j 0 + b * x j 1 := hx
    simp only [hx]
    exact .array _ _
  · refine .same w ?_
    have : (1 : F) = a * 1 + b * 1 := hd (const_mem (1 : F))
    rw [mul_one, mul_one] at this
    exact this.symm

theorem lin_of {a b : F} {v : Fin 3 → Val F} (h : Combined a b (v 0) (v 1) (v 2)) : Lin (plane a b) v := by
  have hv : v = ![v 0, v 1, v 2] := by funext i; fin_cases i <;> rfl
  generalize v 0 = x, v 1 = y, v 2 = z at h hv
  subst hv
  cases h with
  | scalar x y => exact .inl ⟨![x, y, a * x + b * y], rfl, by funext i; fin_cases i <;> rfl⟩
  | @array n x y => exact .inr (.inl ⟨n, fun j => ![x j, y j, a * x j + b * y j], fun j => rfl, by funext i; fin_cases i <;> rfl⟩)
  | same _ hab =>
    refine .inr (.inr ⟨fun x hx => ?_, _, by funext i; fin_cases i <;> rfl⟩)
    show x 2 = a * x 0 + b * x 1
    rw [hx 0 2, hx 1 2, ← add_mul, hab, one_mul]

/-- C75, superposition: three simulations of one diagram at the same times, with Euler's method or Rk4.  The diagram is linear in all signals but those in `P`, which are
the same in the three simulations (coefficients that may depend on time).  If the inputs and what the blocks hold at the beginning are combinations `a x + b y` in the third
simulation, so are all signals at the end of `init` and of every `run`. -/
theorem C75_superposition (a b : F) (P : SigId → Prop) (cfg : Fin 3 → Config F) (ps : List (Wire F)) (ty : SigId → Ty) (rank : Fin 3 → BlkId → Nat)
    (h : ∀ i, (cfg i).Sealed ps ty (rank i)) (hpl : ∀ p ∈ ps, p.obj.Plain) (hl : ∀ i, ∀ l ∈ (cfg i).model.leaves, l.Linear (fun _ => 0) (mixed a b P))
    (hin : ∀ i s, (∀ t, s ∈ ((cfg i).inputVals t).map Prod.fst) → ∀ t, ∃ v : Fin 3 → Val F, (∀ i, (s, v i) ∈ (cfg i).inputVals t) ∧
      (P s → v 0 = v 1 ∧ v 1 = v 2) ∧ (¬ P s → Combined a b (v 0) (v 1) (v 2)))
    (he : ∀ i st, (cfg i).stepper = some st → st ∈ [euler, rk4]) (hst : (∃ p ∈ ps, p.obj.isState = true) → ∀ i j, (cfg i).stepper = (cfg j).stepper)
    (w : Fin 3 → World F) (hw : ∀ i, (w i).New (cfg i) ty) (hlog : ∀ i, (w i).log = [])
    (hmem : ∀ i, ∀ l ∈ (cfg i).model.leaves, l.Held (fun _ => 0) (mixed a b P) fun j => (w j).mem l.id)
    (tPrev minH maxH : Fin 3 → F) (h0 : ∀ i, 0 < minH i) (h1 : ∀ i, minH i < maxH i) (t0 : F) :
    ∃ m0 : Fin 3 → Machine F, (∀ i, Call.exec (cfg i) (.init t0) { w := w i, s := { tPrev := tPrev i } } = .ok () (m0 i)) ∧
      ∀ ts : List F, (t0 :: ts).Pairwise (· < ·) → (∀ i, ∃ m, RunsTo (cfg i) (minH i) (maxH i) (m0 i) ts m) ∧
        ∀ m : Fin 3 → Machine F, (∀ i, RunsTo (cfg i) (minH i) (maxH i) (m0 i) ts (m i)) → ∀ p ∈ ps, ∀ s, p.Takes s ∨ p.Gives s →
          ∃ v : Fin 3 → Val F, (∀ i, (m i).w.shown s = some (v i)) ∧ (P s → v 0 = v 1 ∧ v 1 = v 2) ∧ (¬ P s → Combined a b (v 0) (v 1) (v 2)) := by
  obtain ⟨m0, k1, _, k3⟩ := C75_linear (fun _ => 0) (mixed a b P) cfg ps ty rank h hpl hl (fun i s hi t => by
    simp only [add_zero]
    obtain ⟨v, e1, e2, e3⟩ := hin i s hi t
    refine ⟨v, e1, ?_⟩
    unfold mixed
    split
    · rename_i hP
      obtain ⟨g1, g2⟩ := e2 hP
      exact .inr (.inr ⟨le_rfl, v 0, by funext i; fin_cases i <;> simp [g1, g2]⟩)
    · rename_i hP
      exact lin_of (e3 hP)) he hst w hw hlog hmem tPrev minH maxH h0 h1 t0
  simp only [add_zero] at k1 k3
  refine ⟨m0, k1, fun ts hts => ?_⟩
  have := k3 ts hts
  simp only [List.map_id'] at this
  refine ⟨this.1, fun m hm p hp s hs => ?_⟩
  obtain ⟨v, e1, e2⟩ := this.2 m hm p hp s hs
  refine ⟨v, e1, fun hP => ?_, fun hP => ?_⟩
  · have e : mixed a b P s = diag F (Fin 3) := if_pos hP
    exact ⟨e2.eq (e ▸ le_rfl) 0 1, e2.eq (e ▸ le_rfl) 1 2⟩
  · have e : mixed a b P s = plane a b := if_neg hP
    exact combined_of (e ▸ e2)

open Classical in
/-- C75, rest: the diagram is linear in all signals but those in `P`.  If the other inputs are zero, and what the blocks hold at the beginning, all signals but those in
`P` are zero at the end of `init` and of every `run`. -/
theorem C75_rest (P : SigId → Prop) (cfg : Config F) (ps : List (Wire F)) (ty : SigId → Ty) (rank : BlkId → Nat) (h : cfg.Sealed ps ty rank) (hpl : ∀ p ∈ ps, p.obj.Plain)
    (hl : ∀ l ∈ cfg.model.leaves, l.Linear (fun _ : Unit => 0) (fun s => if P s then ⊤ else ⊥)) (hin : ∀ t, ∀ q ∈ cfg.inputVals t, ¬ P q.1 → q.2.IsZero)
    (he : ∀ st, cfg.stepper = some st → st ∈ [euler, rk4]) (w : World F) (hw : w.New cfg ty) (hlog : w.log = [])
    (hmem : ∀ l ∈ cfg.model.leaves, l.Held (fun _ : Unit => 0) (fun s => if P s then ⊤ else ⊥) fun _ => w.mem l.id)
    (tPrev minH maxH : F) (h0 : 0 < minH) (h1 : minH < maxH) (t0 : F) :
    ∃ m0 : Machine F, Call.exec cfg (.init t0) { w := w, s := { tPrev := tPrev } } = .ok () m0 ∧
      ∀ ts : List F, (t0 :: ts).Pairwise (· < ·) → (∃ m, RunsTo cfg minH maxH m0 ts m) ∧
        ∀ m, RunsTo cfg minH maxH m0 ts m → ∀ p ∈ ps, ∀ s, p.Takes s ∨ p.Gives s → ¬ P s → ∃ v, m.w.shown s = some v ∧ v.IsZero := by
  have htop : ∀ M : Submodule F (Unit → F), (∀ x, x ∈ M) → ∀ v : Val F, Lin M fun _ => v := fun M hM v => .inr (.inr ⟨fun x _ => hM x, v, rfl⟩)
  obtain ⟨m0, k1, _, k3⟩ := C75_linear (fun _ : Unit => 0) (fun s => if P s then ⊤ else ⊥) (fun _ => cfg) ps ty (fun _ => rank) (fun _ => h) hpl (fun _ => hl) (fun i s hi t => by
    simp only [add_zero]
    obtain ⟨q, hq, rfl⟩ := List.mem_map.1 (hi t)
    refine ⟨fun _ => q.2, fun _ => hq, ?_⟩
    split
    · exact htop ⊤ (fun _ => Submodule.mem_top) _
    · rename_i hP
      exact .zero (hin t q hq hP)) (fun _ => he) (fun _ _ _ => rfl) (fun _ => w) (fun _ => hw) (fun _ => hlog) (fun _ => hmem) (fun _ => tPrev) (fun _ => minH) (fun _ => maxH) (fun _ => h0) (fun _ => h1) t0
  simp only [add_zero] at k1 k3
  refine ⟨m0 (), k1 (), fun ts hts => ?_⟩
  have := k3 ts hts
  simp only [List.map_id'] at this
  refine ⟨this.1 (), fun m hm p hp s hs hP => ?_⟩
  obtain ⟨v, e1, e2⟩ := this.2 (fun _ => m) (fun _ => hm) p hp s hs
  refine ⟨v (), e1 (), ?_⟩
  simp only [if_neg hP] at e2
  rcases e2 with ⟨x, hx, rfl⟩ | ⟨n, x, hx, rfl⟩ | ⟨hd, v, rfl⟩
  · rw [Submodule.mem_bot] at hx
    show x () = 0
    rw [hx]; rfl
  · show ∀ y ∈ List.ofFn fun j => x j (), y = 0
    intro y hy
    obtain ⟨j, rfl⟩ := (List.mem_ofFn' _ _).1 hy
    have := hx j
    rw [Submodule.mem_bot] at this
    simp only [this]; rfl
  · have := hd (const_mem (1 : F))
    rw [Submodule.mem_bot] at this
    exact absurd (congrFun this ()) one_ne_zero

end

/-! ## Example: `x' = u - k x` with a coefficient `k` that depends on time -/

def integ : Leaf ℚ := { id := 1, links := [(1, Demo.inp), (0, Demo.st)], kind := .integrator 1 0 }
def times : Leaf ℚ := { id := 2, links := [(3, Demo.rq), (0, Demo.rq), (2, Demo.ot)], kind := .multiply (.scalar 1) [3, 0] 2 }
def minus : Leaf ℚ := { id := 3, links := [(4, Demo.rq), (2, Demo.rq), (1, Demo.ot)], kind := .subtract 4 2 1 }

/-- The input `u` of the simulations: `t`, 1, and `2 t + 3`. -/
def feed (i : Fin 3) (t : ℚ) : ℚ := if i = 0 then t else if i = 1 then 1 else 2 * t + 3

def prog (st : Fin 3 → Strategy) (i : Fin 3) : Config ℚ where
  dbg := true
  model := if i = 0 then .sub 100 [] [.leaf times, .sub 101 [] [.leaf minus, .leaf integ]] else .sub 100 [] [.leaf integ, .leaf times, .leaf minus]
  deriv s := if s = 0 then some 1 else none
  inputs := none
  modelInput t := ([(3, .scalar (t + 1)), (4, .scalar (feed i t))], none)
  stepper := some rk4
  strategy := st i
  hash := id

def wires : List (Wire ℚ) :=
  [⟨1, .integrator .double, [C58.sc "in" 1], [C58.sc "out" 0]⟩, ⟨2, .multiply .double (.scalar 1), [C58.sc "k" 3, C58.sc "x" 0], [C58.sc "out" 2]⟩,
    ⟨3, .subtract .double, [C58.sc "u" 4, C58.sc "kx" 2], [C58.sc "out" 1]⟩]

/-- `x` is 1, 0, and 2 at the beginning. -/
def world (i : Fin 3) : World ℚ where
  sig _ := { ty := .scalar }
  mem _ := { value := .scalar (if i = 0 then 1 else if i = 1 then 0 else 2) }
  done _ := false
  log := []

theorem leaves_perm (st : Fin 3 → Strategy) (i : Fin 3) : (prog st i).model.leaves.Perm [integ, times, minus] := by
  by_cases h : i = 0
  · have : (prog st i).model.leaves = [times, minus, integ] := by simp [prog, h, Block.leaves, leavesL]
    rw [this]
    exact List.perm_append_comm (l₁ := [times, minus]) (l₂ := [integ])
  · have : (prog st i).model.leaves = [integ, times, minus] := by simp [prog, h, Block.leaves, leavesL]
    rw [this]

def gives : List (Nat × Nat) := [(1, 0), (2, 2), (3, 1)]
def takes : List (Nat × Nat) := [(1, 1), (2, 3), (2, 0), (3, 4), (3, 2)]

theorem wires_mem : ∀ p ∈ wires, (∀ i, p.Gives i → (p.id, i) ∈ gives) ∧ (∀ i, p.Takes i → (p.id, i) ∈ takes) ∧ (p.obj.isState = true ↔ p.id = 1) ∧
    (p.obj.isState = true → ∀ i, ¬ p.Needs i) ∧ (∀ i, p.Needs i → p.Takes i) := by
  intro p hp
  simp only [wires, List.mem_cons, List.not_mem_nil, or_false] at hp
  rcases hp with rfl | rfl | rfl
  · refine ⟨?_, ?_, by decide, fun _ i h => h, fun i h => h.elim⟩ <;>
      (rintro i ⟨k, t, hi⟩; simp only [C58.sc, List.mem_cons, List.not_mem_nil, or_false] at hi; cases hi; decide)
  · refine ⟨?_, ?_, by decide, fun e => (by cases e), fun i h => h⟩
    · rintro i ⟨k, t, hi⟩; simp only [C58.sc, List.mem_cons, List.not_mem_nil, or_false] at hi; cases hi; decide
    · rintro i ⟨k, t, hi⟩; simp only [C58.sc, List.mem_cons, List.not_mem_nil, or_false] at hi; rcases hi with hi | hi <;> cases hi <;> decide
  · refine ⟨?_, ?_, by decide, fun e => (by cases e), fun i h => h⟩
    · rintro i ⟨k, t, hi⟩; simp only [C58.sc, List.mem_cons, List.not_mem_nil, or_false] at hi; cases hi; decide
    · rintro i ⟨k, t, hi⟩; simp only [C58.sc, List.mem_cons, List.not_mem_nil, or_false] at hi; rcases hi with hi | hi <;> cases hi <;> decide

theorem giver : ∀ q ∈ takes, q.2 = 3 ∨ q.2 = 4 ∨ ∃ p ∈ wires, p.Gives q.2 := by
  intro q hq
  simp only [takes, List.mem_cons, List.not_mem_nil, or_false] at hq
  rcases hq with rfl | rfl | rfl | rfl | rfl
  · exact .inr (.inr ⟨_, .tail _ (.tail _ (.head _)), str "out", .scalar, .head _⟩)
  · exact .inl rfl
  · exact .inr (.inr ⟨_, .head _, str "out", .scalar, .head _⟩)
  · exact .inr (.inl rfl)
  · exact .inr (.inr ⟨_, .tail _ (.head _), str "out", .scalar, .head _⟩)

theorem agrees (es : Entries) (h : ∀ q ∈ es, ∃ k i, q = C58.sc k i) : Agrees (fun _ => .scalar) es ∧ Sized 1 es := by
  refine ⟨fun q hq i t e => ?_, fun q hq i m e => ?_⟩ <;> (obtain ⟨k, j, rfl⟩ := h q hq; cases e)
  rfl

theorem sealed (st : Fin 3 → Strategy) (i : Fin 3) : (prog st i).Sealed wires (fun _ => .scalar) (fun b => b) := by
  have hk : ∀ t, (prog st i).inputKeys t = [3, 4] := fun t => rfl
  exact {
    dbg := rfl
    assembled := ⟨[integ, times, minus], by with_unfolding_all rfl, leaves_perm st i⟩
    proper := by
      unfold Block.Proper
      by_cases h : i = 0
      · have : (prog st i).model.ids = [100, 2, 101, 3, 1] := by simp [prog, h, integ, times, minus, Block.ids, Block.all, allL, Block.id]
        rw [this]; decide
      · have : (prog st i).model.ids = [100, 1, 2, 3] := by simp [prog, h, integ, times, minus, Block.ids, Block.all, allL, Block.id]
        rw [this]; decide
    hash := fun _ => .refl _
    sane := by
      intro p hp
      have h1 : ∀ a i, ∀ q ∈ [C58.sc a i], ∃ k i, q = C58.sc k i := fun a i q hq => by
        rw [List.mem_singleton] at hq; exact ⟨_, _, hq⟩
      have h2 : ∀ a i b j, ∀ q ∈ [C58.sc a i, C58.sc b j], ∃ k i, q = C58.sc k i := fun a i b j q hq => by
        simp only [List.mem_cons, List.not_mem_nil, or_false] at hq
        rcases hq with rfl | rfl <;> exact ⟨_, _, rfl⟩
      simp only [wires, List.mem_cons, List.not_mem_nil, or_false] at hp
      rcases hp with rfl | rfl | rfl
      · exact ⟨(agrees _ (h1 _ _)).1, (agrees _ (h1 _ _)).1, .inl ⟨1, Nat.one_pos, trivial, trivial, (agrees _ (h1 _ _)).2, (agrees _ (h1 _ _)).2⟩⟩
      · exact ⟨(agrees _ (h2 _ _ _ _)).1, (agrees _ (h1 _ _)).1, .inl ⟨1, Nat.one_pos, ⟨trivial, rfl, rfl⟩, trivial, (agrees _ (h2 _ _ _ _)).2, (agrees _ (h1 _ _)).2⟩⟩
      · exact ⟨(agrees _ (h2 _ _ _ _)).1, (agrees _ (h1 _ _)).1, .inl ⟨1, Nat.one_pos, trivial, trivial, (agrees _ (h2 _ _ _ _)).2, (agrees _ (h1 _ _)).2⟩⟩
    once := by
      intro p hp q hq i h1 h2
      have key : ∀ a ∈ gives, ∀ c ∈ gives, a.2 = c.2 → a.1 = c.1 := by decide
      exact key _ ((wires_mem p hp).1 i h1) _ ((wires_mem q hq).1 i h2) rfl
    provided := fun p hp j hj => by
      rcases giver _ ((wires_mem p hp).2.1 j hj) with e | e | e
      · exact .inl fun t => by rw [hk, show j = 3 from e]; decide
      · exact .inl fun t => by rw [hk, show j = 4 from e]; decide
      · exact .inr e
    loops := by
      intro p hp j hn q hq hg
      have key : ∀ a ∈ takes, ∀ c ∈ gives, a.2 = c.2 → a.1 ≠ 1 → c.1 = 1 ∨ c.1 < a.1 := by decide
      obtain ⟨_, k2, k3, k4, k5⟩ := wires_mem p hp
      obtain ⟨g1, _, g3, _⟩ := wires_mem q hq
      rcases key _ (k2 j (k5 j hn)) _ (g1 j hg) rfl (fun e => k4 (k3.2 e) j hn) with h | h
      · exact .inl (g3.2 h)
      · exact .inr h
    inputs := fun f e => by cases e
    modelInput := ⟨fun t => ⟨fun p hp => by
      simp only [prog, List.mem_cons, List.not_mem_nil, or_false] at hp
      rcases hp with rfl | rfl <;> exact ⟨rfl, fun _ => rfl⟩, fun e h => (by cases h)⟩, fun _ => rfl⟩
    inputOnce := fun t => by rw [hk]; decide
    inputFree := fun t s hs => by
      rw [hk] at hs
      refine ⟨?_, fun p hp hg => ?_⟩
      · simp only [List.mem_cons, List.not_mem_nil, or_false] at hs
        rcases hs with rfl | rfl
        · exact ⟨_, .tail _ (.head _), str "k", .scalar, .head _⟩
        · exact ⟨_, .tail _ (.tail _ (.head _)), str "u", .scalar, .head _⟩
      · have key : ∀ a ∈ gives, a.2 ∉ [3, 4] := by decide
        exact key _ ((wires_mem p hp).1 s hg) hs
    stepper := fun s e => by
      obtain rfl := Option.some_inj.1 e
      exact C26.dim_provided.2.1
    stepped := fun _ => rfl
    reuse := fun _ => ⟨_, .head _, rfl⟩ }

theorem new (st : Fin 3 → Strategy) (i : Fin 3) : (world i).New (prog st i) (fun _ => .scalar) where
  fine := {
    types := fun _ => rfl
    cells := fun _ => ⟨fun e => (by cases e), fun v e => (by cases e)⟩
    members := by
      intro l hl
      rw [(leaves_perm st i).mem_iff] at hl
      simp only [List.mem_cons, List.not_mem_nil, or_false] at hl
      rcases hl with rfl | rfl | rfl
      · exact ⟨rfl, fun _ => rfl⟩
      · trivial
      · trivial }
  done := fun _ => rfl
  record := fun _ _ _ => rfl

/-- The machines after `init(0)` and `run(1, 1/4, 10)`. -/
def after (st : Fin 3 → Strategy) (i : Fin 3) : Machine ℚ :=
  stateOf (Call.exec (prog st i) (.run 10 1 (1/4) 10) (stateOf (Call.exec (prog st i) (.init 0) { w := world i, s := { tPrev := 0 } })))

/-- All hypotheses of `C75_superposition` hold with `a = 2`, `b = 3`, and the signal 3 as coefficient; the values of `x` at 1 after one step of Rk4 are 7/12, 5/12,
and the combination of them. -/
example (st : Fin 3 → Strategy) : (∀ i, (prog st i).Sealed wires (fun _ => .scalar) (fun b => b)) ∧ (∀ p ∈ wires, p.obj.Plain) ∧
    (∀ i, ∀ l ∈ (prog st i).model.leaves, l.Linear (fun _ => 0) (mixed 2 3 (· = 3))) ∧
    (∀ i s, (∀ t, s ∈ ((prog st i).inputVals t).map Prod.fst) → ∀ t, ∃ v : Fin 3 → Val ℚ, (∀ i, (s, v i) ∈ (prog st i).inputVals t) ∧
      (s = 3 → v 0 = v 1 ∧ v 1 = v 2) ∧ (¬ s = 3 → Combined 2 3 (v 0) (v 1) (v 2))) ∧
    (∀ i, (world i).New (prog st i) (fun _ => .scalar)) ∧ (∀ i, (world i).log = []) ∧
    (∀ i, ∀ l ∈ (prog st i).model.leaves, l.Held (fun _ => 0) (mixed 2 3 (· = 3)) fun j => (world j).mem l.id) ∧
    ∃ x y : ℚ, x ≠ 0 ∧ y ≠ 0 ∧ (after st 0).w.shown 0 = some (.scalar x) ∧ (after st 1).w.shown 0 = some (.scalar y) ∧ (after st 2).w.shown 0 = some (.scalar (2 * x + 3 * y)) := by
  have hm : ∀ s, s ≠ 3 → mixed (2 : ℚ) 3 (· = 3) s = plane 2 3 := fun s h => if_neg h
  have hm3 : mixed (2 : ℚ) 3 (· = 3) 3 = diag ℚ (Fin 3) := if_pos rfl
  refine ⟨sealed st, ?_, fun i l hl => ?_, fun i s hs t => ?_, new st, fun _ => rfl, fun i l hl => ?_, ?_⟩
  · simp [wires, Make.Plain]
  · rw [(leaves_perm st i).mem_iff] at hl
    simp only [List.mem_cons, List.not_mem_nil, or_false] at hl
    rcases hl with rfl | rfl | rfl
    · show mixed (2 : ℚ) 3 (· = 3) 1 ≤ mixed (2 : ℚ) 3 (· = 3) 0
      rw [hm 1 (by decide), hm 0 (by decide)]
    · refine .inr ⟨[3], 0, [], rfl, fun y hy => ?_, ?_⟩
      · obtain rfl := List.mem_singleton.1 hy
        rw [hm3]
      · rw [hm 2 (by decide), hm 0 (by decide)]
    · show mixed (2 : ℚ) 3 (· = 3) 4 ≤ mixed (2 : ℚ) 3 (· = 3) 1 ∧ mixed (2 : ℚ) 3 (· = 3) 2 ≤ mixed (2 : ℚ) 3 (· = 3) 1
      rw [hm 4 (by decide), hm 2 (by decide), hm 1 (by decide)]
      exact ⟨le_rfl, le_rfl⟩
  · have := hs t
    have : s = 3 ∨ s = 4 := by simpa [Config.inputVals, prog] using this
    rcases this with rfl | rfl
    · exact ⟨fun _ => .scalar (t + 1), fun i => by simp [Config.inputVals, prog], fun _ => ⟨rfl, rfl⟩, fun e => (e rfl).elim⟩
    · refine ⟨fun i => .scalar (feed i t), fun i => by simp [Config.inputVals, prog], fun e => (by cases e), fun _ => ?_⟩
      have := Combined.scalar (a := (2 : ℚ)) (b := 3) t 1
      rwa [mul_one] at this
  · rw [(leaves_perm st i).mem_iff] at hl
    simp only [List.mem_cons, List.not_mem_nil, or_false] at hl
    rcases hl with rfl | rfl | rfl
    · show Lin (mixed (2 : ℚ) 3 (· = 3) 0) _
      rw [hm 0 (by decide)]
      refine .inl ⟨fun i => if i = 0 then 1 else if i = 1 then 0 else 2, ?_, rfl⟩
      show (2 : ℚ) = 2 * 1 + 3 * 0
      norm_num
    · trivial
    · trivial
  · have h0 : ∀ k i, (after (fun _ => k) i).w.shown 0 = some (.scalar (if i = 0 then 7/12 else if i = 1 then 5/12 else 29/12)) := by
      intro k i
      revert i
      cases k <;> decide +kernel
    exact ⟨7/12, 5/12, by norm_num, by norm_num, by exact h0 (st 0) 0, by exact h0 (st 1) 1, by rw [show (2 : ℚ) * (7/12) + 3 * (5/12) = 29/12 by norm_num]; exact h0 (st 2) 2⟩

def rested : World ℚ := { C72.world with mem := fun _ => { value := .scalar 0 } }

theorem rested_new (stp : Stepper ℚ) (st : Strategy) : rested.New (C72.prog stp st false) (fun _ => .scalar) where
  fine := {
    types := fun _ => rfl
    cells := fun _ => ⟨fun e => (by cases e), fun v e => (by cases e)⟩
    members := by
      intro l hl
      rw [C72.leaves_eq] at hl
      obtain rfl := List.mem_singleton.1 hl
      exact ⟨rfl, fun _ => rfl⟩ }
  done := fun _ => rfl
  record := fun _ _ _ => rfl

/-- All hypotheses of `C75_rest` hold for the linear equation `x' = x` with `x = 0` at the beginning: `x` stays 0. -/
example (st : Strategy) : ∃ m0 : Machine ℚ, Call.exec (C72.prog rk4 st false) (.init 0) { w := rested, s := { tPrev := 0 } } = .ok () m0 ∧
    ∀ ts : List ℚ, ((0 : ℚ) :: ts).Pairwise (· < ·) → (∃ m, RunsTo (C72.prog rk4 st false) (1/4) 1 m0 ts m) ∧
      ∀ m, RunsTo (C72.prog rk4 st false) (1/4) 1 m0 ts m → ∃ v, m.w.shown 0 = some v ∧ v.IsZero := by
  obtain ⟨m0, e, h⟩ := C75_rest (fun _ => False) (C72.prog rk4 st false) (C72.wires false) (fun _ => .scalar) (fun b => b) (C72.sealed _ (by simp) _ _)
    (fun p hp => by obtain ⟨i, rfl⟩ := C72.wire_eq _ p hp; trivial) (fun l hl => by
      rw [C72.leaves_eq] at hl
      obtain rfl := List.mem_singleton.1 hl
      exact le_rfl) (fun t q hq => (List.not_mem_nil hq).elim) (fun stp e => by cases e; simp) rested (rested_new _ _) rfl (fun l hl => by
      rw [C72.leaves_eq] at hl
      obtain rfl := List.mem_singleton.1 hl
      exact Lin.zero rfl) 0 (1/4) 1 (by norm_num) (by norm_num) 0
  exact ⟨m0, e, fun ts hts => ⟨(h ts hts).1, fun m hm => (h ts hts).2 m hm _ (.head _) 0 (.inr ⟨str "out", .scalar, .head _⟩) id⟩⟩

/-! ## The method with step size control -/

def scaled : World ℚ := { C72.world with mem := fun _ => { value := .scalar 1000 } }

theorem scaled_new : scaled.New (C72.prog rkf45 .plain false) (fun _ => .scalar) where
  fine := {
    types := fun _ => rfl
    cells := fun _ => ⟨fun e => (by cases e), fun v e => (by cases e)⟩
    members := by
      intro l hl
      rw [C72.leaves_eq] at hl
      obtain rfl := List.mem_singleton.1 hl
      exact ⟨rfl, fun _ => rfl⟩ }
  done := fun _ => rfl
  record := fun _ _ _ => rfl

/-- C75 is false of `Rkf45`: the step sizes depend on the size of the error, so the computed solution of `x' = x` with the initial value 1000 is not a million times
the one with the initial value 1/1000: 2718.28... and 2717.94...  -/
theorem C75_rkf45_refuted : ∃ (cfg : Config ℚ) (ps : List (Wire ℚ)) (ty : SigId → Ty) (rank : BlkId → Nat) (w w' : World ℚ) (m0 m m0' m' : Machine ℚ) (a x y y' : ℚ),
    cfg.Sealed ps ty rank ∧ (∀ p ∈ ps, p.obj.Plain) ∧ (∀ l ∈ cfg.model.leaves, ∀ M : Submodule ℚ (Fin 2 → ℚ), l.Linear (fun _ => 0) (fun _ => M)) ∧ (∀ t, cfg.inputVals t = []) ∧
      cfg.stepper = some rkf45 ∧ w.New cfg ty ∧ w'.New cfg ty ∧ w.log = [] ∧ w'.log = [] ∧
      (∀ l ∈ cfg.model.leaves, w.mem l.id = { value := .scalar x } ∧ w'.mem l.id = { value := .scalar (a * x) }) ∧
      Call.exec cfg (.init 0) { w := w, s := { tPrev := 0 } } = .ok () m0 ∧ RunsTo cfg (1/4) 10 m0 [1] m ∧
      Call.exec cfg (.init 0) { w := w', s := { tPrev := 0 } } = .ok () m0' ∧ RunsTo cfg (1/4) 10 m0' [1] m' ∧
      ∃ p ∈ ps, ∃ s, p.Gives s ∧ m.w.shown s = some (.scalar y) ∧ m'.w.shown s = some (.scalar y') ∧ y' ≠ a * y := by
  refine ⟨C72.prog rkf45 .plain false, C72.wires false, _, _, C72.world, scaled, _, _, _, _, 1000000, 1/1000, 53/19500, 3540168355515341079540125/1302351503192953454592,
    C72.sealed _ (by simp) _ _, fun p hp => by obtain ⟨i, rfl⟩ := C72.wire_eq _ p hp; trivial, fun l hl M => ?_, fun t => rfl, rfl, C72.new _ _ _, scaled_new, rfl, rfl,
    fun l hl => ⟨?_, ?_⟩, eq_of_returns (by decide +kernel), .cons 10 (eq_of_returns (by decide +kernel)) .nil, eq_of_returns (by decide +kernel),
    .cons 10 (eq_of_returns (by decide +kernel)) .nil, _, .head _, 0, ⟨str "out", .scalar, .head _⟩, by decide +kernel, by decide +kernel, by norm_num⟩
  · rw [C72.leaves_eq] at hl
    obtain rfl := List.mem_singleton.1 hl
    exact le_rfl
  · rw [C72.leaves_eq] at hl
    obtain rfl := List.mem_singleton.1 hl
    rfl
  · show ({ value := .scalar 1000 } : Mem ℚ) = _
    norm_num

end Pooya.C75
