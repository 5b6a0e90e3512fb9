import Verif.Proof.Lump
import Verif.Props.C72

/-! # C77: weighted sums of states that obey equations of their own are simulated by themselves -/

namespace Pooya.C77

open Pooya C69 C72 Within

set_option linter.unusedSectionVars false

section
variable {F : Type} [_root_.Field F] [LinearOrder F] [IsStrictOrderedRing F] [Archimedean F]
attribute [local instance] Arith.exact

/-- C77: a diagram with integrators, with any of the methods.  If weighted sums of the states obey a differential equation of their own as far as the equations of the blocks are
concerned, then after `init` they have the sums of the initial values as values, and at the end of every `run` those the method computes for that differential equation (`Euler` and
`Rk4`: with one step from each time to the next). -/
theorem C77_lumped (cfg : Config F) (ps : List (Wire F)) (ty : SigId → Ty) (rank : BlkId → Nat) (h : cfg.Sealed ps ty rank) (hpl : ∀ p ∈ ps, p.obj.Plain)
    (hs : ∃ p ∈ ps, p.obj.isState = true) (st : Stepper F) (hst : cfg.stepper = some st) (he : st ∈ [euler, rk4, rkf45])
    (qss : List (List (F × SigId × Nat))) (hq : ∀ qs ∈ qss, ∀ q ∈ qs, q.2.2 < (ty q.2.1).size ∧ ∃ p ∈ ps, p.obj.isState = true ∧ p.Gives q.2.1)
    (f : F → List F → List F) (hl : cfg.Lumps qss f)
    (w : World F) (hw : w.New cfg ty) (hlog : w.log = []) (tPrev t0 minH maxH : F) (h0 : 0 < minH) (h1 : minH < maxH) :
    ∃ (m0 : Machine F) (q0 : List F), Call.exec cfg (.init t0) { w := w, s := { tPrev := tPrev } } = .ok () m0 ∧
      List.Forall₂ (Weighs (cfg.keptVal w)) qss q0 ∧ List.Forall₂ (Weighs m0.w.shown) qss q0 ∧
      ∀ ts : List F, (t0 :: ts).Pairwise (· < ·) →
        (∃ m, RunsTo cfg minH maxH m0 ts m) ∧
        ∀ m, RunsTo cfg minH maxH m0 ts m → ∃ q, List.Forall₂ (Weighs m.w.shown) qss q ∧ Follows st f t0 q0 ts q ∧ (st ∈ [euler, rk4] → q = st.iterate f t0 q0 ts) := by
  obtain ⟨m0, V, x0, a1, rfl, a3, a4, a5, a6, a7⟩ := C69_passage cfg ps ty rank h hpl (fun st' e => by rw [hst] at e; cases e; exact he) w hw hlog tPrev t0 minH maxH h0 h1
  have hV : C72.Sorted ps ty m0.vars := sorted_of h (fun _ => C57.ordered_exact) hw a1 a3 a4
  have hsl : ∀ qs ∈ qss, ∀ q ∈ qs, q.2 ∈ Within.slots m0.vars := by
    intro qs hqs q hq'
    obtain ⟨g1, g2⟩ := hq qs hqs q hq'
    obtain ⟨a, s, i⟩ := q
    have g1 : i < (ty s).size := g1
    unfold Within.slots
    simp only [List.mem_append, List.mem_map, List.mem_flatMap, List.mem_range]
    rcases List.mem_append.1 ((a3 s).2 g2) with k | k
    · have := hV.scalars s k
      rw [this] at g1
      obtain rfl : i = 0 := Nat.lt_one_iff.1 g1
      exact .inl ⟨s, k, rfl⟩
    · exact .inr ⟨s, k, i, by rw [hV.size]; exact g1, rfl⟩
  have hne : m0.vars.scalars ++ m0.vars.arrays ≠ [] := by
    obtain ⟨p, hp, e⟩ := hs
    obtain ⟨l, hl, fl⟩ := C59.wire_leaf h hp
    obtain ⟨s, es⟩ := fl.owns e
    exact List.ne_nil_of_mem ((a3 s).2 ⟨p, hp, e, (fl.state s es).1⟩)
  have hof : Lump.Of (Within.slots m0.vars) qss x0 (qss.map (Lump.total (comp (cfg.keptVal w)))) := ⟨_, ((packed_iff fun _ _ => rfl).1 a5).2.2, rfl⟩
  have hw0 := Lump.of_packed hsl a6.solution.state hof
  refine ⟨m0, _, a1, Lump.of_packed hsl a5 hof, hw0, fun ts hts => ⟨(a7 ts hts).1, fun m hm => ?_⟩⟩
  obtain ⟨y, hp⟩ := (a7 ts hts).2 m hm
  obtain ⟨q, r1, r2, r3⟩ := Lump.passes hl hsl (size_same h hV) hne hst he (a := ⟨m0.w.mem, t0, x0, m0.w.shown⟩) hof hw0 hp
  exact ⟨q, r3, r1, r2⟩

theorem step_const {st : Stepper F} (he : st ∈ [euler, rk4, rkf45]) (r t u q : F) : ((st t [q] u).exec (m := Id) (fun _ _ => [r])).1 = [q + r * (u - t)] := by
  simp only [List.mem_cons, List.not_mem_nil, or_false] at he
  rcases he with rfl | rfl | rfl
  · show [q + (u - t) * r] = _
    rw [mul_comm]
  · show [q + Arith.lit 1 / Arith.lit 3 * ((u - t) / Arith.lit 2 * r) + Arith.lit 2 / Arith.lit 3 * ((u - t) / Arith.lit 2 * r) + Arith.lit 1 / Arith.lit 3 * ((u - t) * r) +
      Arith.lit 1 / Arith.lit 6 * ((u - t) * r)] = _
    simp only [Arith.lit, Rat.cast_ofNat, Rat.cast_one]
    congr 1
    field_simp
    ring
  · show [q + Arith.lit 2375 / Arith.lit 20520 * ((u - t) * r) + Arith.lit 11264 / Arith.lit 20520 * ((u - t) * r) + Arith.lit 10985 / Arith.lit 20520 * ((u - t) * r) -
      Arith.lit 4104 / Arith.lit 20520 * ((u - t) * r)] = _
    simp only [Arith.lit, Rat.cast_ofNat]
    congr 1
    field_simp
    ring

theorem over_const {st : Stepper F} (he : st ∈ [euler, rk4, rkf45]) (r : F) {t u : F} {steps : List (F × F)} (h : Tiles t u steps) : ∀ q : F, st.over (fun _ _ => [r]) [q] steps = [q + r * (u - t)] := by
  induction h with
  | done => intro q; simp [Stepper.over]
  | @step s u t l _ _ ih =>
    intro q
    have := ih (q + r * (u - s))
    unfold Stepper.over at this ⊢
    rw [List.foldl_cons, step_const he, this]
    congr 1
    ring

theorem follows_const {st : Stepper F} (he : st ∈ [euler, rk4, rkf45]) (r : F) {ts x y : List F} {t : F} (h : Follows st (fun _ _ => [r]) t x ts y) :
    ∀ q, x = [q] → y = [q + r * ((t :: ts).getLast (by simp) - t)] := by
  induction h with
  | nil => intro q e; simp [e]
  | @cons t u x y us steps hT _ ih =>
    intro q e
    subst e
    rw [ih _ (over_const he r hT q), List.getLast_cons_cons]
    congr 1
    ring

/-- C77, balance: if the equations of the blocks imply that the derivative of a weighted sum of states is the constant `r`, the simulation keeps the balance exactly with all
methods: at the end of `init` and of every `run` the sum is the sum of the initial values plus `r` times the time passed.  With `r = 0` the sum is conserved. -/
theorem C77_balance (cfg : Config F) (ps : List (Wire F)) (ty : SigId → Ty) (rank : BlkId → Nat) (h : cfg.Sealed ps ty rank) (hpl : ∀ p ∈ ps, p.obj.Plain)
    (hs : ∃ p ∈ ps, p.obj.isState = true) (st : Stepper F) (hst : cfg.stepper = some st) (he : st ∈ [euler, rk4, rkf45])
    (qs : List (F × SigId × Nat)) (hq : ∀ q ∈ qs, q.2.2 < (ty q.2.1).size ∧ ∃ p ∈ ps, p.obj.isState = true ∧ p.Gives q.2.1) (r : F)
    (hl : ∀ V mem t x val d, Solution cfg V mem t x val → (∃ q, Weighs val qs q) → Weighs (fun s => (cfg.deriv s).bind val) qs d → d = r)
    (w : World F) (hw : w.New cfg ty) (hlog : w.log = []) (tPrev t0 minH maxH : F) (h0 : 0 < minH) (h1 : minH < maxH) :
    ∃ (m0 : Machine F) (q0 : F), Call.exec cfg (.init t0) { w := w, s := { tPrev := tPrev } } = .ok () m0 ∧ Weighs (cfg.keptVal w) qs q0 ∧ Weighs m0.w.shown qs q0 ∧
      ∀ ts : List F, (t0 :: ts).Pairwise (· < ·) →
        (∃ m, RunsTo cfg minH maxH m0 ts m) ∧
        ∀ m, RunsTo cfg minH maxH m0 ts m → Weighs m.w.shown qs (q0 + r * ((t0 :: ts).getLast (by simp) - t0)) := by
  obtain ⟨m0, q0, a1, a2, a3, a4⟩ := C77_lumped cfg ps ty rank h hpl hs st hst he [qs] (by simpa using hq) (fun _ _ => [r]) (fun V mem t x val q d k1 k2 k3 => by
    cases k2 with
    | cons b1 b2 =>
      cases b2
      cases k3 with
      | cons c1 c2 =>
        cases c2
        rw [hl V mem t x val _ k1 ⟨_, b1⟩ c1]) w hw hlog tPrev t0 minH maxH h0 h1
  cases a2 with
  | @cons _ q _ _ b1 b2 =>
    cases b2
    cases a3 with
    | cons c1 c2 =>
      refine ⟨m0, q, a1, b1, c1, fun ts hts => ⟨(a4 ts hts).1, fun m hm => ?_⟩⟩
      obtain ⟨y, e1, e2, _⟩ := (a4 ts hts).2 m hm
      rw [follows_const he r e2 q rfl] at e1
      cases e1 with
      | cons d1 _ => exact d1

end

/-! ## Example: `x' = - x y`, `y' = x y` -/

def times : Leaf ℚ := { id := 1, links := [(0, Demo.rq), (1, Demo.rq), (2, Demo.ot)], kind := .multiply (.scalar 1) [0, 1] 2 }
def minus : Leaf ℚ := { id := 2, links := [(2, Demo.rq), (3, Demo.ot)], kind := .gain (.scalar (-1)) 2 3 }
def sound : Leaf ℚ := { id := 3, links := [(3, Demo.inp), (0, Demo.st)], kind := .integrator 3 0 }
def sick : Leaf ℚ := { id := 4, links := [(2, Demo.inp), (1, Demo.st)], kind := .integrator 2 1 }

def prog (stp : Stepper ℚ) (st : Strategy) : Config ℚ where
  dbg := true
  model := .sub 100 [] [.leaf sound, .sub 101 [] [.leaf minus, .leaf times], .leaf sick]
  deriv s := if s = 1 then some 2 else if s = 0 then some 3 else none
  inputs := none
  modelInput _ := ([], none)
  stepper := some stp
  strategy := st
  hash := id

def wires : List (Wire ℚ) :=
  [⟨1, .multiply .double (.scalar 1), [C58.sc "x" 0, C58.sc "y" 1], [C58.sc "out" 2]⟩, ⟨2, .gain .double (.scalar (-1)), [C58.sc "in" 2], [C58.sc "out" 3]⟩,
    ⟨3, .integrator .double, [C58.sc "in" 3], [C58.sc "out" 0]⟩, ⟨4, .integrator .double, [C58.sc "in" 2], [C58.sc "out" 1]⟩]

/-- `x = 3` and `y = 1` at the beginning. -/
def world : World ℚ where
  sig _ := { ty := .scalar }
  mem b := { value := .scalar (if b = 3 then 3 else 1) }
  done _ := false
  log := []

theorem leaves_eq (stp : Stepper ℚ) (st : Strategy) : (prog stp st).model.leaves = [sound, minus, times, sick] := by
  simp [prog, Block.leaves, leavesL]

theorem leaves_perm (stp : Stepper ℚ) (st : Strategy) : (prog stp st).model.leaves.Perm [times, minus, sound, sick] := by
  rw [leaves_eq]
  exact List.Perm.append_right [sick] (l₁ := [sound, minus, times]) (l₂ := [times, minus, sound]) (List.reverse_perm [times, minus, sound])

def gives : List (Nat × Nat) := [(1, 2), (2, 3), (3, 0), (4, 1)]
def takes : List (Nat × Nat) := [(1, 0), (1, 1), (2, 2), (3, 3), (4, 2)]

theorem wires_mem : ∀ p ∈ wires, (∀ i, p.Gives i → (p.id, i) ∈ gives) ∧ (∀ i, p.Takes i → (p.id, i) ∈ takes) ∧ (p.obj.isState = true ↔ 3 ≤ p.id) ∧
    (p.obj.isState = true → ∀ i, ¬ p.Needs i) ∧ (∀ i, p.Needs i → p.Takes i) := by
  intro p hp
  simp only [wires, List.mem_cons, List.not_mem_nil, or_false] at hp
  rcases hp with rfl | rfl | rfl | rfl
  · refine ⟨?_, ?_, by decide, fun e => (by cases e), fun i h => h⟩
    · rintro i ⟨k, t, hi⟩; simp only [C58.sc, List.mem_cons, List.not_mem_nil, or_false] at hi; cases hi; decide
    · rintro i ⟨k, t, hi⟩; simp only [C58.sc, List.mem_cons, List.not_mem_nil, or_false] at hi; rcases hi with hi | hi <;> cases hi <;> decide
  · refine ⟨?_, ?_, by decide, fun e => (by cases e), fun i h => h⟩ <;>
      (rintro i ⟨k, t, hi⟩; simp only [C58.sc, List.mem_cons, List.not_mem_nil, or_false] at hi; cases hi; decide)
  · refine ⟨?_, ?_, by decide, fun _ i h => h, fun i h => h.elim⟩ <;>
      (rintro i ⟨k, t, hi⟩; simp only [C58.sc, List.mem_cons, List.not_mem_nil, or_false] at hi; cases hi; decide)
  · refine ⟨?_, ?_, by decide, fun _ i h => h, fun i h => h.elim⟩ <;>
      (rintro i ⟨k, t, hi⟩; simp only [C58.sc, List.mem_cons, List.not_mem_nil, or_false] at hi; cases hi; decide)

theorem giver : ∀ q ∈ takes, ∃ p ∈ wires, p.Gives q.2 := by
  intro q hq
  simp only [takes, List.mem_cons, List.not_mem_nil, or_false] at hq
  rcases hq with rfl | rfl | rfl | rfl | rfl
  · exact ⟨_, .tail _ (.tail _ (.head _)), str "out", .scalar, .head _⟩
  · exact ⟨_, .tail _ (.tail _ (.tail _ (.head _))), str "out", .scalar, .head _⟩
  · exact ⟨_, .head _, str "out", .scalar, .head _⟩
  · exact ⟨_, .tail _ (.head _), str "out", .scalar, .head _⟩
  · exact ⟨_, .head _, str "out", .scalar, .head _⟩

theorem agrees (es : Entries) (h : ∀ q ∈ es, ∃ k i, q = C58.sc k i) : Agrees (fun _ => .scalar) es ∧ Sized 1 es := by
  refine ⟨fun q hq i t e => ?_, fun q hq i m e => ?_⟩ <;> (obtain ⟨k, j, rfl⟩ := h q hq; cases e)
  rfl

theorem sealed (stp : Stepper ℚ) (hst : stp ∈ [euler, rk4, rkf45]) (st : Strategy) : (prog stp st).Sealed wires (fun _ => .scalar) (fun b => b) := by
  exact {
    dbg := rfl
    assembled := ⟨[times, minus, sound, sick], by with_unfolding_all rfl, leaves_perm stp st⟩
    proper := by
      unfold Block.Proper
      have : (prog stp st).model.ids = [100, 3, 101, 2, 1, 4] := by simp [prog, times, minus, sound, sick, Block.ids, Block.all, allL, Block.id]
      rw [this]; decide
    hash := fun _ => .refl _
    sane := by
      intro p hp
      have h1 : ∀ a i, ∀ q ∈ [C58.sc a i], ∃ k i, q = C58.sc k i := fun a i q hq => by
        rw [List.mem_singleton] at hq; exact ⟨_, _, hq⟩
      have h2 : ∀ a i b j, ∀ q ∈ [C58.sc a i, C58.sc b j], ∃ k i, q = C58.sc k i := fun a i b j q hq => by
        simp only [List.mem_cons, List.not_mem_nil, or_false] at hq
        rcases hq with rfl | rfl <;> exact ⟨_, _, rfl⟩
      simp only [wires, List.mem_cons, List.not_mem_nil, or_false] at hp
      rcases hp with rfl | rfl | rfl | rfl
      · exact ⟨(agrees _ (h2 _ _ _ _)).1, (agrees _ (h1 _ _)).1, .inl ⟨1, Nat.one_pos, ⟨trivial, rfl, rfl⟩, trivial, (agrees _ (h2 _ _ _ _)).2, (agrees _ (h1 _ _)).2⟩⟩
      · exact ⟨(agrees _ (h1 _ _)).1, (agrees _ (h1 _ _)).1, .inl ⟨1, Nat.one_pos, .inl ⟨trivial, _, rfl⟩, trivial, (agrees _ (h1 _ _)).2, (agrees _ (h1 _ _)).2⟩⟩
      · exact ⟨(agrees _ (h1 _ _)).1, (agrees _ (h1 _ _)).1, .inl ⟨1, Nat.one_pos, trivial, trivial, (agrees _ (h1 _ _)).2, (agrees _ (h1 _ _)).2⟩⟩
      · exact ⟨(agrees _ (h1 _ _)).1, (agrees _ (h1 _ _)).1, .inl ⟨1, Nat.one_pos, trivial, trivial, (agrees _ (h1 _ _)).2, (agrees _ (h1 _ _)).2⟩⟩
    once := by
      intro p hp q hq i h1 h2
      have key : ∀ a ∈ gives, ∀ c ∈ gives, a.2 = c.2 → a.1 = c.1 := by decide
      exact key _ ((wires_mem p hp).1 i h1) _ ((wires_mem q hq).1 i h2) rfl
    provided := fun p hp j hj => .inr (giver _ ((wires_mem p hp).2.1 j hj))
    loops := by
      intro p hp j hn q hq hg
      have key : ∀ a ∈ takes, ∀ c ∈ gives, a.2 = c.2 → ¬ 3 ≤ a.1 → 3 ≤ c.1 ∨ c.1 < a.1 := by decide
      obtain ⟨_, k2, k3, k4, k5⟩ := wires_mem p hp
      obtain ⟨g1, _, g3, _⟩ := wires_mem q hq
      rcases key _ (k2 j (k5 j hn)) _ (g1 j hg) rfl (fun e => k4 (k3.2 e) j hn) with h | h
      · exact .inl (g3.2 h)
      · exact .inr h
    inputs := fun f e => by cases e
    modelInput := ⟨fun t => ⟨fun p hp => (by cases hp), fun e h => (by cases h)⟩, fun _ => rfl⟩
    inputOnce := fun t => List.nodup_nil
    inputFree := fun t s hs => by cases hs
    stepper := fun s e => by
      obtain rfl := Option.some_inj.1 e
      simp only [List.mem_cons, List.not_mem_nil, or_false] at hst
      rcases hst with rfl | rfl | rfl
      · exact C26.dim_provided.1
      · exact C26.dim_provided.2.1
      · exact C26.dim_provided.2.2
    stepped := fun _ => rfl
    reuse := fun _ => ⟨_, .tail _ (.tail _ (.head _)), rfl⟩ }

theorem new (stp : Stepper ℚ) (st : Strategy) : world.New (prog stp st) (fun _ => .scalar) where
  fine := {
    types := fun _ => rfl
    cells := fun _ => ⟨fun e => (by cases e), fun v e => (by cases e)⟩
    members := by
      intro l hl
      rw [leaves_eq] at hl
      simp only [List.mem_cons, List.not_mem_nil, or_false] at hl
      rcases hl with rfl | rfl | rfl | rfl
      · exact ⟨rfl, fun _ => rfl⟩
      · trivial
      · trivial
      · exact ⟨rfl, fun _ => rfl⟩ }
  done := fun _ => rfl
  record := fun _ _ _ => rfl

def sum : List (ℚ × SigId × Nat) := [(1, 0, 0), (1, 1, 0)]

theorem balanced (stp : Stepper ℚ) (st : Strategy) : ∀ V mem t x val d, Solution (prog stp st) V mem t x val → (∃ q, Weighs val sum q) →
    Weighs (fun s => ((prog stp st).deriv s).bind val) sum d → d = 0 := by
  intro V mem t x val d hs hq hd
  have hv : (∃ v, val 0 = some v) ∧ ∃ v, val 1 = some v := by
    obtain ⟨q, hq⟩ := hq
    rcases hq with _ | ⟨e, hq⟩ | ⟨e, _, hq⟩ <;> rcases hq with _ | ⟨e', _⟩ | ⟨e', _, _⟩ <;> exact ⟨⟨_, e⟩, ⟨_, e'⟩⟩
  obtain ⟨p, h1, h2⟩ : times.Solved t (mem 1) val := hs.block times (by rw [leaves_eq]; simp) fun s f hm hf => by
    simp only [times, List.mem_cons, List.not_mem_nil, or_false] at hm
    rcases hm with hm | hm | hm <;> cases hm
    · exact hv.1
    · exact hv.2
    · cases hf
  obtain ⟨a, r, h3, hr, h4⟩ : minus.Solved t (mem 2) val := hs.block minus (by rw [leaves_eq]; simp) fun s f hm hf => by
    simp only [minus, List.mem_cons, List.not_mem_nil, or_false] at hm
    rcases hm with hm | hm <;> cases hm
    · exact ⟨_, h2⟩
    · cases hf
  rw [h2] at h3
  cases h3
  cases hd with
  | scalar e hd =>
    have e : val 3 = _ := e
    rw [h4] at e
    cases e
    cases hd with
    | scalar e' hd =>
      have e' : val 2 = _ := e'
      rw [h2] at e'
      cases e'
      cases hd
      cases hr
      show 1 * (-1 * _) + (1 * _ + 0) = (0 : ℚ)
      ring
    | array e' _ hd =>
      have e' : val 2 = _ := e'
      rw [h2] at e'
      cases e'
      cases hr
  | array e _ hd =>
    have e : val 3 = _ := e
    rw [h4] at e
    cases e
    cases hr
    cases h1 with
    | cons _ b h1 =>
      cases b
      cases h1 with
      | cons _ b h1 =>
        cases b
        cases h1

def ready (stp : Stepper ℚ) (st : Strategy) : Machine ℚ := stateOf (Call.exec (prog stp st) (.init 0) { w := world, s := { tPrev := 0 } })
def after (stp : Stepper ℚ) (st : Strategy) : Machine ℚ := stateOf (Call.exec (prog stp st) (.run 10 (1/4) (1/4) 10) (ready stp st))

/-- All hypotheses of `C77_balance` (and so of `C77_lumped`) hold for all methods and simulators, with the weights 1 and 1 and `r = 0`.  At time 1/4 the sum is the sum of the initial values
3 and 1, while each of the states has changed. -/
example (stp : Stepper ℚ) (hst : stp ∈ [euler, rk4, rkf45]) (st : Strategy) : (prog stp st).Sealed wires (fun _ => .scalar) (fun b => b) ∧ (∀ p ∈ wires, p.obj.Plain) ∧
    (∃ p ∈ wires, p.obj.isState = true) ∧ (prog stp st).stepper = some stp ∧ (∀ q ∈ sum, q.2.2 < Ty.scalar.size ∧ ∃ p ∈ wires, p.obj.isState = true ∧ p.Gives q.2.1) ∧
    (∀ V mem t x val d, Solution (prog stp st) V mem t x val → (∃ q, Weighs val sum q) → Weighs (fun s => ((prog stp st).deriv s).bind val) sum d → d = 0) ∧
    world.New (prog stp st) (fun _ => .scalar) ∧ world.log = [] ∧ Weighs ((prog stp st).keptVal world) sum 4 ∧
    ∃ x y : ℚ, x ≠ 3 ∧ x + y = 4 ∧ (after stp st).w.shown 0 = some (.scalar x) ∧ (after stp st).w.shown 1 = some (.scalar y) := by
  refine ⟨sealed stp hst st, by simp [wires, Make.Plain], ⟨_, .tail _ (.tail _ (.head _)), rfl⟩, rfl, ?_, balanced stp st, new stp st, rfl, ?_, ?_⟩
  · intro q hq
    simp only [sum, List.mem_cons, List.not_mem_nil, or_false] at hq
    rcases hq with rfl | rfl
    · exact ⟨Nat.one_pos, _, .tail _ (.tail _ (.head _)), rfl, str "out", .scalar, .head _⟩
    · exact ⟨Nat.one_pos, _, .tail _ (.tail _ (.tail _ (.head _))), rfl, str "out", .scalar, .head _⟩
  · have e0 : (prog stp st).keptVal world 0 = some (.scalar 3) := by unfold Config.keptVal; rw [leaves_eq]; rfl
    have e1 : (prog stp st).keptVal world 1 = some (.scalar 1) := by unfold Config.keptVal; rw [leaves_eq]; rfl
    have := Weighs.scalar (a := (1 : ℚ)) e0 (.scalar (a := (1 : ℚ)) e1 .nil)
    norm_num at this
    exact this
  · simp only [List.mem_cons, List.not_mem_nil, or_false] at hst
    have key : ∀ m : Machine ℚ, (match m.w.shown 0, m.w.shown 1 with | some (.scalar x), some (.scalar y) => decide (x ≠ 3 ∧ x + y = 4) | _, _ => false) = true →
        ∃ x y : ℚ, x ≠ 3 ∧ x + y = 4 ∧ m.w.shown 0 = some (.scalar x) ∧ m.w.shown 1 = some (.scalar y) := by
      intro m h
      split at h
      · rename_i x y e1 e2
        exact ⟨x, y, (of_decide_eq_true h).1, (of_decide_eq_true h).2, e1, e2⟩
      · cases h
    rcases hst with rfl | rfl | rfl <;> exact key _ (by cases st <;> decide +kernel)

end Pooya.C77
