import Verif.Proof.Slice

/-! # C80: array signals are simulated coefficient by coefficient, and symmetric diagrams stay symmetric -/

namespace Pooya.C80

open Pooya C69 Within Slice

set_option linter.unusedSectionVars false

section
variable {K : Type} [Arith K]
attribute [local instance] Arith.before

/-- C80: two programs, the diagram of the first found in that of the second: every signal of the first stands for a signal of the second or for one coefficient of an
array signal, every block does to its signals what a block of the second does to the coefficients, or has neither memory nor state and an equation that follows from
those of the second.  Both are simulated with Euler's method or both with Rk4 through the same times, from members the first of which are those coefficients of the
second.  Then after every call of `run` the signals of the first have the values of the signals or coefficients they stand for, bit by bit in every arithmetic, and so
have the members of its blocks.  The simulators, the nesting and the order of the blocks, and the limits for the step size may differ; the second diagram may contain
more blocks. -/
theorem C80_coefficients (η : Lens) (β : BlkId → BlkId) (cfg cfg' : Config K) (ps ps' : List (Wire K)) (ty ty' : SigId → Ty) (rank rank' : BlkId → Nat)
    (h : cfg.Sealed ps ty rank) (h' : cfg'.Sealed ps' ty' rank') (hpl : ∀ p ∈ ps, p.obj.Plain) (hpl' : ∀ p ∈ ps', p.obj.Plain) (hf : cfg.Found η β cfg')
    (hst : (∃ p ∈ ps, p.obj.isState = true) → cfg.stepper = cfg'.stepper) (he : ∀ st, cfg.stepper = some st ∨ cfg'.stepper = some st → st ∈ [euler, rk4])
    (ho : cfg.Delays ∨ cfg'.Delays → OrderedArith K) (w w' : World K) (hw : w.New cfg ty) (hw' : w'.New cfg' ty') (hlog : w.log = []) (hlog' : w'.log = [])
    (hmem : ∀ l ∈ cfg.model.leaves, l.Holds η (w.mem l.id) (w'.mem (β l.id))) (tPrev tPrev' t0 minH maxH minH' maxH' : K)
    (h0 : (Arith.lit 0 <. minH) = true) (h1 : (minH <. maxH) = true) (h0' : (Arith.lit 0 <. minH') = true) (h1' : (minH' <. maxH') = true) :
    ∃ m0 m0', Call.exec cfg (.init t0) { w := w, s := { tPrev := tPrev } } = .ok () m0 ∧ Call.exec cfg' (.init t0) { w := w', s := { tPrev := tPrev' } } = .ok () m0' ∧
      ∀ ts : List K, (t0 :: ts).IsChain Later → (∃ m, RunsTo cfg minH maxH m0 ts m) ∧ (∃ m', RunsTo cfg' minH' maxH' m0' ts m') ∧
        ∀ m m', RunsTo cfg minH maxH m0 ts m → RunsTo cfg' minH' maxH' m0' ts m' →
          (∀ p ∈ ps, ∀ s, p.Takes s ∨ p.Gives s → m.w.shown s = (m'.w.shown (η s).1).bind (Val.coef (η s).2)) ∧
          ∀ l ∈ cfg.model.leaves, l.Holds η (m.w.mem l.id) (m'.w.mem (β l.id)) := by
  have ho1 : cfg.Delays → OrderedArith K := fun d => ho (.inl d)
  have ho2 : cfg'.Delays → OrderedArith K := fun d => ho (.inr d)
  obtain ⟨m0, V, x0, a1, rfl, a3, a4, a5, a6, a7⟩ := C70.C70_single cfg ps ty rank h hpl (fun st e => he st (.inl e)) ho1 w hw hlog tPrev t0 minH maxH h0 h1
  obtain ⟨m0', V', x0', b1, rfl, b3, b4, b5, b6, b7⟩ := C70.C70_single cfg' ps' ty' rank' h' hpl' (fun st e => he st (.inr e)) ho2 w' hw' hlog' tPrev' t0 minH' maxH' h0' h1'
  have hV := C72.sorted_of h ho1 hw a1 a3 a4
  have hV' := C72.sorted_of h' ho2 hw' b1 b3 b4
  have hh := mirrors_found h h' hV hV' hf hw hw' hmem
  refine ⟨m0, m0', a1, b1, fun ts hts => ⟨(a7 ts hts).1, (b7 ts hts).1, fun m m' r r' => ?_⟩⟩
  have e1 := ((packed_iff fun _ _ => rfl).1 b5).2.2
  rw [e1] at b5 b6
  have hx := stands_found h h' hV hV' hf hw hw' hmem a5 b5
  obtain ⟨ν, hν, b8⟩ := hh.committed hmem b6
  obtain ⟨c1, c2⟩ := committed_unique h a3 (fun _ _ => rfl) a6 (hx ▸ b8)
  obtain ⟨y, q⟩ := (a7 ts hts).2 m r
  obtain ⟨y', q'⟩ := (b7 ts hts).2 m' r'
  obtain ⟨ν1, f, hν1, _, q''⟩ := hh.passes (by
    by_cases hs : ∃ p ∈ ps, p.obj.isState = true
    · exact .inl (hst hs)
    · refine .inr (List.eq_nil_iff_forall_not_mem.2 fun s k => hs ?_)
      obtain ⟨p, hp, e, _⟩ := (hV.mem s).1 k
      exact ⟨p, hp, e⟩) (fun st e => he st (.inr e)) q' hν e1
  have hal := C69_unique cfg ps ty rank h m0.vars a3 (fun st e => he st (.inl e)) ⟨m0.w.mem, t0, x0, m0.w.shown⟩ ⟨ν, t0, _, η.see m0'.w.shown⟩ _ _ ⟨rfl, hx, c1, c2⟩ ts q q''
  exact ⟨fun p hp s hs => hal.vals s ⟨p, hp, hs⟩, fun l hl => by rw [show m.w.mem l.id = ν1 l.id from hal.mem l hl]; exact hν1 l hl⟩

end

section
variable {F : Type} [_root_.Field F] [LinearOrder F] [IsStrictOrderedRing F] [Archimedean F]
attribute [local instance] Arith.exact

/-- C80, symmetry: a diagram that is found in itself another way - with signals and blocks exchanged for others that do the same -, with initial values that are
the same for those that are exchanged, simulated with any of the methods provided.  Then signals that are exchanged have the same values after every call of `run`:
the steps, which for `Rkf45` depend on all states, are the same for all of them. -/
theorem C80_symmetry (η : Lens) (β : BlkId → BlkId) (cfg : Config F) (ps : List (Wire F)) (ty : SigId → Ty) (rank : BlkId → Nat)
    (h : cfg.Sealed ps ty rank) (hpl : ∀ p ∈ ps, p.obj.Plain) (hf : cfg.Found η β cfg) (he : ∀ st, cfg.stepper = some st → st ∈ [euler, rk4, rkf45])
    (w : World F) (hw : w.New cfg ty) (hlog : w.log = []) (hmem : ∀ l ∈ cfg.model.leaves, l.Holds η (w.mem l.id) (w.mem (β l.id)))
    (tPrev t0 minH maxH : F) (h0 : 0 < minH) (h1 : minH < maxH) :
    ∃ m0, Call.exec cfg (.init t0) { w := w, s := { tPrev := tPrev } } = .ok () m0 ∧
      ∀ ts : List F, (t0 :: ts).Pairwise (· < ·) → (∃ m, RunsTo cfg minH maxH m0 ts m) ∧
        ∀ m, RunsTo cfg minH maxH m0 ts m → ∀ p ∈ ps, ∀ s, p.Takes s ∨ p.Gives s → m.w.shown s = (m.w.shown (η s).1).bind (Val.coef (η s).2) := by
  obtain ⟨m0, V, x0, a1, rfl, a3, a4, a5, a6, a7⟩ := C69_passage cfg ps ty rank h hpl he w hw hlog tPrev t0 minH maxH h0 h1
  have hV := C72.sorted_of h (fun _ => C57.ordered_exact) hw a1 a3 a4
  have hh := mirrors_found h h hV hV hf hw hw hmem
  refine ⟨m0, a1, fun ts hts => ⟨(a7 ts hts).1, fun m r => ?_⟩⟩
  have e1 := ((packed_iff fun _ _ => rfl).1 a5).2.2
  have a5' := a5
  have a6' := a6
  rw [e1] at a5' a6'
  have hx := stands_found h h hV hV hf hw hw hmem a5 a5'
  obtain ⟨ν, hν, b8⟩ := hh.committed hmem a6'
  obtain ⟨c1, c2⟩ := committed_unique h a3 (fun _ _ => rfl) a6 (hx ▸ b8)
  obtain ⟨y, q⟩ := (a7 ts hts).2 m r
  have key : ∀ {a b : Snapshot F} {ts : List F}, Passes cfg m0.vars a ts b → ∀ {ν : BlkId → Mem F} {g : SigId × Nat → F}, Held η β cfg ν a.mem → a.state = (Within.slots m0.vars).map g →
      C69.Alike cfg ps a ⟨ν, a.time, (Within.slots m0.vars).map fun q => g (slot η q), η.see a.vals⟩ → ∀ s, (∃ p ∈ ps, p.Takes s ∨ p.Gives s) → b.vals s = η.see b.vals s := by
    intro a b ts hp
    induction hp with
    | nil => exact fun _ _ ha s hs => ha.vals s hs
    | @steps a c b ts st steps k1 k2 k3 k4 k5 k6 ih =>
      intro ν g hν e ha
      obtain ⟨f, ν2, hν2, e2, q⟩ := hh.evolves (he _ k2) k5 hν e
      have es : a.state = (Within.slots m0.vars).map fun q => g (slot η q) := ha.state
      rw [← es] at q
      obtain ⟨g1, g2, g3⟩ := evolves_unique h hV k5 ha.mem q
      exact ih hν2 e2 ⟨rfl, g1, g2, g3⟩
    | @sample a c b ts k1 k2 k3 ih =>
      intro ν g hν e ha
      have e2 := ((packed_iff fun _ _ => rfl).1 k2.solution.state).2.2
      have k2' := k2
      rw [e2] at k2'
      obtain ⟨ν2, hν2, q⟩ := hh.committed hν k2'
      have x1 := (packed_nil k1).1 k2.solution.state
      have x2 := (packed_nil k1).1 q.solution.state
      have ex := x1.trans x2.symm
      rw [← ex] at q
      obtain ⟨g1, g2⟩ := committed_unique h a3 ha.mem k2 q
      exact ih hν2 e2 ⟨rfl, ex, g1, g2⟩
  exact fun p hp s hs => key q hν e1 ⟨rfl, hx, c1, c2⟩ s ⟨p, hp, hs⟩

end

/-! ## Example: `x' = x` for a number, and for an array of size 2 -/

def integ : Leaf ℚ := { id := 1, links := [(1, Demo.inp), (0, Demo.st)], kind := .integrator 1 0 }
def gain : Leaf ℚ := { id := 2, links := [(0, Demo.rq), (1, Demo.ot)], kind := .gain (.scalar 1) 0 1 }

def ty (a : Bool) (_ : SigId) : Ty := if a then .array 2 else .scalar

/-- The equation `x' = 1 x`, if `a` for arrays of size 2. -/
def prog (stp : Stepper ℚ) (st : Strategy) (a : Bool) : Config ℚ where
  dbg := true
  model := if a then .sub 100 [] [.sub 101 [] [.leaf gain], .leaf integ] else .sub 100 [] [.leaf integ, .leaf gain]
  deriv s := if s = 0 then some 1 else none
  inputs := none
  modelInput _ := ([], none)
  stepper := some stp
  strategy := st
  hash := id

def sg (a : Bool) (l : String) (i : SigId) : Str × Signal := (str l, .val i (ty a i))

def vt (a : Bool) : VTy := if a then .array else .double

def wires (a : Bool) : List (Wire ℚ) :=
  [⟨1, .integrator (vt a), [sg a "in" 1], [sg a "out" 0]⟩, ⟨2, .gain (vt a) (.scalar 1), [sg a "in" 0], [sg a "out" 1]⟩]

def world (a : Bool) : World ℚ where
  sig s := { ty := ty a s }
  mem _ := { value := if a then .array [1000, 1/1000] else .scalar (1/1000) }
  done _ := false
  log := []

theorem leaves_eq (stp : Stepper ℚ) (st : Strategy) (a : Bool) : (prog stp st a).model.leaves = if a then [gain, integ] else [integ, gain] := by
  cases a <;> simp [prog, Block.leaves, leavesL]

theorem leaf_mem {stp : Stepper ℚ} {st : Strategy} {a : Bool} {l : Leaf ℚ} : l ∈ (prog stp st a).model.leaves ↔ l = integ ∨ l = gain := by
  rw [leaves_eq]
  cases a <;> simp [or_comm]

theorem wires_mem (a : Bool) : ∀ p ∈ wires a, (∀ i, p.Gives i → i = p.id - 1) ∧ (∀ i, p.Takes i → i = 2 - p.id) ∧ (p.obj.isState = true ↔ p.id = 1) ∧
    (p.obj.isState = true → ∀ i, ¬ p.Needs i) ∧ (∀ i, p.Needs i → p.Takes i) ∧ (p.id = 1 ∨ p.id = 2) := by
  intro p hp
  simp only [wires, List.mem_cons, List.not_mem_nil, or_false] at hp
  rcases hp with rfl | rfl
  · refine ⟨?_, ?_, by simp [Make.isState], fun _ i h => h, fun i h => h.elim, .inl rfl⟩ <;>
      (rintro i ⟨k, t, hi⟩; simp only [sg, List.mem_cons, List.not_mem_nil, or_false] at hi; cases hi; rfl)
  · refine ⟨?_, ?_, by simp [Make.isState], ?_, fun i h => h, .inr rfl⟩ <;> first | (intro e; cases e; done) |
      (rintro i ⟨k, t, hi⟩; simp only [sg, List.mem_cons, List.not_mem_nil, or_false] at hi; cases hi; rfl)

theorem sealed (stp : Stepper ℚ) (hst : stp ∈ [euler, rk4, rkf45]) (st : Strategy) (a : Bool) : (prog stp st a).Sealed (wires a) (ty a) (fun b => b) := by
  have hs : ∀ l i, Agrees (ty a) [sg a l i] ∧ Sized (if a then 2 else 1) [sg a l i] := by
    intro l i
    refine ⟨fun q hq j t e => ?_, fun q hq j m e => ?_⟩ <;> (rw [List.mem_singleton] at hq; subst hq)
    · cases e; rfl
    · cases a
      · cases e
      · cases e; rfl
  have hn : 0 < (if a then 2 else 1) := by cases a <;> decide
  have hreal : (vt a).Real := by cases a <;> trivial
  exact {
    dbg := rfl
    assembled := by
      refine ⟨[integ, gain], by cases a <;> with_unfolding_all rfl, ?_⟩
      rw [leaves_eq]
      cases a
      · exact .refl _
      · exact .swap _ _ _
    proper := by
      unfold Block.Proper
      cases a
      · have : (prog stp st false).model.ids = [100, 1, 2] := by simp [prog, integ, gain, Block.ids, Block.all, allL, Block.id]
        rw [this]; decide
      · have : (prog stp st true).model.ids = [100, 101, 2, 1] := by simp [prog, integ, gain, Block.ids, Block.all, allL, Block.id]
        rw [this]; decide
    hash := fun _ => .refl _
    sane := by
      intro p hp
      simp only [wires, List.mem_cons, List.not_mem_nil, or_false] at hp
      rcases hp with rfl | rfl
      · exact ⟨(hs _ _).1, (hs _ _).1, .inl ⟨_, hn, trivial, trivial, (hs _ _).2, (hs _ _).2⟩⟩
      · exact ⟨(hs _ _).1, (hs _ _).1, .inl ⟨_, hn, .inl ⟨hreal, _, rfl⟩, trivial, (hs _ _).2, (hs _ _).2⟩⟩
    once := by
      intro p hp q hq i h1 h2
      have e1 := (wires_mem a p hp).1 i h1
      have e2 := (wires_mem a q hq).1 i h2
      rcases (wires_mem a p hp).2.2.2.2.2 with g1 | g1 <;> rcases (wires_mem a q hq).2.2.2.2.2 with g2 | g2 <;> rw [g1] at e1 <;> rw [g2] at e2 <;> first | exact absurd (e1.symm.trans e2) (by decide) | rw [g1, g2]
    provided := by
      intro p hp i hi
      simp only [wires, List.mem_cons, List.not_mem_nil, or_false] at hp
      rcases hp with rfl | rfl
      · obtain rfl := (wires_mem a _ (.head _)).2.1 i hi
        exact .inr ⟨_, .tail _ (.head _), str "out", ty a 1, .head _⟩
      · obtain rfl := (wires_mem a _ (.tail _ (.head _))).2.1 i hi
        exact .inr ⟨_, .head _, str "out", ty a 0, .head _⟩
    loops := by
      intro p hp i hn q hq hg
      obtain ⟨_, k2, k3, k4, k5, k6⟩ := wires_mem a p hp
      obtain ⟨g1, _, g3, _, _, g6⟩ := wires_mem a q hq
      rcases k6 with e | e
      · exact (k4 (k3.2 e) i hn).elim
      · refine .inl (g3.2 ?_)
        have e1 := k2 i (k5 i hn)
        have e2 := g1 i hg
        rw [e] at e1
        rcases g6 with g | g <;> rw [g] at e2
        · exact g
        · exact absurd (e1.symm.trans e2) (by decide)
    inputs := fun f e => by cases e
    modelInput := ⟨fun t => ⟨fun p hp => (List.not_mem_nil hp).elim, fun e h => (by cases h)⟩, fun _ => rfl⟩
    inputOnce := fun t => List.nodup_nil
    inputFree := fun t s hs => (List.not_mem_nil hs).elim
    stepper := fun s e => by
      obtain rfl := Option.some_inj.1 e
      simp only [List.mem_cons, List.not_mem_nil, or_false] at hst
      rcases hst with rfl | rfl | rfl
      · exact C26.dim_provided.1
      · exact C26.dim_provided.2.1
      · exact C26.dim_provided.2.2
    stepped := fun _ => rfl
    reuse := fun _ => ⟨_, .head _, rfl⟩ }

theorem new (stp : Stepper ℚ) (st : Strategy) (a : Bool) : (world a).New (prog stp st a) (ty a) where
  fine := {
    types := fun _ => rfl
    cells := fun _ => ⟨fun e => (by cases e), fun v e => (by cases e)⟩
    members := by
      intro l hl
      rcases leaf_mem.1 hl with rfl | rfl
      · cases a <;> exact ⟨rfl, fun _ => rfl⟩
      · trivial }
  done := fun _ => rfl
  record := fun _ _ _ => rfl

/-- The second coefficients. -/
def second : Lens := fun s => (s, some 1)

theorem found (stp : Stepper ℚ) (st st' : Strategy) : (prog stp st false).Found second id (prog stp st' true) where
  block := by
    intro l hl
    refine .inl ⟨l, leaf_mem.2 (leaf_mem.1 hl), rfl, ?_⟩
    rcases leaf_mem.1 hl with rfl | rfl
    · exact ⟨_, rfl, rfl⟩
    · exact ⟨rfl, _, rfl, rfl⟩
  input := fun t q hq => (List.not_mem_nil hq).elim

theorem held (stp : Stepper ℚ) (st : Strategy) : ∀ l ∈ (prog stp st false).model.leaves, l.Holds second ((world false).mem l.id) ((world true).mem (id l.id)) := by
  intro l hl
  rcases leaf_mem.1 hl with rfl | rfl
  · rfl
  · trivial

theorem plain (a : Bool) : ∀ p ∈ wires a, p.obj.Plain := by
  intro p hp
  simp only [wires, List.mem_cons, List.not_mem_nil, or_false] at hp
  rcases hp with rfl | rfl <;> trivial

/-- The machine after `init(0)` and `run(1, 1/4, 10)`. -/
def after (stp : Stepper ℚ) (st : Strategy) (a : Bool) : Machine ℚ :=
  stateOf (Call.exec (prog stp st a) (.run 10 1 (1/4) 10) (stateOf (Call.exec (prog stp st a) (.init 0) { w := world a, s := { tPrev := 0 } })))

attribute [local instance] Arith.before in
/-- All hypotheses of `C80_coefficients` hold for the two programs with Euler's method and any two simulators; at 1 the number is 1/500, and the array (2000, 1/500). -/
example (st st' : Strategy) : (prog euler st false).Sealed (wires false) (ty false) (fun b => b) ∧ (prog euler st' true).Sealed (wires true) (ty true) (fun b => b) ∧
    (∀ p ∈ wires false, p.obj.Plain) ∧ (∀ p ∈ wires true, p.obj.Plain) ∧ (prog euler st false).Found second id (prog euler st' true) ∧ (prog euler st false).stepper = (prog euler st' true).stepper ∧
    ¬ ((prog euler st false).Delays ∨ (prog euler st' true).Delays) ∧ (world false).New (prog euler st false) (ty false) ∧ (world true).New (prog euler st' true) (ty true) ∧
    (world false).log = [] ∧ (world true).log = [] ∧ (∀ l ∈ (prog euler st false).model.leaves, l.Holds second ((world false).mem l.id) ((world true).mem (id l.id))) ∧
    [(0 : ℚ), 1].IsChain Later ∧ (after euler st false).w.shown 0 = some (.scalar (1/500)) ∧ (after euler st' true).w.shown 0 = some (.array [2000, 1/500]) :=
  ⟨sealed _ (by simp) _ _, sealed _ (by simp) _ _, plain _, plain _, found _ _ _, rfl,
    by rintro (⟨l, hl, e⟩ | ⟨l, hl, e⟩) <;> (rcases leaf_mem.1 hl with rfl | rfl <;> cases e), new _ _ _, new _ _ _, rfl, rfl, held _ _,
    by simp; constructor <;> decide +kernel, by cases st <;> decide +kernel, by cases st' <;> decide +kernel⟩

/-- The claim about coefficients is false of `Rkf45`: the error estimate is the largest one of all coefficients, so the others change the step sizes, and with them the
computed values: 0.0027179... for the number alone, 0.0027182... for the same equation in an array with a larger number. -/
theorem C80_rkf45_refuted : ∃ (η : Lens) (β : BlkId → BlkId) (cfg cfg' : Config ℚ) (ps ps' : List (Wire ℚ)) (ty ty' : SigId → Ty) (rank : BlkId → Nat) (w w' : World ℚ) (m0 m m0' m' : Machine ℚ),
    cfg.Sealed ps ty rank ∧ cfg'.Sealed ps' ty' rank ∧ (∀ p ∈ ps, p.obj.Plain) ∧ (∀ p ∈ ps', p.obj.Plain) ∧ cfg.Found η β cfg' ∧ cfg.stepper = some rkf45 ∧ cfg'.stepper = some rkf45 ∧
      w.New cfg ty ∧ w'.New cfg' ty' ∧ w.log = [] ∧ w'.log = [] ∧ (∀ l ∈ cfg.model.leaves, l.Holds η (w.mem l.id) (w'.mem (β l.id))) ∧
      Call.exec cfg (.init 0) { w := w, s := { tPrev := 0 } } = .ok () m0 ∧ RunsTo cfg (1/4) 10 m0 [1] m ∧
      Call.exec cfg' (.init 0) { w := w', s := { tPrev := 0 } } = .ok () m0' ∧ RunsTo cfg' (1/4) 10 m0' [1] m' ∧
      ∃ p ∈ ps, ∃ s, p.Gives s ∧ m.w.shown s ≠ (m'.w.shown (η s).1).bind (Val.coef (η s).2) := by
  refine ⟨second, id, prog rkf45 .plain false, prog rkf45 .plain true, wires false, wires true, _, _, _, world false, world true, _, _, _, _, sealed _ (by simp) _ _, sealed _ (by simp) _ _,
    plain _, plain _, found _ _ _, rfl, rfl, new _ _ _, new _ _ _, rfl, rfl, held _ _,
    eq_of_returns (by decide +kernel), .cons 10 (eq_of_returns (by decide +kernel)) .nil, eq_of_returns (by decide +kernel), .cons 10 (eq_of_returns (by decide +kernel)) .nil,
    _, .head _, 0, ⟨str "out", .scalar, .head _⟩, by decide +kernel⟩

/-! ## Example: `x' = y`, `y' = x` -/

def left : Leaf ℚ := { id := 1, links := [(1, Demo.inp), (0, Demo.st)], kind := .integrator 1 0 }
def right : Leaf ℚ := { id := 2, links := [(0, Demo.inp), (1, Demo.st)], kind := .integrator 0 1 }

def pair (stp : Stepper ℚ) (st : Strategy) : Config ℚ where
  dbg := true
  model := .sub 100 [] [.leaf right, .leaf left]
  deriv s := if s = 1 then some 0 else if s = 0 then some 1 else none
  inputs := none
  modelInput _ := ([], none)
  stepper := some stp
  strategy := st
  hash := id

def pairWires : List (Wire ℚ) := [⟨1, .integrator .double, [C58.sc "in" 1], [C58.sc "out" 0]⟩, ⟨2, .integrator .double, [C58.sc "in" 0], [C58.sc "out" 1]⟩]

def pairWorld : World ℚ where
  sig _ := { ty := .scalar }
  mem _ := { value := .scalar 3 }
  done _ := false
  log := []

theorem pair_mem {stp : Stepper ℚ} {st : Strategy} {l : Leaf ℚ} : l ∈ (pair stp st).model.leaves ↔ l = left ∨ l = right := by
  simp [pair, Block.leaves, leavesL, or_comm]

theorem pairWires_mem : ∀ p ∈ pairWires, (∀ i, p.Gives i → i = p.id - 1) ∧ (∀ i, ¬ p.Needs i) ∧ p.obj.Plain ∧ (p.id = 1 ∨ p.id = 2) := by
  intro p hp
  simp only [pairWires, List.mem_cons, List.not_mem_nil, or_false] at hp
  rcases hp with rfl | rfl
  · refine ⟨?_, fun i h => h, trivial, .inl rfl⟩
    rintro i ⟨k, t, hi⟩; simp only [C58.sc, List.mem_cons, List.not_mem_nil, or_false] at hi; cases hi; rfl
  · refine ⟨?_, fun i h => h, trivial, .inr rfl⟩
    rintro i ⟨k, t, hi⟩; simp only [C58.sc, List.mem_cons, List.not_mem_nil, or_false] at hi; cases hi; rfl

theorem pair_sealed (stp : Stepper ℚ) (hst : stp ∈ [euler, rk4, rkf45]) (st : Strategy) : (pair stp st).Sealed pairWires (fun _ => .scalar) (fun b => b) := by
  have hs : ∀ (a : String) (i : SigId), Agrees (fun _ => .scalar) [C58.sc a i] ∧ Sized 1 [C58.sc a i] := by
    intro a i
    refine ⟨fun q hq i t e => ?_, fun q hq i m e => ?_⟩ <;> (rw [List.mem_singleton] at hq; subst hq; cases e)
    rfl
  exact {
    dbg := rfl
    assembled := by
      refine ⟨[left, right], by with_unfolding_all rfl, ?_⟩
      rw [show (pair stp st).model.leaves = [right, left] by simp [pair, Block.leaves, leavesL]]
      exact .swap _ _ _
    proper := by
      unfold Block.Proper
      have : (pair stp st).model.ids = [100, 2, 1] := by simp [pair, left, right, Block.ids, Block.all, allL, Block.id]
      rw [this]; decide
    hash := fun _ => .refl _
    sane := by
      intro p hp
      simp only [pairWires, List.mem_cons, List.not_mem_nil, or_false] at hp
      rcases hp with rfl | rfl <;> exact ⟨(hs _ _).1, (hs _ _).1, .inl ⟨1, Nat.one_pos, trivial, trivial, (hs _ _).2, (hs _ _).2⟩⟩
    once := by
      intro p hp q hq i h1 h2
      have e1 := (pairWires_mem p hp).1 i h1
      have e2 := (pairWires_mem q hq).1 i h2
      rcases (pairWires_mem p hp).2.2.2 with g1 | g1 <;> rcases (pairWires_mem q hq).2.2.2 with g2 | g2 <;> rw [g1] at e1 <;> rw [g2] at e2 <;> first | exact absurd (e1.symm.trans e2) (by decide) | rw [g1, g2]
    provided := by
      intro p hp i hi
      simp only [pairWires, List.mem_cons, List.not_mem_nil, or_false] at hp
      rcases hp with rfl | rfl <;> obtain ⟨k, t, hi⟩ := hi <;> simp only [C58.sc, List.mem_cons, List.not_mem_nil, or_false] at hi <;> cases hi
      · exact .inr ⟨_, .tail _ (.head _), str "out", .scalar, .head _⟩
      · exact .inr ⟨_, .head _, str "out", .scalar, .head _⟩
    loops := fun p hp i hn => ((pairWires_mem p hp).2.1 i hn).elim
    inputs := fun f e => by cases e
    modelInput := ⟨fun t => ⟨fun p hp => (List.not_mem_nil hp).elim, fun e h => (by cases h)⟩, fun _ => rfl⟩
    inputOnce := fun t => List.nodup_nil
    inputFree := fun t s hs => (List.not_mem_nil hs).elim
    stepper := fun s e => by
      obtain rfl := Option.some_inj.1 e
      simp only [List.mem_cons, List.not_mem_nil, or_false] at hst
      rcases hst with rfl | rfl | rfl
      · exact C26.dim_provided.1
      · exact C26.dim_provided.2.1
      · exact C26.dim_provided.2.2
    stepped := fun _ => rfl
    reuse := fun _ => ⟨_, .head _, rfl⟩ }

/-- The exchange of the signals, and of the blocks. -/
def swap : Lens := fun s => (1 - s, none)
def swapBlk (b : BlkId) : BlkId := 3 - b

theorem pair_found (stp : Stepper ℚ) (st : Strategy) : (pair stp st).Found swap swapBlk (pair stp st) where
  block := by
    intro l hl
    rcases pair_mem.1 hl with rfl | rfl
    · exact .inl ⟨right, pair_mem.2 (.inr rfl), rfl, _, rfl, rfl⟩
    · exact .inl ⟨left, pair_mem.2 (.inl rfl), rfl, _, rfl, rfl⟩
  input := fun t q hq => (List.not_mem_nil hq).elim

theorem pair_new (stp : Stepper ℚ) (st : Strategy) : pairWorld.New (pair stp st) (fun _ => .scalar) where
  fine := {
    types := fun _ => rfl
    cells := fun _ => ⟨fun e => (by cases e), fun v e => (by cases e)⟩
    members := by
      intro l hl
      rcases pair_mem.1 hl with rfl | rfl <;> exact ⟨rfl, fun _ => rfl⟩ }
  done := fun _ => rfl
  record := fun _ _ _ => rfl

def pairAfter (stp : Stepper ℚ) (st : Strategy) : Machine ℚ :=
  stateOf (Call.exec (pair stp st) (.run 10 1 (1/4) 10) (stateOf (Call.exec (pair stp st) (.init 0) { w := pairWorld, s := { tPrev := 0 } })))

/-- All hypotheses of `C80_symmetry` hold for this program with any method and any simulator, the two signals being exchanged; with Rk4 both are 65/8 at 1. -/
example (stp : Stepper ℚ) (hst : stp ∈ [euler, rk4, rkf45]) (st : Strategy) : (pair stp st).Sealed pairWires (fun _ => .scalar) (fun b => b) ∧ (∀ p ∈ pairWires, p.obj.Plain) ∧
    (pair stp st).Found swap swapBlk (pair stp st) ∧ (pair stp st).stepper = some stp ∧ pairWorld.New (pair stp st) (fun _ => .scalar) ∧ pairWorld.log = [] ∧
    (∀ l ∈ (pair stp st).model.leaves, l.Holds swap (pairWorld.mem l.id) (pairWorld.mem (swapBlk l.id))) ∧ [(0 : ℚ), 1].Pairwise (· < ·) ∧
    (pairAfter rk4 st).w.shown 0 = some (.scalar (65/8)) ∧ (pairAfter rk4 st).w.shown 1 = some (.scalar (65/8)) :=
  ⟨pair_sealed _ hst _, fun p hp => (pairWires_mem p hp).2.2.1, pair_found _ _, rfl, pair_new _ _, rfl,
    fun l hl => by rcases pair_mem.1 hl with rfl | rfl <;> rfl, by simp,
    by cases st <;> decide +kernel, by cases st <;> decide +kernel⟩

end Pooya.C80
