import Verif.Proof.Restrict

/-! # C72: what is added to a diagram without being used in it does not change its simulation -/

namespace Pooya.C72

open Pooya C69 Within

set_option linter.unusedSectionVars false

section
variable {K : Type} [Arith K]
attribute [local instance] Arith.before

variable {cfg cfg' : Config K} {ps ps' : List (Wire K)} {ty ty' : SigId → Ty} {rank rank' : BlkId → Nat} {V V' : Vars}

theorem leaves_sub (h : cfg.Sealed ps ty rank) (h' : cfg'.Sealed ps' ty' rank') (hsub : ∀ p ∈ ps, p ∈ ps') (hpl : ∀ p ∈ ps, p.obj.Plain) : ∀ l ∈ cfg.model.leaves, l ∈ cfg'.model.leaves := by
  intro l hl
  obtain ⟨ls, h1, h2⟩ := h.assembled
  rw [h.dbg] at h1
  obtain ⟨p, hp, d1, d2, e⟩ := C58.all_mem h1 l (h2.mem_iff.1 hl)
  obtain ⟨ls', h1', h2'⟩ := h'.assembled
  rw [h'.dbg] at h1'
  obtain ⟨l', hl', d1', d2', e'⟩ := C59.all_conv h1' p (hsub p hp)
  rw [connect_same (hpl p hp) e e']
  exact h2'.mem_iff.2 hl'

theorem state_unique (h : cfg.Sealed ps ty rank) {l l' : Leaf K} (hl : l ∈ cfg.model.leaves) (hl' : l' ∈ cfg.model.leaves) {s : SigId} (e : l.state = some s) (e' : l'.state = some s) :
    l' = l := by
  obtain ⟨p, hp, f⟩ := C59.leaf_wire h hl
  obtain ⟨p', hp', f'⟩ := C59.leaf_wire h hl'
  refine C59.eq_of_leafId h.proper.leafNodup hl' hl ?_
  rw [f.id, f'.id]
  exact h.once p' hp' p hp s (f'.state s e').1 (f.state s e).1

theorem state_leaf (h : cfg.Sealed ps ty rank) {p : Wire K} (hp : p ∈ ps) (hs : p.obj.isState = true) {s : SigId} (hg : p.Gives s) : ∃ l ∈ cfg.model.leaves, l.state = some s := by
  obtain ⟨l, hl, f⟩ := C59.wire_leaf h hp
  rcases f.gives s hg with ⟨e, _⟩ | ⟨_, e⟩
  · rw [hs] at e; cases e
  · exact ⟨l, hl, e⟩

theorem find_state (h : cfg.Sealed ps ty rank) {l : Leaf K} (hl : l ∈ cfg.model.leaves) {s : SigId} (e : l.state = some s) :
    cfg.model.leaves.find? (fun l => decide (l.state = some s)) = some l := by
  cases hf : cfg.model.leaves.find? (fun l => decide (l.state = some s)) with
  | none =>
    have := List.find?_eq_none.1 hf l hl
    simp [e] at this
  | some l' => rw [state_unique h hl (List.mem_of_find?_eq_some hf) e (by simpa using List.find?_some hf)]

theorem types_same (h : cfg.Sealed ps ty rank) (h' : cfg'.Sealed ps' ty' rank') (hsub : ∀ p ∈ ps, p ∈ ps') {p : Wire K} (hp : p ∈ ps) {s : SigId} (hg : p.Gives s) : ty s = ty' s := by
  obtain ⟨k, t, hm⟩ := hg
  rw [(h.sane p hp).2.1 _ hm s t rfl, (h'.sane p (hsub p hp)).2.1 _ hm s t rfl]

/-- The state variables, by their types. -/
structure Sorted (ps : List (Wire K)) (ty : SigId → Ty) (V : Vars) : Prop where
  mem : ∀ s, s ∈ V.scalars ++ V.arrays ↔ ∃ p ∈ ps, p.obj.isState = true ∧ p.Gives s
  size : ∀ s, V.size s = (ty s).size
  scalars : ∀ s ∈ V.scalars, ty s = .scalar
  arrays : ∀ s ∈ V.arrays, ∃ n, ty s = .array n

theorem sorted_of (h : cfg.Sealed ps ty rank) (ho : cfg.Delays → OrderedArith K) {w : World K} (hw : w.New cfg ty) {tPrev t0 : K} {m0 : Machine K}
    (hinit : Call.exec cfg (.init t0) { w := w, s := { tPrev := tPrev } } = .ok () m0)
    (hV : ∀ s, s ∈ m0.vars.scalars ++ m0.vars.arrays ↔ ∃ p ∈ ps, p.obj.isState = true ∧ p.Gives s) (hz : ∀ s, m0.vars.size s = (ty s).size) : Sorted ps ty m0.vars := by
  have hp := C59.C59_complete cfg ps ty rank h
  obtain ⟨m0', g1, g2⟩ := C57.C57_init _ _ _ hp ho _ (.new w tPrev hw) rfl t0
  rw [hinit] at g1
  cases g1
  have hat : Attended cfg ty m0 := .call (.init t0) (.new w tPrev hw) rfl hinit
  have hf := (attended_cared hp ho hat).fit g2.init
  have ht : ∀ s, (m0.w.sig s).ty = ty s := hf.world.types
  refine ⟨hV, hz, fun s hs => ?_, fun s hs => ?_⟩
  · have hs : s ∈ m0.s.scalarStates := hs
    rw [hf.call.layout.scalarStates, (h.hash _).mem_iff] at hs
    unfold scalarStatesOf at hs
    rw [List.mem_filter, Bool.and_eq_true] at hs
    rw [← ht]
    exact of_decide_eq_true hs.2.1
  · have hs : s ∈ m0.s.arrayStates := hs
    rw [hf.call.layout.arrayStates, (h.hash _).mem_iff] at hs
    unfold arrayStatesOf at hs
    rw [List.mem_filter, Bool.and_eq_true] at hs
    rw [← ht]
    have := hs.2.1
    unfold Ty.isArray at this
    split at this
    · rename_i n e; exact ⟨n, e⟩
    · cases this

theorem size_same (h : cfg.Sealed ps ty rank) (hV : Sorted ps ty V) (s : SigId) (hs : s ∈ V.arrays) : (cfg.deriv s).elim 0 V.size = V.size s := by
  obtain ⟨p, hp, hst, hg⟩ := (hV.mem s).1 (List.mem_append.2 (.inr hs))
  obtain ⟨l, hl, e⟩ := state_leaf h hp hst hg
  obtain ⟨x, hx⟩ := Option.isSome_iff_exists.1 ((C58_states cfg ps h.assembled (C59.sealed_proper h)).2.1 l hl s e)
  rw [hx, Option.elim_some, hV.size, hV.size, (C58_deriv_types cfg ps h.assembled (C59.sealed_proper h) ty (fun p hp => ⟨(h.sane p hp).1, (h.sane p hp).2.1⟩) s x hx).2]

theorem sub_of (h : cfg.Sealed ps ty rank) (h' : cfg'.Sealed ps' ty' rank') (hsub : ∀ p ∈ ps, p ∈ ps') (hpl : ∀ p ∈ ps, p.obj.Plain)
    (hV : Sorted ps ty V) (hV' : Sorted ps' ty' V') : Sub V V' ∧ ∀ s ∈ V.scalars ++ V.arrays, cfg.deriv s = cfg'.deriv s := by
  have hlv := leaves_sub h h' hsub hpl
  have hty : ∀ s ∈ V.scalars ++ V.arrays, ty s = ty' s ∧ s ∈ V'.scalars ++ V'.arrays := by
    intro s hs
    obtain ⟨p, hp, hst, hg⟩ := (hV.mem s).1 hs
    exact ⟨types_same h h' hsub hp hg, (hV'.mem s).2 ⟨p, hsub p hp, hst, hg⟩⟩
  refine ⟨⟨fun s hs => ?_, fun s hs => ?_, fun s hs => ?_⟩, fun s hs => ?_⟩
  · obtain ⟨e, k⟩ := hty s (List.mem_append.2 (.inl hs))
    rcases List.mem_append.1 k with k | k
    · exact k
    · obtain ⟨n, e'⟩ := hV'.arrays s k
      rw [← e, hV.scalars s hs] at e'; cases e'
  · obtain ⟨e, k⟩ := hty s (List.mem_append.2 (.inr hs))
    rcases List.mem_append.1 k with k | k
    · obtain ⟨n, e'⟩ := hV.arrays s hs
      rw [e, hV'.scalars s k] at e'; cases e'
    · exact k
  · rw [hV.size, hV'.size, (hty s (List.mem_append.2 (.inr hs))).1]
  · obtain ⟨p, hp, hst, hg⟩ := (hV.mem s).1 hs
    obtain ⟨l, hl, e⟩ := state_leaf h hp hst hg
    have k := C58_states cfg ps h.assembled (C59.sealed_proper h)
    obtain ⟨x, hx⟩ := Option.isSome_iff_exists.1 (k.2.1 l hl s e)
    obtain ⟨l1, hl1, sl⟩ := k.1 s x hx
    rw [hx, (C58_states cfg' ps' h'.assembled (C59.sealed_proper h')).2.2 l1 (hlv l1 hl1) s x sl fun l' hl' e' => state_unique h' (hlv l1 hl1) hl' (C58.slope_state sl) e']

theorem holds_of (h : cfg.Sealed ps ty rank) (h' : cfg'.Sealed ps' ty' rank') (hsub : ∀ p ∈ ps, p ∈ ps') (hpl : ∀ p ∈ ps, p.obj.Plain)
    (hin : ∀ t, ∀ q ∈ cfg.inputVals t, q ∈ cfg'.inputVals t) (hV : Sorted ps ty V) (hV' : Sorted ps' ty' V') : Contains id (fun _ => True) cfg cfg' V V' := by
  have hlv := leaves_sub h h' hsub hpl
  have hss := sub_of h h' hsub hpl hV hV'
  have hsol : ∀ {mem : BlkId → Mem K} {t : K} {g : SigId × Nat → K} {val : SigId → Option (Val K)}, Solution cfg' V' mem t ((Within.slots V').map g) val →
      Solution cfg V mem t ((Within.slots V).map g) val := fun hs =>
    ⟨fun q hq => hs.input q (hin _ q hq), hss.1.packed (fun _ _ => rfl) (fun _ _ => rfl) (fun _ _ => rfl) hs.state, fun l hl => hs.block l (hlv l hl)⟩
  exact ⟨hss.1, hss.2, fun _ _ _ _ => trivial, size_same h hV, size_same h' hV', fun hs => ⟨_, fun _ _ => rfl, hsol hs⟩,
    fun hs => ⟨_, fun _ _ => rfl, hsol hs.solution, fun l hl => hs.stored l (hlv l hl)⟩⟩

/-- C72: two programs, the diagram of one being part of the diagram of the other - all blocks of the first are blocks of the second, with the same buses, and
the inputs have the same values -, both simulated with Euler's method or both with Rk4 through the same times.  Then the signals of the first have the same values
in both simulations, and the members of its blocks too, bit by bit in every arithmetic.  The simulators, the nesting and the order of the blocks, the order of the
signals in hash tables and the limits for the step size may differ. -/
theorem C72_observed (cfg cfg' : Config K) (ps ps' : List (Wire K)) (ty ty' : SigId → Ty) (rank rank' : BlkId → Nat) (h : cfg.Sealed ps ty rank) (h' : cfg'.Sealed ps' ty' rank')
    (hsub : ∀ p ∈ ps, p ∈ ps') (hpl : ∀ p ∈ ps', p.obj.Plain) (hin : ∀ t, ∀ q ∈ cfg.inputVals t, q ∈ cfg'.inputVals t)
    (hst : (∃ p ∈ ps, p.obj.isState = true) → cfg.stepper = cfg'.stepper) (he : ∀ st, cfg.stepper = some st ∨ cfg'.stepper = some st → st ∈ [euler, rk4])
    (ho : cfg'.Delays → OrderedArith K) (w w' : World K) (hw : w.New cfg ty) (hw' : w'.New cfg' ty') (hlog : w.log = []) (hlog' : w'.log = [])
    (hmem : ∀ p ∈ ps, w.mem p.id = w'.mem p.id) (tPrev tPrev' t0 minH maxH minH' maxH' : K) (h0 : (Arith.lit 0 <. minH) = true) (h1 : (minH <. maxH) = true)
    (h0' : (Arith.lit 0 <. minH') = true) (h1' : (minH' <. maxH') = true) :
    ∃ m0 m0', Call.exec cfg (.init t0) { w := w, s := { tPrev := tPrev } } = .ok () m0 ∧ Call.exec cfg' (.init t0) { w := w', s := { tPrev := tPrev' } } = .ok () m0' ∧
      ∀ ts : List K, (t0 :: ts).IsChain Later → (∃ m, RunsTo cfg minH maxH m0 ts m) ∧ (∃ m', RunsTo cfg' minH' maxH' m0' ts m') ∧
        ∀ m m', RunsTo cfg minH maxH m0 ts m → RunsTo cfg' minH' maxH' m0' ts m' → ∀ p ∈ ps,
          m.w.mem p.id = m'.w.mem p.id ∧ ∀ s, p.Takes s ∨ p.Gives s → m.w.shown s = m'.w.shown s := by
  have hlv := leaves_sub h h' hsub fun p hp => hpl p (hsub p hp)
  have ho1 : cfg.Delays → OrderedArith K := fun ⟨l, hl, e⟩ => ho ⟨l, hlv l hl, e⟩
  obtain ⟨m0, V, x0, a1, rfl, a3, a4, a5, a6, a7⟩ := C70.C70_single cfg ps ty rank h (fun p hp => hpl p (hsub p hp)) (fun st e => he st (.inl e)) ho1 w hw hlog tPrev t0 minH maxH h0 h1
  obtain ⟨m0', V', x0', b1, rfl, b3, b4, b5, b6, b7⟩ := C70.C70_single cfg' ps' ty' rank' h' hpl (fun st e => he st (.inr e)) ho w' hw' hlog' tPrev' t0 minH' maxH' h0' h1'
  have hV := sorted_of h ho1 hw a1 a3 a4
  have hV' := sorted_of h' ho hw' b1 b3 b4
  have hh := holds_of h h' hsub (fun p hp => hpl p (hsub p hp)) hin hV hV'
  refine ⟨m0, m0', a1, b1, fun ts hts => ⟨(a7 ts hts).1, (b7 ts hts).1, fun m m' r r' p hp => ?_⟩⟩
  have hmem' : ∀ l ∈ cfg.model.leaves, w.mem l.id = w'.mem l.id := fun l hl => by
    obtain ⟨p, hp, f⟩ := C59.leaf_wire h hl
    rw [f.id]
    exact hmem p hp
  have e1 := ((packed_iff fun _ _ => rfl).1 b5).2.2
  have hx : x0 = (Within.slots m0.vars).map (comp fun s => (cfg'.model.leaves.find? (fun l => decide (l.state = some s))).map (fun l => (w'.mem l.id).value)) := by
    refine packed_unique a5 (hh.sub.packed (fun _ _ => rfl) (fun _ _ => rfl) (fun _ _ => rfl) (e1 ▸ b5)) (fun s hs => ?_)
    obtain ⟨p, hp, hst, hg⟩ := (hV.mem s).1 hs
    obtain ⟨l, hl, e⟩ := state_leaf h hp hst hg
    rw [find_state h hl e, find_state h' (hlv l hl) e, Option.map_some, Option.map_some, hmem' l hl]
  rw [e1] at b6
  obtain ⟨v2, ev2, b8⟩ := hh.committed b6
  obtain rfl : v2 = _ := funext fun s => ev2 s trivial
  obtain ⟨c1, c2⟩ := committed_unique h a3 hmem' a6 (hx ▸ b8)
  obtain ⟨y, q⟩ := (a7 ts hts).2 m r
  obtain ⟨y', q'⟩ := (b7 ts hts).2 m' r'
  obtain ⟨f, v1, _, ev1, q''⟩ := hh.passes (by
    by_cases hs : ∃ p ∈ ps, p.obj.isState = true
    · exact .inl (hst hs)
    · refine .inr (List.eq_nil_iff_forall_not_mem.2 fun s k => hs ?_)
      obtain ⟨p, hp, e, _⟩ := (hV.mem s).1 k
      exact ⟨p, hp, e⟩) (fun st e => he st (.inr e)) q' e1 fun _ _ => rfl
  obtain rfl : v1 = _ := funext fun s => ev1 s trivial
  have hal := C69_unique cfg ps ty rank h m0.vars a3 (fun st e => he st (.inl e)) ⟨m0.w.mem, t0, x0, m0.w.shown⟩ ⟨m0'.w.mem, t0, _, m0'.w.shown⟩ _ _ ⟨rfl, hx, c1, c2⟩ ts q q''
  obtain ⟨l, hl, f⟩ := C59.wire_leaf h hp
  exact ⟨f.id ▸ hal.mem l hl, fun s hs => hal.vals s ⟨p, hp, hs⟩⟩

end

section
variable {F : Type} [_root_.Field F] [LinearOrder F] [IsStrictOrderedRing F] [Archimedean F]
attribute [local instance] Arith.exact

/-- C72, all methods: a diagram with integrators that is part of a larger one follows its own equations in the simulation of the larger one.  From its own
initial conditions it passes through the times of the calls of `run`, with steps of the method that follow each other and end at each of the times - those of the
larger diagram, which for `Rkf45` need not be the ones it would have alone. -/
theorem C72_embedded (cfg cfg' : Config F) (ps ps' : List (Wire F)) (ty : SigId → Ty) (rank rank' : BlkId → Nat) (h : cfg.Sealed ps ty rank) (h' : cfg'.Sealed ps' ty rank')
    (hsub : ∀ p ∈ ps, p ∈ ps') (hpl : ∀ p ∈ ps', p.obj.Plain) (hin : ∀ t, ∀ q ∈ cfg.inputVals t, q ∈ cfg'.inputVals t)
    (hex : ∃ p ∈ ps, p.obj.isState = true) (hst : cfg.stepper = cfg'.stepper) (he : ∀ st, cfg'.stepper = some st → st ∈ [euler, rk4, rkf45])
    (w : World F) (hw : w.New cfg ty) (hw' : w.New cfg' ty) (hlog : w.log = []) (tPrev t0 minH maxH : F) (h0 : 0 < minH) (h1 : minH < maxH) :
    ∃ (m0' : Machine F) (V : Vars) (x0 : List F), Call.exec cfg' (.init t0) { w := w, s := { tPrev := tPrev } } = .ok () m0' ∧
      (∀ s, s ∈ V.scalars ++ V.arrays ↔ ∃ p ∈ ps, p.obj.isState = true ∧ p.Gives s) ∧ (∀ s, V.size s = (ty s).size) ∧
      cfg.Stands V w.mem x0 ∧ Committed cfg V w.mem t0 x0 m0'.w.shown m0'.w.mem ∧
      ∀ ts : List F, (t0 :: ts).Pairwise (· < ·) → (∃ m', RunsTo cfg' minH maxH m0' ts m') ∧
        ∀ m', RunsTo cfg' minH maxH m0' ts m' → ∃ y, Passes cfg V ⟨m0'.w.mem, t0, x0, m0'.w.shown⟩ ts ⟨m'.w.mem, (t0 :: ts).getLast (by simp), y, m'.w.shown⟩ := by
  have hlv := leaves_sub h h' hsub fun p hp => hpl p (hsub p hp)
  have ho : ∀ c : Config F, c.Delays → OrderedArith F := fun _ _ => C57.ordered_exact
  obtain ⟨m0, V, x0, a1, rfl, a3, a4, a5, a6, a7⟩ := C69_passage cfg ps ty rank h (fun p hp => hpl p (hsub p hp)) (fun st e => he st (hst ▸ e)) w hw hlog tPrev t0 minH maxH h0 h1
  obtain ⟨m0', V', x0', b1, rfl, b3, b4, b5, b6, b7⟩ := C69_passage cfg' ps' ty rank' h' hpl he w hw' hlog tPrev t0 minH maxH h0 h1
  have hV := sorted_of h (ho _) hw a1 a3 a4
  have hV' := sorted_of h' (ho _) hw' b1 b3 b4
  have hh := holds_of h h' hsub (fun p hp => hpl p (hsub p hp)) hin hV hV'
  have e1 := ((packed_iff fun _ _ => rfl).1 b5).2.2
  have hx : x0 = (Within.slots m0.vars).map (comp fun s => (cfg'.model.leaves.find? (fun l => decide (l.state = some s))).map (fun l => (w.mem l.id).value)) := by
    refine packed_unique a5 (hh.sub.packed (fun _ _ => rfl) (fun _ _ => rfl) (fun _ _ => rfl) (e1 ▸ b5)) (fun s hs => ?_)
    obtain ⟨p, hp, hst, hg⟩ := (hV.mem s).1 hs
    obtain ⟨l, hl, e⟩ := state_leaf h hp hst hg
    rw [find_state h hl e, find_state h' (hlv l hl) e]
  rw [e1] at b6
  have hne : m0.vars.scalars ++ m0.vars.arrays ≠ [] := by
    obtain ⟨p, hp, e⟩ := hex
    obtain ⟨l, hl, f⟩ := C59.wire_leaf h hp
    obtain ⟨s, hs⟩ := f.owns e
    exact List.ne_nil_of_mem ((hV.mem s).2 ⟨p, hp, e, (f.state s hs).1⟩)
  obtain ⟨v2, ev2, b8⟩ := hh.committed b6
  obtain rfl : v2 = _ := funext fun s => ev2 s trivial
  refine ⟨m0', m0.vars, x0, b1, a3, a4, a5, hx ▸ b8, fun ts hts => ⟨(b7 ts hts).1, fun m' r' => ?_⟩⟩
  obtain ⟨y', q'⟩ := (b7 ts hts).2 m' r'
  obtain ⟨f, v1, _, ev1, q''⟩ := hh.follows hst hne he q' e1 fun _ _ => rfl
  obtain rfl : v1 = _ := funext fun s => ev1 s trivial
  exact ⟨_, hx ▸ q''⟩

end

/-! ## Examples, and the method with step size control -/

def small : Leaf ℚ := { id := 1, links := [(0, 11#32)], kind := .integrator 0 0 }
def large : Leaf ℚ := { id := 2, links := [(1, 11#32)], kind := .integrator 1 1 }

/-- The equation `x' = x` with `x = 1/1000` at the beginning; if `b`, the equation `y' = y` with `y = 1000` at the beginning in the same model. -/
def prog (stp : Stepper ℚ) (st : Strategy) (b : Bool) : Config ℚ where
  dbg := true
  model := if b then .sub 100 [] [.sub 101 [] [.leaf large], .leaf small] else .sub 100 [] [.leaf small]
  deriv s := if b = true ∧ s = 1 then some 1 else if s = 0 then some 0 else none
  inputs := none
  modelInput _ := ([], none)
  stepper := some stp
  strategy := st
  hash := id

def wires (b : Bool) : List (Wire ℚ) :=
  ⟨1, .integrator .double, [C58.sc "in" 0], [C58.sc "out" 0]⟩ :: if b then [⟨2, .integrator .double, [C58.sc "in" 1], [C58.sc "out" 1]⟩] else []

def world : World ℚ where
  sig _ := { ty := .scalar }
  mem b := if b = 1 then { value := .scalar (1/1000) } else { value := .scalar 1000 }
  done _ := false
  log := []

theorem leaves_eq (stp : Stepper ℚ) (st : Strategy) (b : Bool) : (prog stp st b).model.leaves = if b then [large, small] else [small] := by
  cases b <;> simp [prog, Block.leaves, leavesL]

theorem wire_eq (b : Bool) : ∀ p ∈ wires b, ∃ i, p = ⟨i + 1, .integrator .double, [C58.sc "in" i], [C58.sc "out" i]⟩ := by
  intro p hp
  cases b <;> simp only [wires, List.mem_cons, List.not_mem_nil, or_false, if_true, Bool.false_eq_true, if_false] at hp
  · exact ⟨0, hp⟩
  · rcases hp with rfl | rfl
    · exact ⟨0, rfl⟩
    · exact ⟨1, rfl⟩

theorem sealed (stp : Stepper ℚ) (hst : stp ∈ [euler, rk4, rkf45]) (st : Strategy) (b : Bool) : (prog stp st b).Sealed (wires b) (fun _ => .scalar) (fun b => b) := by
  have one : ∀ (a : String) (i j : SigId) t (k : Str), (k, Signal.val j t) ∈ [C58.sc a i] → j = i ∧ t = .scalar := by
    intro a i j t k hm
    rw [List.mem_singleton] at hm
    cases hm
    exact ⟨rfl, rfl⟩
  exact {
    dbg := rfl
    assembled := by
      refine ⟨if b then [small, large] else [small], ?_, ?_⟩
      · cases b
        · have : (prog stp st false).deriv = fun s => if s = 0 then some 0 else none := by funext s; simp [prog]
          rw [this]
          with_unfolding_all rfl
        · have : (prog stp st true).deriv = fun s => if s = 1 then some 1 else if s = 0 then some 0 else none := by funext s; simp [prog]
          rw [this]
          with_unfolding_all rfl
      · rw [leaves_eq]
        cases b
        · exact .refl _
        · exact .swap _ _ _
    proper := by
      unfold Block.Proper
      cases b
      · have : (prog stp st false).model.ids = [100, 1] := by simp [prog, small, Block.ids, Block.all, allL, Block.id]
        rw [this]; decide
      · have : (prog stp st true).model.ids = [100, 101, 2, 1] := by simp [prog, small, large, Block.ids, Block.all, allL, Block.id]
        rw [this]; decide
    hash := fun _ => .refl _
    sane := by
      intro p hp
      obtain ⟨i, rfl⟩ := wire_eq b p hp
      have ha : ∀ (a : String) (i : SigId), Agrees (fun _ => .scalar) [C58.sc a i] ∧ Sized 1 [C58.sc a i] := by
        intro a i
        refine ⟨fun q hq i t e => ?_, fun q hq i m e => ?_⟩ <;> (rw [List.mem_singleton] at hq; subst hq; cases e)
        rfl
      exact ⟨(ha _ _).1, (ha _ _).1, .inl ⟨1, Nat.one_pos, trivial, trivial, (ha _ _).2, (ha _ _).2⟩⟩
    once := by
      intro p hp q hq i h1 h2
      obtain ⟨a, rfl⟩ := wire_eq b p hp
      obtain ⟨c, rfl⟩ := wire_eq b q hq
      obtain ⟨_, _, h1⟩ := h1
      obtain ⟨_, _, h2⟩ := h2
      show a + 1 = c + 1
      rw [← (one _ _ _ _ _ h1).1, ← (one _ _ _ _ _ h2).1]
    provided := by
      intro p hp i hi
      obtain ⟨a, rfl⟩ := wire_eq b p hp
      obtain ⟨_, _, hi⟩ := hi
      obtain ⟨rfl, _⟩ := one _ _ _ _ _ hi
      exact .inr ⟨_, hp, str "out", .scalar, .head _⟩
    loops := by
      intro p hp i hn q hq hgi
      obtain ⟨a, rfl⟩ := wire_eq b p hp
      exact hn.elim
    inputs := fun f e => by cases e
    modelInput := ⟨fun t => ⟨fun p hp => (List.not_mem_nil hp).elim, fun e h => (by cases h)⟩, fun _ => rfl⟩
    inputOnce := fun t => List.nodup_nil
    inputFree := fun t s hs => (List.not_mem_nil hs).elim
    stepper := fun s e => by
      obtain rfl := Option.some_inj.1 e
      simp only [List.mem_cons, List.not_mem_nil, or_false] at hst
      rcases hst with rfl | rfl | rfl
      · exact C26.dim_provided.1
      · exact C26.dim_provided.2.1
      · exact C26.dim_provided.2.2
    stepped := fun _ => rfl
    reuse := fun _ => ⟨_, .head _, rfl⟩ }

theorem new (stp : Stepper ℚ) (st : Strategy) (b : Bool) : world.New (prog stp st b) (fun _ => .scalar) where
  fine := {
    types := fun _ => rfl
    cells := fun _ => ⟨fun e => (by cases e), fun v e => (by cases e)⟩
    members := by
      intro l hl
      rw [leaves_eq] at hl
      have : l = small ∨ l = large := by
        cases b <;> simp only [List.mem_cons, List.not_mem_nil, or_false, if_true, Bool.false_eq_true, if_false] at hl
        · exact .inl hl
        · exact hl.symm
      rcases this with rfl | rfl <;> exact ⟨rfl, fun _ => rfl⟩ }
  done := fun _ => rfl
  record := fun _ _ _ => by unfold world; simp only; split <;> rfl

/-- The machine after `init(0)` and `run(1, 1/4, 10)`. -/
def after (stp : Stepper ℚ) (st : Strategy) (b : Bool) : Machine ℚ :=
  stateOf (Call.exec (prog stp st b) (.run 10 1 (1/4) 10) (stateOf (Call.exec (prog stp st b) (.init 0) { w := world, s := { tPrev := 0 } })))

attribute [local instance] Arith.before in
/-- All hypotheses of `C72_observed` hold for the two programs with Euler's method and any two simulators; `x` is 1/500 at 1 in both. -/
example (st st' : Strategy) : (prog euler st false).Sealed (wires false) (fun _ => .scalar) (fun b => b) ∧ (prog euler st' true).Sealed (wires true) (fun _ => .scalar) (fun b => b) ∧
    (∀ p ∈ wires false, p ∈ wires true) ∧ (∀ p ∈ wires true, p.obj.Plain) ∧ (∀ t, ∀ q ∈ (prog euler st false).inputVals t, q ∈ (prog euler st' true).inputVals t) ∧
    (prog euler st false).stepper = (prog euler st' true).stepper ∧ world.New (prog euler st false) (fun _ => .scalar) ∧ world.New (prog euler st' true) (fun _ => .scalar) ∧ world.log = [] ∧
    [(0 : ℚ), 1].IsChain Later ∧ (after euler st false).w.shown 0 = some (.scalar (1/500)) ∧ (after euler st' true).w.shown 0 = some (.scalar (1/500)) :=
  ⟨sealed _ (by simp) _ _, sealed _ (by simp) _ _, fun p hp => by simp [wires] at hp ⊢; exact .inl hp, fun p hp => by obtain ⟨i, rfl⟩ := wire_eq _ p hp; trivial,
    fun t q hq => hq, rfl, new _ _ _, new _ _ _, rfl, by simp; constructor <;> decide +kernel,
    by cases st <;> decide +kernel, by cases st' <;> decide +kernel⟩

/-- C72 is false of `Rkf45`: the error estimate is the largest one of all integrators, so an equation that has nothing to do with `x` changes the step sizes, and with
them the computed values of `x`: 0.0027179... without it, 0.0027182... with it. -/
theorem C72_rkf45_refuted : ∃ (cfg cfg' : Config ℚ) (ps ps' : List (Wire ℚ)) (ty : SigId → Ty) (rank : BlkId → Nat) (w : World ℚ) (m0 m m0' m' : Machine ℚ),
    cfg.Sealed ps ty rank ∧ cfg'.Sealed ps' ty rank ∧ (∀ p ∈ ps, p ∈ ps') ∧ (∀ p ∈ ps', p.obj.Plain) ∧ (∀ t, cfg.inputVals t = cfg'.inputVals t) ∧
      cfg.stepper = some rkf45 ∧ cfg'.stepper = some rkf45 ∧ cfg.strategy = cfg'.strategy ∧ w.New cfg ty ∧ w.New cfg' ty ∧ w.log = [] ∧
      Call.exec cfg (.init 0) { w := w, s := { tPrev := 0 } } = .ok () m0 ∧ RunsTo cfg (1/4) 10 m0 [1] m ∧
      Call.exec cfg' (.init 0) { w := w, s := { tPrev := 0 } } = .ok () m0' ∧ RunsTo cfg' (1/4) 10 m0' [1] m' ∧
      ∃ p ∈ ps, ∃ s, p.Gives s ∧ m.w.shown s ≠ m'.w.shown s := by
  refine ⟨prog rkf45 .plain false, prog rkf45 .plain true, wires false, wires true, _, _, world, _, _, _, _, sealed _ (by simp) _ _, sealed _ (by simp) _ _, fun p hp => by simp [wires] at hp ⊢; exact .inl hp,
    fun p hp => by obtain ⟨i, rfl⟩ := wire_eq _ p hp; trivial, fun t => rfl, rfl, rfl, rfl, new _ _ _, new _ _ _, rfl,
    eq_of_returns (by decide +kernel), .cons 10 (eq_of_returns (by decide +kernel)) .nil, eq_of_returns (by decide +kernel), .cons 10 (eq_of_returns (by decide +kernel)) .nil,
    _, .head _, 0, ⟨str "out", .scalar, .head _⟩, by decide +kernel⟩

end Pooya.C72
