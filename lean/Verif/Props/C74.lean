import Verif.Props.C72

/-! # C74: blocks may be exchanged for others with the same equations -/

namespace Pooya.C74

open Pooya C69 Within

set_option linter.unusedSectionVars false

section
variable {K : Type} [Arith K]

/-- The inputs have the values the user gives them at time `t`, and the equations of all blocks hold. -/
structure Fulfils (cfg : Config K) (mem : BlkId → Mem K) (t : K) (val : SigId → Option (Val K)) : Prop where
  input : ∀ q ∈ cfg.inputVals t, val q.1 = some q.2
  block : ∀ l ∈ cfg.model.leaves, l.Solved t (mem l.id) val

/-- The signal is on a bus of a block that both lists contain. -/
def Shared (ps ps' : List (Wire K)) (s : SigId) : Prop := ∃ p ∈ ps, p ∈ ps' ∧ (p.Takes s ∨ p.Gives s)

/-- Whenever the equations of the second diagram hold, those of the first can be made to hold without changing signals of common blocks. -/
def Follows (cfg cfg' : Config K) (ps ps' : List (Wire K)) : Prop :=
  ∀ (mem : BlkId → Mem K) (t : K) (val : SigId → Option (Val K)), Fulfils cfg' mem t val → ∃ val2, (∀ s, Shared ps ps' s → val2 s = val s) ∧ Fulfils cfg mem t val2

attribute [local instance] Arith.before

variable {cfg cfg' : Config K} {ps ps' : List (Wire K)} {ty ty' : SigId → Ty} {rank rank' : BlkId → Nat} {V V' : Vars}

/-- The block is in both diagrams. -/
def Common (ps ps' : List (Wire K)) (i : BlkId) : Prop := ∃ p ∈ ps, p ∈ ps' ∧ p.id = i

theorem leaf_common (h : cfg.Sealed ps ty rank) (h' : cfg'.Sealed ps' ty' rank') (hpl : ∀ p ∈ ps, p.obj.Plain) {l : Leaf K} (hl : l ∈ cfg.model.leaves) (hc : Common ps ps' l.id) :
    l ∈ cfg'.model.leaves ∧ ∃ p ∈ ps, p ∈ ps' ∧ Fitted ty p l := by
  obtain ⟨p, hp, hp', e⟩ := hc
  obtain ⟨ls, h1, h2⟩ := h.assembled
  rw [h.dbg] at h1
  obtain ⟨k, hk, d1, d2, e1⟩ := C59.all_conv h1 p hp
  have hf : Fitted ty p k := wire_fitted (h.sane p hp) e1
  obtain rfl : k = l := C59.eq_of_leafId h.proper.leafNodup (h2.mem_iff.2 hk) hl (hf.id.trans e)
  obtain ⟨ls', h1', h2'⟩ := h'.assembled
  rw [h'.dbg] at h1'
  obtain ⟨l', hl', d1', d2', e'⟩ := C59.all_conv h1' p hp'
  rw [connect_same (hpl p hp) e1 e']
  exact ⟨h2'.mem_iff.2 hl', p, hp, hp', connect_same (hpl p hp) e1 e' ▸ hf⟩

/-- What may be exchanged: blocks without memory. -/
def Swaps (ps ps' : List (Wire K)) : Prop := ∀ p ∈ ps, p ∈ ps' ∨ (p.obj.Memoryless ∧ p.obj.isState = false)

theorem leaf_swap (h : cfg.Sealed ps ty rank) (hsw : Swaps ps ps') {l : Leaf K} (hl : l ∈ cfg.model.leaves) (hc : ¬ Common ps ps' l.id) : l.Algebraic ∧ l.Calm ∧ l.state = none := by
  obtain ⟨ls, h1, h2⟩ := h.assembled
  rw [h.dbg] at h1
  obtain ⟨p, hp, d1, d2, e⟩ := C58.all_mem h1 l (h2.mem_iff.1 hl)
  have hf : Fitted ty p l := wire_fitted (h.sane p hp) e
  obtain ⟨hme, hst⟩ := (hsw p hp).resolve_left fun hp' => hc ⟨p, hp, hp', hf.id.symm⟩
  obtain ⟨b, s, _, hk, _⟩ := C58.inv (fun a b c e f he => by rw [he] at hme; exact hme) e
  obtain ⟨k1, k2⟩ := C60.kind_memoryless hme hk
  refine ⟨k1, k2, ?_⟩
  cases e : l.state with
  | none => rfl
  | some s => rw [(hf.state s e).2] at hst; cases hst

theorem stored_congr {l : Leaf K} {t : K} {μ μ' : Mem K} (hc : ∀ c, l.kind ≠ .custom c) {v1 v2 : SigId → Option (Val K)} (hv : ∀ s ∈ l.postReads, v1 s = v2 s) (h : l.Stored t v1 μ μ') :
    l.Stored t v2 μ μ' := by
  unfold Leaf.Stored at h ⊢
  unfold Leaf.postReads at hv
  cases hk : l.kind <;> rw [hk] at h hv <;> first
    | exact h
    | (rename_i c; exact (hc c hk).elim)
    | (simp only [Kind.postReads, List.mem_singleton, forall_eq] at hv; simpa only [hv] using h)

theorem stored_swap {l : Leaf K} {t : K} {μ : Mem K} (ha : l.Algebraic) (hc : l.Calm) (hs : l.state = none) (v : SigId → Option (Val K)) : l.Stored t v μ μ := by
  unfold Leaf.Algebraic at ha
  unfold Leaf.Calm at hc
  unfold Leaf.state at hs
  unfold Leaf.Stored
  cases hk : l.kind <;> rw [hk] at ha hc hs <;> first | rfl | exact ha.elim | exact hc.elim | cases hs

open Classical in
/-- The members of the common blocks from `mem`, the others from `base`. -/
noncomputable def mix (ps ps' : List (Wire K)) (base mem : BlkId → Mem K) (i : BlkId) : Mem K := if Common ps ps' i then mem i else base i

theorem exchange (h : cfg.Sealed ps ty rank) (h' : cfg'.Sealed ps' ty' rank') (hsw : Swaps ps ps') (hpl : ∀ p ∈ ps, p.obj.Plain)
    (hex : Follows cfg cfg' ps ps') (hV : C72.Sorted ps ty V) (hV' : C72.Sorted ps' ty' V') (base : BlkId → Mem K) : Contains (mix ps ps' base) (Shared ps ps') cfg cfg' V V' := by
  have hkeep : ∀ p ∈ ps, p.obj.isState = true → p ∈ ps' := fun p hp e => (hsw p hp).resolve_right fun q => by rw [q.2] at e; cases e
  have hty : ∀ s ∈ V.scalars ++ V.arrays, ty s = ty' s ∧ s ∈ V'.scalars ++ V'.arrays := by
    intro s hs
    obtain ⟨p, hp, hst, hg⟩ := (hV.mem s).1 hs
    have hp' := hkeep p hp hst
    refine ⟨?_, (hV'.mem s).2 ⟨p, hp', hst, hg⟩⟩
    obtain ⟨k, t, hm⟩ := hg
    rw [(h.sane p hp).2.1 _ hm s t rfl, (h'.sane p hp').2.1 _ hm s t rfl]
  have hsub : Sub V V' := by
    refine ⟨fun s hs => ?_, fun s hs => ?_, fun s hs => ?_⟩
    · obtain ⟨e, k⟩ := hty s (List.mem_append.2 (.inl hs))
      rcases List.mem_append.1 k with k | k
      · exact k
      · obtain ⟨n, e'⟩ := hV'.arrays s k
        rw [← e, hV.scalars s hs] at e'; cases e'
    · obtain ⟨e, k⟩ := hty s (List.mem_append.2 (.inr hs))
      rcases List.mem_append.1 k with k | k
      · obtain ⟨n, e'⟩ := hV.arrays s hs
        rw [e, hV'.scalars s k] at e'; cases e'
      · exact k
    · rw [hV.size, hV'.size, (hty s (List.mem_append.2 (.inr hs))).1]
  have hsh : ∀ s ∈ V.scalars ++ V.arrays, Shared ps ps' s := fun s hs => by
    obtain ⟨p, hp, hst, hg⟩ := (hV.mem s).1 hs
    exact ⟨p, hp, hkeep p hp hst, .inr hg⟩
  have hslope : ∀ s ∈ V.scalars ++ V.arrays, ∀ d, cfg.deriv s = some d → ∃ l ∈ cfg.model.leaves, l ∈ cfg'.model.leaves ∧ l.Slope s d ∧ Shared ps ps' d := by
    intro s hs d hd
    obtain ⟨l, hl, sl⟩ := (C58_states cfg ps h.assembled (C59.sealed_proper h)).1 s d hd
    obtain ⟨p, hp, f⟩ := C59.leaf_wire h hl
    have hst := (f.state s (C58.slope_state sl)).2
    have hp' := hkeep p hp hst
    exact ⟨l, hl, (leaf_common h h' hpl hl ⟨p, hp, hp', f.id.symm⟩).1, sl, p, hp, hp', .inl (f.slope s d sl)⟩
  have hfull : ∀ {mem : BlkId → Mem K} {t : K} {g : SigId × Nat → K} {val : SigId → Option (Val K)}, Solution cfg' V' mem t ((Within.slots V').map g) val →
      ∃ val2, (∀ s, Shared ps ps' s → val2 s = val s) ∧ Solution cfg V (mix ps ps' base mem) t ((Within.slots V).map g) val2 := by
    intro mem t g val hs
    obtain ⟨val2, e, hf⟩ := hex mem t val ⟨hs.input, (hs.unique (explicit_sealed h' hV'.mem) (C59.C59_complete cfg' ps' ty' rank' h').complete hs).1⟩
    refine ⟨val2, e, hf.input, hsub.packed (fun _ _ => rfl) (fun _ _ => rfl) (fun s k => e s (hsh s k)) hs.state, fun l hl _ => ?_⟩
    have := hf.block l hl
    unfold mix
    split
    · exact this
    · rename_i hc; exact Solved.algebraic (leaf_swap h hsw hl hc).1 this
  refine ⟨hsub, fun s hs => ?_, fun s hs d hd => ?_, C72.size_same h hV, C72.size_same h' hV', hfull, fun {mem mem' t g val} hs => ?_⟩
  · obtain ⟨p, hp, hst, hg⟩ := (hV.mem s).1 hs
    obtain ⟨l, hl, e⟩ := C72.state_leaf h hp hst hg
    obtain ⟨x, hx⟩ := Option.isSome_iff_exists.1 ((C58_states cfg ps h.assembled (C59.sealed_proper h)).2.1 l hl s e)
    obtain ⟨l1, hl1, hl1', sl, _⟩ := hslope s hs x hx
    rw [hx, (C58_states cfg' ps' h'.assembled (C59.sealed_proper h')).2.2 l1 hl1' s x sl fun l' hl' e' => C72.state_unique h' hl1' hl' (C58.slope_state sl) e']
  · obtain ⟨_, _, _, _, k⟩ := hslope s hs d hd
    exact k
  · obtain ⟨val2, e, hf⟩ := hfull hs.solution
    refine ⟨val2, e, hf, fun l hl => ?_⟩
    by_cases hc : Common ps ps' l.id
    · obtain ⟨hl', p, hp, hp', f⟩ := leaf_common h h' hpl hl hc
      unfold mix
      rw [if_pos hc, if_pos hc]
      refine stored_congr f.code (fun s k => (e s ?_).symm) (hs.stored l hl')
      rcases f.post s k with k | k
      · exact ⟨p, hp, hp', .inl k⟩
      · exact ⟨p, hp, hp', .inr (f.state s k).1⟩
    · obtain ⟨k1, k2, k3⟩ := leaf_swap h hsw hl hc
      unfold mix
      rw [if_neg hc, if_neg hc]
      exact stored_swap k1 k2 k3 _

/-- C74: two programs whose diagrams have blocks in common, the other blocks of the first having neither memory nor state; and whenever the equations of the
second diagram hold, those of the first can be made to hold without changing the signals of common blocks.  Both are simulated with Euler's method or both with
Rk4 through the same times.  Then the signals of the common blocks have the same values in both simulations, and the members of these blocks too, bit by bit in
every arithmetic.  The second diagram may contain further blocks of all kinds. -/
theorem C74_exchange (cfg cfg' : Config K) (ps ps' : List (Wire K)) (ty ty' : SigId → Ty) (rank rank' : BlkId → Nat) (h : cfg.Sealed ps ty rank) (h' : cfg'.Sealed ps' ty' rank')
    (hsw : ∀ p ∈ ps, p ∈ ps' ∨ (p.obj.Memoryless ∧ p.obj.isState = false)) (hpl : ∀ p ∈ ps, p.obj.Plain) (hpl' : ∀ p ∈ ps', p.obj.Plain) (hex : Follows cfg cfg' ps ps')
    (hst : (∃ p ∈ ps, p.obj.isState = true) → cfg.stepper = cfg'.stepper) (he : ∀ st, cfg.stepper = some st ∨ cfg'.stepper = some st → st ∈ [euler, rk4])
    (ho : cfg'.Delays → OrderedArith K) (w w' : World K) (hw : w.New cfg ty) (hw' : w'.New cfg' ty') (hlog : w.log = []) (hlog' : w'.log = [])
    (hmem : ∀ p ∈ ps, p ∈ ps' → w.mem p.id = w'.mem p.id) (tPrev tPrev' t0 minH maxH minH' maxH' : K) (h0 : (Arith.lit 0 <. minH) = true) (h1 : (minH <. maxH) = true)
    (h0' : (Arith.lit 0 <. minH') = true) (h1' : (minH' <. maxH') = true) :
    ∃ m0 m0', Call.exec cfg (.init t0) { w := w, s := { tPrev := tPrev } } = .ok () m0 ∧ Call.exec cfg' (.init t0) { w := w', s := { tPrev := tPrev' } } = .ok () m0' ∧
      ∀ ts : List K, (t0 :: ts).IsChain Later → (∃ m, RunsTo cfg minH maxH m0 ts m) ∧ (∃ m', RunsTo cfg' minH' maxH' m0' ts m') ∧
        ∀ m m', RunsTo cfg minH maxH m0 ts m → RunsTo cfg' minH' maxH' m0' ts m' → ∀ p ∈ ps, p ∈ ps' →
          m.w.mem p.id = m'.w.mem p.id ∧ ∀ s, p.Takes s ∨ p.Gives s → m.w.shown s = m'.w.shown s := by
  have ho1 : cfg.Delays → OrderedArith K := fun ⟨l, hl, e⟩ => by
    by_cases hc : Common ps ps' l.id
    · exact ho ⟨l, (leaf_common h h' hpl hl hc).1, e⟩
    · have ha := (leaf_swap h hsw hl hc).1
      unfold Leaf.Algebraic at ha
      unfold Leaf.isDelay at e
      cases hk : l.kind <;> rw [hk] at ha e <;> first | exact ha.elim | cases e
  obtain ⟨m0, V, x0, a1, rfl, a3, a4, a5, a6, a7⟩ := C70.C70_single cfg ps ty rank h hpl (fun st e => he st (.inl e)) ho1 w hw hlog tPrev t0 minH maxH h0 h1
  obtain ⟨m0', V', x0', b1, rfl, b3, b4, b5, b6, b7⟩ := C70.C70_single cfg' ps' ty' rank' h' hpl' (fun st e => he st (.inr e)) ho w' hw' hlog' tPrev' t0 minH' maxH' h0' h1'
  have hV := C72.sorted_of h ho1 hw a1 a3 a4
  have hV' := C72.sorted_of h' ho hw' b1 b3 b4
  have hh := exchange h h' hsw hpl hex hV hV' w.mem
  refine ⟨m0, m0', a1, b1, fun ts hts => ⟨(a7 ts hts).1, (b7 ts hts).1, fun m m' r r' p hp hp' => ?_⟩⟩
  have hmem' : ∀ l ∈ cfg.model.leaves, w.mem l.id = mix ps ps' w.mem w'.mem l.id := fun l hl => by
    unfold mix
    split
    · rename_i hc
      obtain ⟨p, hp, hp', e⟩ := hc
      rw [← e]
      exact hmem p hp hp'
    · rfl
  have e1 := ((packed_iff fun _ _ => rfl).1 b5).2.2
  have hx : x0 = (Within.slots m0.vars).map (comp fun s => (cfg'.model.leaves.find? (fun l => decide (l.state = some s))).map (fun l => (w'.mem l.id).value)) := by
    refine packed_unique a5 (hh.sub.packed (fun _ _ => rfl) (fun _ _ => rfl) (fun _ _ => rfl) (e1 ▸ b5)) (fun s hs => ?_)
    obtain ⟨p, hp, hst, hg⟩ := (hV.mem s).1 hs
    obtain ⟨l, hl, e⟩ := C72.state_leaf h hp hst hg
    have hp' : p ∈ ps' := (hsw p hp).resolve_right fun q => by rw [q.2] at hst; cases hst
    have hid : l.id = p.id := by
      obtain ⟨p1, hp1, f1⟩ := C59.leaf_wire h hl
      rw [f1.id]
      exact h.once p1 hp1 p hp s (f1.state s e).1 hg
    rw [C72.find_state h hl e, C72.find_state h' (leaf_common h h' hpl hl ⟨p, hp, hp', hid.symm⟩).1 e, Option.map_some, Option.map_some, hid, hmem p hp hp']
  rw [e1] at b6
  obtain ⟨v2, ev2, b8⟩ := hh.committed b6
  obtain ⟨c1, c2⟩ := committed_unique h a3 hmem' a6 (hx ▸ b8)
  obtain ⟨y, q⟩ := (a7 ts hts).2 m r
  obtain ⟨y', q'⟩ := (b7 ts hts).2 m' r'
  obtain ⟨f, v1, _, ev1, q''⟩ := hh.passes (by
    by_cases hs : ∃ p ∈ ps, p.obj.isState = true
    · exact .inl (hst hs)
    · refine .inr (List.eq_nil_iff_forall_not_mem.2 fun s k => hs ?_)
      obtain ⟨p, hp, e, _⟩ := (hV.mem s).1 k
      exact ⟨p, hp, e⟩) (fun st e => he st (.inr e)) q' e1 ev2
  have hal := C69_unique cfg ps ty rank h m0.vars a3 (fun st e => he st (.inl e)) ⟨m0.w.mem, t0, x0, m0.w.shown⟩ ⟨mix ps ps' w.mem m0'.w.mem, t0, _, v2⟩ _ _ ⟨rfl, hx, c1, c2⟩ ts q q''
  obtain ⟨l, hl, f⟩ := C59.wire_leaf h hp
  have hm := hal.mem l hl
  simp only [mix] at hm
  rw [if_pos (show Common ps ps' l.id from ⟨p, hp, hp', f.id.symm⟩), f.id] at hm
  exact ⟨hm, fun s hs => (hal.vals s ⟨p, hp, hs⟩).trans (ev1 s ⟨p, hp, hp', hs⟩)⟩

end

/-! ## Example: a gain of 2 followed by a gain of 3, and a gain of 6 -/

def integ : Leaf ℚ := { id := 1, links := [(1, Demo.inp), (0, Demo.st)], kind := .integrator 1 0 }
def two : Leaf ℚ := { id := 2, links := [(0, Demo.rq), (2, Demo.ot)], kind := .gain (.scalar 2) 0 2 }
def three : Leaf ℚ := { id := 3, links := [(2, Demo.rq), (1, Demo.ot)], kind := .gain (.scalar 3) 2 1 }
def six : Leaf ℚ := { id := 2, links := [(0, Demo.rq), (1, Demo.ot)], kind := .gain (.scalar 6) 0 1 }

/-- The equation `x' = 6 x`; if `b`, with two gains. -/
def prog (st : Strategy) (b : Bool) : Config ℚ where
  dbg := true
  model := if b then .sub 100 [] [.sub 101 [] [.leaf three, .leaf two], .leaf integ] else .sub 100 [] [.leaf integ, .leaf six]
  deriv s := if s = 0 then some 1 else none
  inputs := none
  modelInput _ := ([], none)
  stepper := some rk4
  strategy := st
  hash := id

def wires (b : Bool) : List (Wire ℚ) :=
  ⟨1, .integrator .double, [C58.sc "in" 1], [C58.sc "out" 0]⟩ ::
    if b then [⟨2, .gain .double (.scalar 2), [C58.sc "in" 0], [C58.sc "out" 2]⟩, ⟨3, .gain .double (.scalar 3), [C58.sc "in" 2], [C58.sc "out" 1]⟩]
    else [⟨2, .gain .double (.scalar 6), [C58.sc "in" 0], [C58.sc "out" 1]⟩]

def world : World ℚ where
  sig _ := { ty := .scalar }
  mem _ := { value := .scalar 1 }
  done _ := false
  log := []

theorem leaves_eq (st : Strategy) (b : Bool) : (prog st b).model.leaves = if b then [three, two, integ] else [integ, six] := by
  cases b <;> simp [prog, Block.leaves, leavesL]

def gives (b : Bool) : List (Nat × Nat) := if b then [(1, 0), (2, 2), (3, 1)] else [(1, 0), (2, 1)]
def takes (b : Bool) : List (Nat × Nat) := if b then [(1, 1), (2, 0), (3, 2)] else [(1, 1), (2, 0)]

theorem wires_mem (b : Bool) : ∀ p ∈ wires b, (∀ i, p.Gives i → (p.id, i) ∈ gives b) ∧ (∀ i, p.Takes i → (p.id, i) ∈ takes b) ∧ (p.obj.isState = true ↔ p.id = 1) ∧
    (p.obj.isState = true → ∀ i, ¬ p.Needs i) ∧ (∀ i, p.Needs i → p.Takes i) := by
  intro p hp
  have hn : ∀ i j k (n : Nat) (x : ℚ), Wire.Needs (⟨n, .gain .double (.scalar x), [C58.sc "in" i], [C58.sc "out" j]⟩ : Wire ℚ) k →
      Wire.Takes (⟨n, .gain .double (.scalar x), [C58.sc "in" i], [C58.sc "out" j]⟩ : Wire ℚ) k := fun _ _ _ _ _ h => h
  cases b <;> simp only [wires, Bool.false_eq_true, if_false, if_true, List.mem_cons, List.not_mem_nil, or_false] at hp
  · rcases hp with rfl | rfl
    · refine ⟨?_, ?_, by decide, fun _ i h => h, fun i h => h.elim⟩ <;>
        (rintro i ⟨k, t, hi⟩; simp only [C58.sc, List.mem_cons, List.not_mem_nil, or_false] at hi; cases hi; decide)
    · refine ⟨?_, ?_, by decide, ?_, fun i h => h⟩ <;> first | (intro e; cases e; done) |
        (rintro i ⟨k, t, hi⟩; simp only [C58.sc, List.mem_cons, List.not_mem_nil, or_false] at hi; cases hi; decide)
  · rcases hp with rfl | rfl | rfl
    · refine ⟨?_, ?_, by decide, fun _ i h => h, fun i h => h.elim⟩ <;>
        (rintro i ⟨k, t, hi⟩; simp only [C58.sc, List.mem_cons, List.not_mem_nil, or_false] at hi; cases hi; decide)
    · refine ⟨?_, ?_, by decide, ?_, fun i h => h⟩ <;> first | (intro e; cases e; done) |
        (rintro i ⟨k, t, hi⟩; simp only [C58.sc, List.mem_cons, List.not_mem_nil, or_false] at hi; cases hi; decide)
    · refine ⟨?_, ?_, by decide, ?_, fun i h => h⟩ <;> first | (intro e; cases e; done) |
        (rintro i ⟨k, t, hi⟩; simp only [C58.sc, List.mem_cons, List.not_mem_nil, or_false] at hi; cases hi; decide)

theorem giver (b : Bool) : ∀ q ∈ takes b, ∃ p ∈ wires b, p.Gives q.2 := by
  intro q hq
  cases b <;> simp only [takes, Bool.false_eq_true, if_false, if_true, List.mem_cons, List.not_mem_nil, or_false] at hq
  · rcases hq with rfl | rfl
    · exact ⟨_, .tail _ (.head _), str "out", .scalar, .head _⟩
    · exact ⟨_, .head _, str "out", .scalar, .head _⟩
  · rcases hq with rfl | rfl | rfl
    · exact ⟨_, .tail _ (.tail _ (.head _)), str "out", .scalar, .head _⟩
    · exact ⟨_, .head _, str "out", .scalar, .head _⟩
    · exact ⟨_, .tail _ (.head _), str "out", .scalar, .head _⟩

theorem sealed (st : Strategy) (b : Bool) : (prog st b).Sealed (wires b) (fun _ => .scalar) (fun b => b) := by
  have hs : ∀ a i, Agrees (fun _ => .scalar) [C58.sc a i] ∧ Sized 1 [C58.sc a i] := by
    intro a i
    refine ⟨fun q hq j t e => ?_, fun q hq j m e => ?_⟩ <;> (rw [List.mem_singleton] at hq; subst hq; cases e)
    rfl
  exact {
    dbg := rfl
    assembled := by
      refine ⟨if b then [integ, two, three] else [integ, six], by cases b <;> with_unfolding_all rfl, ?_⟩
      rw [leaves_eq]
      cases b
      · exact .refl _
      · exact (List.reverse_perm [integ, two, three])
    proper := by
      unfold Block.Proper
      cases b
      · have : (prog st false).model.ids = [100, 1, 2] := by simp [prog, integ, six, Block.ids, Block.all, allL, Block.id]
        rw [this]; decide
      · have : (prog st true).model.ids = [100, 101, 3, 2, 1] := by simp [prog, integ, two, three, Block.ids, Block.all, allL, Block.id]
        rw [this]; decide
    hash := fun _ => .refl _
    sane := by
      intro p hp
      cases b <;> simp only [wires, Bool.false_eq_true, if_false, if_true, List.mem_cons, List.not_mem_nil, or_false] at hp
      · rcases hp with rfl | rfl
        · exact ⟨(hs _ _).1, (hs _ _).1, .inl ⟨1, Nat.one_pos, trivial, trivial, (hs _ _).2, (hs _ _).2⟩⟩
        · exact ⟨(hs _ _).1, (hs _ _).1, .inl ⟨1, Nat.one_pos, .inl ⟨trivial, _, rfl⟩, trivial, (hs _ _).2, (hs _ _).2⟩⟩
      · rcases hp with rfl | rfl | rfl
        · exact ⟨(hs _ _).1, (hs _ _).1, .inl ⟨1, Nat.one_pos, trivial, trivial, (hs _ _).2, (hs _ _).2⟩⟩
        · exact ⟨(hs _ _).1, (hs _ _).1, .inl ⟨1, Nat.one_pos, .inl ⟨trivial, _, rfl⟩, trivial, (hs _ _).2, (hs _ _).2⟩⟩
        · exact ⟨(hs _ _).1, (hs _ _).1, .inl ⟨1, Nat.one_pos, .inl ⟨trivial, _, rfl⟩, trivial, (hs _ _).2, (hs _ _).2⟩⟩
    once := by
      intro p hp q hq i h1 h2
      have key : ∀ a ∈ gives b, ∀ c ∈ gives b, a.2 = c.2 → a.1 = c.1 := by cases b <;> decide
      exact key _ ((wires_mem b p hp).1 i h1) _ ((wires_mem b q hq).1 i h2) rfl
    provided := fun p hp i hi => .inr (giver b _ ((wires_mem b p hp).2.1 i hi))
    loops := by
      intro p hp i hn q hq hg
      have key : ∀ a ∈ takes b, ∀ c ∈ gives b, a.2 = c.2 → a.1 ≠ 1 → c.1 = 1 ∨ c.1 < a.1 := by cases b <;> decide
      obtain ⟨_, k2, k3, k4, k5⟩ := wires_mem b p hp
      obtain ⟨g1, _, g3, _⟩ := wires_mem b q hq
      rcases key _ (k2 i (k5 i hn)) _ (g1 i hg) rfl (fun e => k4 (k3.2 e) i hn) with h | h
      · exact .inl (g3.2 h)
      · exact .inr h
    inputs := fun f e => by cases e
    modelInput := ⟨fun t => ⟨fun p hp => (List.not_mem_nil hp).elim, fun e h => (by cases h)⟩, fun _ => rfl⟩
    inputOnce := fun t => List.nodup_nil
    inputFree := fun t s hs => (List.not_mem_nil hs).elim
    stepper := fun s e => by
      obtain rfl := Option.some_inj.1 e
      exact C26.dim_provided.2.1
    stepped := fun _ => rfl
    reuse := fun _ => ⟨_, .head _, rfl⟩ }

theorem new (st : Strategy) (b : Bool) : world.New (prog st b) (fun _ => .scalar) where
  fine := {
    types := fun _ => rfl
    cells := fun _ => ⟨fun e => (by cases e), fun v e => (by cases e)⟩
    members := by
      intro l hl
      rw [leaves_eq] at hl
      cases b <;> simp only [Bool.false_eq_true, if_false, if_true, List.mem_cons, List.not_mem_nil, or_false] at hl
      · rcases hl with rfl | rfl
        · exact ⟨rfl, fun _ => rfl⟩
        · trivial
      · rcases hl with rfl | rfl | rfl
        · trivial
        · trivial
        · exact ⟨rfl, fun _ => rfl⟩ }
  done := fun _ => rfl
  record := fun _ _ _ => rfl

theorem scaled_iff {k : ℚ} {v r : Val ℚ} : Scaled (.scalar k) v r ↔ (∃ a, v = .scalar a ∧ r = .scalar (k * a)) ∨ ∃ l, v = .array l ∧ r = .array (l.map (k * ·)) := by
  constructor
  · intro h
    cases h with
    | scalar => exact .inl ⟨_, rfl, rfl⟩
    | array _ a => exact .inr ⟨_, rfl, by rw [List.map_ofFn]; rfl⟩
  · rintro (⟨a, rfl, rfl⟩ | ⟨l, rfl, rfl⟩)
    · exact .scalar k a
    · have := Scaled.array k (fun i : Fin l.length => l[i])
      have e1 : List.ofFn (fun i : Fin l.length => l[i]) = l := List.ofFn_getElem
      have e : List.ofFn (fun i : Fin l.length => k *. l[i]) = l.map (k * ·) := by
        conv_rhs => rw [← e1, List.map_ofFn]
        rfl
      rw [e1, e] at this
      exact this

/-- From the values of the signals with one gain, those with two gains: the signal between them is found. -/
theorem follows (st st' : Strategy) : Follows (prog st true) (prog st' false) (wires true) (wires false) := by
  intro mem t val hf
  have h6 : six.Solved t (mem 2) val := hf.block six (by rw [leaves_eq]; simp)
  obtain ⟨a, r, e1, h1, e2⟩ := h6
  obtain ⟨m, hm1, hm2⟩ : ∃ m, Scaled (.scalar 2) a m ∧ Scaled (.scalar 3) m r := by
    rcases scaled_iff.1 h1 with ⟨x, rfl, rfl⟩ | ⟨l, rfl, rfl⟩
    · refine ⟨_, .scalar 2 x, ?_⟩
      rw [show (6 * x : ℚ) = 3 * (2 * x) by ring]
      exact .scalar 3 _
    · refine ⟨_, scaled_iff.2 (.inr ⟨l, rfl, rfl⟩), scaled_iff.2 (.inr ⟨_, rfl, ?_⟩)⟩
      rw [List.map_map]
      congr 1
      refine List.map_congr_left fun x _ => ?_
      show (6 * x : ℚ) = 3 * (2 * x)
      ring
  refine ⟨fun s => if s = 2 then some m else val s, ?_, ⟨fun q hq => (List.not_mem_nil hq).elim, fun l hl => ?_⟩⟩
  · rintro s ⟨p, hp, _, hs⟩
    have : s ≠ 2 := by
      rename_i hp'
      have k1 := wires_mem false p hp'
      rintro rfl
      rcases hs with hs | hs
      · exact absurd (k1.2.1 2 hs) (by simp [takes])
      · exact absurd (k1.1 2 hs) (by simp [gives])
    exact if_neg this
  · rw [leaves_eq] at hl
    simp only [if_true, List.mem_cons, List.not_mem_nil, or_false] at hl
    rcases hl with rfl | rfl | rfl
    · exact ⟨m, r, rfl, hm2, e2⟩
    · exact ⟨a, m, e1, hm1, rfl⟩
    · trivial

attribute [local instance] Arith.before in
/-- All hypotheses of `C74_exchange` hold for the program with two gains and the one with one gain, with any simulators; the integrator is common, so its
output `x` is computed with the same values. -/
example (st st' : Strategy) : (prog st true).Sealed (wires true) (fun _ => .scalar) (fun b => b) ∧ (prog st' false).Sealed (wires false) (fun _ => .scalar) (fun b => b) ∧
    (∀ p ∈ wires true, p ∈ wires false ∨ (p.obj.Memoryless ∧ p.obj.isState = false)) ∧ (∀ p ∈ wires true, p.obj.Plain) ∧ (∀ p ∈ wires false, p.obj.Plain) ∧
    Follows (prog st true) (prog st' false) (wires true) (wires false) ∧ (prog st true).stepper = (prog st' false).stepper ∧
    world.New (prog st true) (fun _ => .scalar) ∧ world.New (prog st' false) (fun _ => .scalar) ∧ world.log = [] ∧ [(0 : ℚ), 1].IsChain Later ∧
    (∃ p ∈ wires true, p ∈ wires false ∧ p.Gives 0) := by
  refine ⟨sealed _ _, sealed _ _, ?_, ?_, ?_, follows _ _, rfl, new _ _, new _ _, rfl, by simp; constructor <;> decide +kernel, ⟨_, .head _, .head _, str "out", .scalar, .head _⟩⟩
  · intro p hp
    simp only [wires, if_true, List.mem_cons, List.not_mem_nil, or_false] at hp
    rcases hp with rfl | rfl | rfl
    · exact .inl (.head _)
    · exact .inr ⟨trivial, rfl⟩
    · exact .inr ⟨trivial, rfl⟩
  · intro p hp
    simp only [wires, if_true, List.mem_cons, List.not_mem_nil, or_false] at hp
    rcases hp with rfl | rfl | rfl <;> trivial
  · intro p hp
    simp only [wires, Bool.false_eq_true, if_false, List.mem_cons, List.not_mem_nil, or_false] at hp
    rcases hp with rfl | rfl <;> trivial

end Pooya.C74
