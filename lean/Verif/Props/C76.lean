import Verif.Proof.Tempo
import Verif.Spec.Steady
import Verif.Props.C75

/-! # C76: the step size control follows its rules, and does not see what it should not see -/

namespace Pooya.C76

open Pooya C60 C69 C72 C75 Within Superpose

set_option linter.unusedSectionVars false

section
variable {K : Type} [Arith K]

/-- C76, one call, any arithmetic: `run(t)` for a later time follows the rules of the step size control, with the right-hand side the equations of the diagram define.
Trial steps and accepted ones are those the rules prescribe, in their order; rejected ones leave no trace in what follows. -/
theorem C76_run (cfg : Config K) (hd : cfg.dbg = true) (ho : Owned cfg) (st : Stepper K) (hst : cfg.stepper = some st) (hdim : Stepper.Dim st)
    (hc : ∀ l ∈ cfg.model.leaves, l.Calm) (m m' : Machine K) (hm : Ongoing cfg m) (h0 : 0 < m.s.nState) (fuel : Nat) (t minH maxH : K)
    (hlt : (m.s.tPrev <. t) = true) (hne : (t ==. m.s.tPrev) = false) (hx : run cfg fuel t minH maxH m = .ok () m') :
    ∃ (new : List (Event K)) (x y : List K), m'.w.log = new ++ m.w.log ∧ cfg.Stands m.vars m.w.mem x ∧
      Adapts cfg m.vars st minH maxH t m.w.mem m.s.tPrev t false x (stepsIn new) y m'.w.shown m'.w.mem ∧ cfg.Stands m.vars m'.w.mem y :=
  run_adapts hd ho st hst hdim hc hm h0 hlt hne hx

end

section
variable {F : Type} [_root_.Field F] [LinearOrder F] [IsStrictOrderedRing F] [Archimedean F]
attribute [local instance] Arith.exact

/-- C76, a simulation in exact arithmetic: `init` and all calls of `run` return, and the diagram passes through the times with the steps the rules of the step size control
prescribe. -/
theorem C76_paces (cfg : Config F) (ps : List (Wire F)) (ty : SigId → Ty) (rank : BlkId → Nat) (h : cfg.Sealed ps ty rank)
    (hme : ∀ p ∈ ps, p.obj.Plain) (he : ∀ st, cfg.stepper = some st → st ∈ [euler, rk4, rkf45])
    (w : World F) (hw : w.New cfg ty) (hlog : w.log = []) (tPrev t0 minH maxH : F) (h0 : 0 < minH) (h1 : minH < maxH) :
    ∃ (m0 : Machine F) (V : Vars) (x0 : List F), Call.exec cfg (.init t0) { w := w, s := { tPrev := tPrev } } = .ok () m0 ∧ V = m0.vars ∧
      (∀ s, s ∈ V.scalars ++ V.arrays ↔ ∃ p ∈ ps, p.obj.isState = true ∧ p.Gives s) ∧ (∀ s, V.size s = (ty s).size) ∧
      cfg.Stands V w.mem x0 ∧ Committed cfg V w.mem t0 x0 m0.w.shown m0.w.mem ∧
      ∀ ts : List F, (t0 :: ts).Pairwise (· < ·) →
        (∃ m, RunsTo cfg minH maxH m0 ts m) ∧
        ∀ m, RunsTo cfg minH maxH m0 ts m → ∃ y new, m.w.log = new ++ m0.w.log ∧ m.s.tPrev = (t0 :: ts).getLast (by simp) ∧
          Paces cfg V minH maxH ⟨m0.w.mem, t0, x0, m0.w.shown⟩ ts (stepsIn new) ⟨m.w.mem, m.s.tPrev, y, m.w.shown⟩ := by
  obtain ⟨m0, V, x0, q1, rfl, q3, q4, q5, q6, q7⟩ := C69_passage cfg ps ty rank h hme he w hw hlog tPrev t0 minH maxH h0 h1
  have hp := C59.C59_complete cfg ps ty rank h
  have ho := owned_of hp
  have hc := calm_leaf h hme
  have hord : cfg.Delays → OrderedArith F := fun _ => C57.ordered_exact
  obtain ⟨m0', g1, g2⟩ := C57.C57_init cfg ty rank hp hord _ (.new w tPrev hw) rfl t0
  rw [q1] at g1
  cases g1
  have hat : Attended cfg ty m0 := .call (.init t0) (.new w tPrev hw) rfl q1
  have hon : Ongoing cfg m0 := .init w tPrev t0 hw.done hlog q1
  have hf := (attended_cared hp hord hat).fit g2.init
  have hco := hon.course ho hp.typed.dbg hp.typed.stepper hc
  obtain ⟨x1, mb, b1, _, _, b4⟩ := runs_begin hp hf t0
  obtain ⟨x2, hx2⟩ := hco.start ho b1
  have hw0 := init_stands hp hc hw hlog q1 hx2
  obtain rfl : x2 = x0 := packed_unique hw0 q5 fun _ _ => rfl
  have hmk : Mark cfg ty m0.vars m0.s.nState t0 x2 m0 := ⟨hat, hon, rfl, rfl, g2.time, hx2⟩
  have hstp : 0 < m0.s.nState → cfg.stepper ≠ none := by
    intro hn e
    obtain ⟨s, hs⟩ := List.exists_mem_of_ne_nil _ (vars_ne hp hf.call.layout hn)
    obtain ⟨p, hp, hb, _⟩ := (q3 s).1 hs
    have := h.stepped ⟨p, hp, hb⟩
    rw [e] at this; cases this
  have hch : ∀ ts : List F, (t0 :: ts).Pairwise (· < ·) → (t0 :: ts).IsChain (Onward cfg ty minH maxH) := fun ts hts => hts.isChain.imp fun a b hab => onward_exact hp he h0 h1 hab
  refine ⟨m0, m0.vars, x2, q1, rfl, q3, q4, q5, q6, fun ts hts => ⟨(q7 ts hts).1, fun m hm => ?_⟩⟩
  obtain ⟨y, new, e1, e2⟩ := Mark.paced hp hord hc hstp ts (hch ts hts) hmk m hm
  obtain ⟨_, _, hmk'⟩ := (Mark.courses hp hord hc hstp ts (hch ts hts) hmk).2 m hm
  unfold snap at e2
  rw [show m0.s.tPrev = t0 from g2.time] at e2
  exact ⟨y, new, e1, hmk'.time, e2⟩

variable {I : Type}

/-- C76, relations: C75 with all methods.  If the relations say that the states of the simulations differ in sign only, the step size control takes the same steps in all
simulations - shifted like the beginning of time -, and the relations hold at the end of every `run`. -/
theorem C76_linear [Nonempty I] (c : I → F) (M : SigId → Submodule F (I → F)) (cfg : I → Config F) (ps : List (Wire F)) (ty : SigId → Ty) (rank : I → BlkId → Nat)
    (h : ∀ i, (cfg i).Sealed ps ty (rank i)) (hpl : ∀ p ∈ ps, p.obj.Plain) (hl : ∀ i, ∀ l ∈ (cfg i).model.leaves, l.Linear c M)
    (hev : ∀ p ∈ ps, p.obj.isState = true → ∀ s, p.Gives s → ∀ x ∈ M s, ∀ i j, |x i| = |x j|)
    (hin : ∀ i s, (∀ t, s ∈ ((cfg i).inputVals t).map Prod.fst) → Fed c M cfg s)
    (he : ∀ i st, (cfg i).stepper = some st → st ∈ [euler, rk4, rkf45]) (hst : (∃ p ∈ ps, p.obj.isState = true) → ∀ i j, (cfg i).stepper = (cfg j).stepper)
    (w : I → World F) (hw : ∀ i, (w i).New (cfg i) ty) (hlog : ∀ i, (w i).log = []) (hmem : ∀ i, ∀ l ∈ (cfg i).model.leaves, l.Held c M fun j => (w j).mem l.id)
    (tPrev : I → F) (minH maxH : F) (h0 : 0 < minH) (h1 : minH < maxH) (t0 : F) :
    ∃ m0 : I → Machine F, (∀ i, Call.exec (cfg i) (.init (t0 + c i)) { w := w i, s := { tPrev := tPrev i } } = .ok () (m0 i)) ∧
      (∀ p ∈ ps, ∀ s, p.Takes s ∨ p.Gives s → On M (fun i => (m0 i).w.shown) s) ∧
      ∀ ts : List F, (t0 :: ts).Pairwise (· < ·) → (∀ i, ∃ m, RunsTo (cfg i) minH maxH (m0 i) (ts.map (· + c i)) m) ∧
        ∀ m : I → Machine F, (∀ i, RunsTo (cfg i) minH maxH (m0 i) (ts.map (· + c i)) (m i)) →
          (∀ p ∈ ps, ∀ s, p.Takes s ∨ p.Gives s → On M (fun i => (m i).w.shown) s) ∧
          ∃ es : List (StepEv F), ∀ i, ∃ new, (m i).w.log = new ++ (m0 i).w.log ∧ stepsIn new = es.map (StepEv.later (c i)) := by
  obtain ⟨i0⟩ := id ‹Nonempty I›
  have hpass := fun i => C76_paces (cfg i) ps ty (rank i) (h i) hpl (he i) (w i) (hw i) (hlog i) (tPrev i) (t0 + c i) minH maxH h0 h1
  choose m0 V x0 a1 a2 a3 a4 a5 a6 a7 using hpass
  obtain rfl : V = fun i => (m0 i).vars := funext a2
  have hV : ∀ i, C72.Sorted ps ty (m0 i).vars := fun i => sorted_of (h i) (fun _ => C57.ordered_exact) (hw i) (a1 i) (a3 i) (a4 i)
  have hb : Bond c M cfg fun i => (m0 i).vars := bond_of h hpl hl hin hV
  have hevn : Superpose.Even M fun i => (m0 i).vars := fun i s hs => by
    obtain ⟨p, hp, e1, e2⟩ := (a3 i s).1 hs
    exact hev p hp e1 s e2
  have hx : ∀ i, x0 i = (Within.slots (m0 i).vars).map (comp fun s => ((cfg i).model.leaves.find? (fun l => decide (l.state = some s))).map (fun l => ((w i).mem l.id).value)) :=
    fun i => ((packed_iff fun _ _ => rfl).1 (a5 i)).2.2
  have ht : Superpose.Tied M (fun i => (m0 i).vars) fun i => comp fun s => ((cfg i).model.leaves.find? (fun l => decide (l.state = some s))).map (fun l => ((w i).mem l.id).value) :=
    tied_of h hpl hl hmem a3
  have hb0 : Superpose.Bound c M cfg (fun i => (m0 i).vars) t0 fun i => ⟨(m0 i).w.mem, t0 + c i, x0 i, (m0 i).w.shown⟩ :=
    hb.committed (b := fun i => ⟨(m0 i).w.mem, t0 + c i, x0 i, (m0 i).w.shown⟩) (mm := fun i => (w i).mem) (fun _ => rfl) hmem ht hx a6
  have hts : ∀ ts : List F, (t0 :: ts).Pairwise (· < ·) → ∀ i, ((t0 + c i) :: ts.map (· + c i)).Pairwise (· < ·) := by
    intro ts hts i
    have := hts.map (· + c i) (S := (· < ·)) fun a b hab => add_lt_add_left hab _
    simpa using this
  refine ⟨m0, a1, fun p hp s hs => hb0.vals i0 s (sourced (h i0) (hV i0).mem ⟨p, hp, hs⟩), fun ts hp => ⟨fun i => (a7 i _ (hts ts hp i)).1, fun m hm => ?_⟩⟩
  have hq := fun i => (a7 i _ (hts ts hp i)).2 (m i) (hm i)
  choose y new hy1 _ hy3 using hq
  obtain ⟨⟨es, hes⟩, t', hb'⟩ := hb.paces hevn he (fun i j hne => by
    refine hst ?_ i j
    obtain ⟨s, hs⟩ := List.exists_mem_of_ne_nil _ hne
    obtain ⟨p, hp, e, _⟩ := (a3 i s).1 hs
    exact ⟨p, hp, e⟩) hb0 hy3
  exact ⟨fun p hpp s hs => hb'.vals i0 s (sourced (h i0) (hV i0).mem ⟨p, hpp, hs⟩), es, fun i => ⟨new i, hy1 i, hes i⟩⟩

/-! ## The same simulation -/

/-- No `TriggeredIntegrator`, and not written by the user. -/
def Ordinary : Kind F → Prop
  | .trigInt _ _ _ | .custom _ => False
  | _ => True

theorem plain_kind {o : Make F} (ho : o.Plain) {ib ob : Entries} {b : Pooya.Bound} {k : Kind F} (hk : o.kind ib ob b = .ok k) : Ordinary k := by
  unfold Make.kind at hk
  split at hk <;> first | (exact ho.elim) | (cases hk; exact trivial) | skip
  · split at hk <;> cases hk
    exact trivial
  · split at hk <;> cases hk
    exact trivial
  · split at hk <;> cases hk
    exact trivial
  · cases hk

theorem plain_leaf {cfg : Config F} {ps : List (Wire F)} {ty : SigId → Ty} {rank : BlkId → Nat} (h : cfg.Sealed ps ty rank) (hm : ∀ p ∈ ps, p.obj.Plain) :
    ∀ l ∈ cfg.model.leaves, Ordinary l.kind := by
  intro l hl
  obtain ⟨ls, h1, h2⟩ := h.assembled
  obtain ⟨p, hp, d1, d2, e⟩ := C58.all_mem h1 l (h2.mem_iff.1 hl)
  have hme := hm p hp
  obtain ⟨b, s, _, hk, _⟩ := C58.inv (fun a b c e f he => by rw [he] at hme; exact hme) e
  exact plain_kind hme hk

theorem steady_linear [Nonempty I] {c : I → F} {l : Leaf F} (h : l.Steady c) (hk : Ordinary l.kind) : l.Linear c fun _ => diag F I := by
  unfold Leaf.Steady at h
  unfold Leaf.Linear
  cases e : l.kind <;> simp only [e] at h hk ⊢ <;> try trivial
  case source f o =>
    intro t u hu
    obtain ⟨i0⟩ := id ‹Nonempty I›
    refine .inr (.inr ⟨le_rfl, u i0, funext fun i => ?_⟩)
    have := (hu i).symm.trans ((h t i i0).trans (hu i0))
    exact Except.ok.inj this
  case multiply => exact .inl ⟨fun _ _ => le_rfl, le_rfl⟩
  all_goals first
    | exact le_rfl
    | exact .inl le_rfl
    | exact ⟨le_rfl, le_rfl⟩
    | exact ⟨le_rfl, le_rfl, le_rfl⟩
    | exact ⟨h, fun _ _ => le_rfl⟩
    | exact ⟨.inl le_rfl, fun _ _ => le_rfl⟩
    | exact ⟨h, le_rfl, le_rfl⟩
    | exact ⟨h, fun _ _ => le_rfl, le_rfl⟩
    | exact ⟨h, fun _ _ => le_rfl, fun _ _ => le_rfl⟩

theorem Lin.const (v : Val F) : Lin (diag F I) fun _ => v := .inr (.inr ⟨le_rfl, v, rfl⟩)

theorem later_held [Nonempty I] {c : I → F} {ty : SigId → Ty} {l : Leaf F} {mem : I → Mem F} (hty : ∀ i, l.Members strict ty (mem i)) (hd : l.isDelay = true → ∀ i, (mem i).ts = [])
    (hm : ∀ i j, mem j = (mem i).later (c j - c i)) : l.Held c (fun _ => diag F I) mem := by
  obtain ⟨i0⟩ := id ‹Nonempty I›
  have hv : (fun i => (mem i).value) = fun _ => (mem i0).value := funext fun i => by rw [hm i0 i]; rfl
  unfold Leaf.Members at hty
  unfold Leaf.isDelay at hd
  unfold Leaf.Held
  cases e : l.kind <;> simp only [e] at hty hd ⊢ <;> try trivial
  case memory => rw [hv]; exact Lin.const _
  case integrator => rw [hv]; exact Lin.const _
  case derivative x o =>
    refine ⟨by rw [hv]; exact Lin.const _, ?_⟩
    have hf : ∀ i, (mem i).firstStep = (mem i0).firstStep := fun i => by rw [hm i0 i]; rfl
    cases hb : (mem i0).firstStep with
    | true => exact .inl fun i => (hf i).trans hb
    | false =>
      obtain ⟨⟨ht, hx⟩, _⟩ := (hty i0).2.imp_left (· hb)
      obtain ⟨t, ht⟩ := Option.isSome_iff_exists.1 ht
      obtain ⟨v, hx⟩ := Option.isSome_iff_exists.1 hx
      refine .inr ⟨fun i => (hf i).trans hb, t - c i0, fun _ => v, fun i => ?_, fun i => ?_, Lin.const _⟩
      · rw [hm i0 i]
        show (mem i0).t.map _ = _
        rw [ht]
        show some (t + (c i - c i0)) = some (t - c i0 + c i)
        congr 1; ring
      · rw [hm i0 i]; exact hx
  case delay =>
    refine ⟨[], [], fun i => hd trivial i, fun i => ?_, fun _ h => (List.not_mem_nil h).elim⟩
    have := (hty i).2
    rw [hd trivial i] at this
    exact List.eq_nil_of_length_eq_zero this.symm

theorem eq_of_on {M : SigId → Submodule F (I → F)} {val : I → SigId → Option (Val F)} {s : SigId} (hM : M s ≤ diag F I) (h : On M val s) (i j : I) : val i s = val j s := by
  obtain ⟨v, e, hv⟩ := h
  rw [e, e, hv.eq hM i j]

/-- C76, what the results do not depend on: simulations of one diagram with any of the three methods, which may differ in the simulator, the nesting and the order of the blocks,
the order of the signals in hash tables, and in the beginning of time if the user's functions and the inputs depend on the time since the beginning only.  After `init` and every `run` all
signals have the same values in all simulations, and the same steps were tried and accepted. -/
theorem C76_same [Nonempty I] (c : I → F) (cfg : I → Config F) (ps : List (Wire F)) (ty : SigId → Ty) (rank : I → BlkId → Nat)
    (h : ∀ i, (cfg i).Sealed ps ty (rank i)) (hpl : ∀ p ∈ ps, p.obj.Plain) (hl : ∀ i, ∀ l ∈ (cfg i).model.leaves, l.Steady c)
    (hin : ∀ i j t q, q ∈ (cfg i).inputVals (t + c i) → q ∈ (cfg j).inputVals (t + c j))
    (he : ∀ i st, (cfg i).stepper = some st → st ∈ [euler, rk4, rkf45]) (hst : (∃ p ∈ ps, p.obj.isState = true) → ∀ i j, (cfg i).stepper = (cfg j).stepper)
    (w : I → World F) (hw : ∀ i, (w i).New (cfg i) ty) (hlog : ∀ i, (w i).log = []) (hmem : ∀ i j, ∀ p ∈ ps, (w j).mem p.id = ((w i).mem p.id).later (c j - c i))
    (tPrev : I → F) (minH maxH : F) (h0 : 0 < minH) (h1 : minH < maxH) (t0 : F) :
    ∃ m0 : I → Machine F, (∀ i, Call.exec (cfg i) (.init (t0 + c i)) { w := w i, s := { tPrev := tPrev i } } = .ok () (m0 i)) ∧
      (∀ p ∈ ps, ∀ s, p.Takes s ∨ p.Gives s → ∀ i j, (m0 i).w.shown s = (m0 j).w.shown s) ∧
      ∀ ts : List F, (t0 :: ts).Pairwise (· < ·) → (∀ i, ∃ m, RunsTo (cfg i) minH maxH (m0 i) (ts.map (· + c i)) m) ∧
        ∀ m : I → Machine F, (∀ i, RunsTo (cfg i) minH maxH (m0 i) (ts.map (· + c i)) (m i)) →
          (∀ p ∈ ps, ∀ s, p.Takes s ∨ p.Gives s → ∀ i j, (m i).w.shown s = (m j).w.shown s) ∧
          ∃ es : List (StepEv F), ∀ i, ∃ new, (m i).w.log = new ++ (m0 i).w.log ∧ stepsIn new = es.map (StepEv.later (c i)) := by
  obtain ⟨i0⟩ := id ‹Nonempty I›
  obtain ⟨m0, k1, k2, k3⟩ := C76_linear c (fun _ => diag F I) cfg ps ty rank h hpl (fun i l hl' => steady_linear (hl i l hl') (plain_leaf (h i) hpl l hl'))
    (fun p _ _ s _ x hx i j => congrArg _ (hx i j)) (fun i s hi t => by
      obtain ⟨q, hq, rfl⟩ := List.mem_map.1 (hi (t + c i))
      exact ⟨fun _ => q.2, fun j => hin i j t q hq, Lin.const _⟩) he hst w hw hlog (fun i l hl' => by
      obtain ⟨p, hp, f⟩ := C59.leaf_wire (h i) hl'
      have hlj := fun j => leaves_sub (h i) (h j) (fun _ hp => hp) hpl l hl'
      exact later_held (fun j => (hw j).fine.members l (hlj j)) (fun hd j => (hw j).record l (hlj j) hd) fun j k => by rw [f.id]; exact hmem j k p hp) tPrev minH maxH h0 h1 t0
  exact ⟨m0, k1, fun p hp s hs => eq_of_on (M := fun _ => diag F I) le_rfl (k2 p hp s hs), fun ts hts => ⟨(k3 ts hts).1, fun m hm =>
    ⟨fun p hp s hs => eq_of_on (M := fun _ => diag F I) le_rfl (((k3 ts hts).2 m hm).1 p hp s hs), ((k3 ts hts).2 m hm).2⟩⟩⟩

/-! ## Symmetry -/

/-- The families with `x 1 = - x 0`. -/
def anti (F : Type) [_root_.Field F] : Submodule F (Fin 2 → F) where
  carrier := { x | x 1 = - x 0 }
  zero_mem' := by simp
  add_mem' := fun {x y} hx hy => by
    have hx : x 1 = - x 0 := hx
    have hy : y 1 = - y 0 := hy
    show x 1 + y 1 = - (x 0 + y 0)
    rw [hx, hy]; ring
  smul_mem' := fun k x hx => by
    have hx : x 1 = - x 0 := hx
    show k * x 1 = - (k * x 0)
    rw [hx]; ring

open Classical in
/-- The signals `P` are the same in two simulations; the others have opposite signs. -/
noncomputable def mirror (F : Type) [_root_.Field F] (P : SigId → Prop) (s : SigId) : Submodule F (Fin 2 → F) := if P s then diag F (Fin 2) else anti F

theorem opposite_of [CharZero F] {v : Fin 2 → Val F} (h : Lin (anti F) v) : (v 0).Opposite (v 1) := by
  rcases h with ⟨x, hx, rfl⟩ | ⟨n, x, hx, rfl⟩ | ⟨hd, w, rfl⟩
  · have hx : x 1 = - x 0 := hx
    simp only [hx]
    exact .scalar _
  · have hx : ∀ j, x j 1 = - x j 0 := hx
    simp only [hx]
    have := Val.Opposite.array (List.ofFn fun j => x j 0)
    rw [List.map_ofFn] at this
    exact this
  · have : (1 : F) = - 1 := hd (x := fun _ => 1) fun _ _ => rfl
    exact absurd this (by norm_num)

theorem lin_opposite {v : Fin 2 → Val F} (h : (v 0).Opposite (v 1)) : Lin (anti F) v := by
  have hv : v = ![v 0, v 1] := by funext i; fin_cases i <;> rfl
  generalize v 0 = x, v 1 = y at h hv
  subst hv
  cases h with
  | scalar x => exact .inl ⟨![x, -x], rfl, by funext i; fin_cases i <;> rfl⟩
  | array xs =>
    refine .inr (.inl ⟨xs.length, fun j => ![xs[j], -xs[j]], fun j => rfl, ?_⟩)
    funext i
    fin_cases i
    · show Val.array xs = Val.array (List.ofFn fun j : Fin xs.length => xs[j])
      rw [show (List.ofFn fun j : Fin xs.length => xs[j]) = xs from List.ofFn_getElem]
    · show Val.array (xs.map (-·)) = Val.array (List.ofFn fun j : Fin xs.length => -xs[j])
      congr 1
      conv_lhs => rw [← List.ofFn_getElem (xs := xs), List.map_ofFn]
      rfl

/-- C76, odd symmetry: two simulations of one diagram with any of the three methods.  The diagram is linear in all signals but those in `P`, which are the same in both.  If the inputs and
what the blocks hold at the beginning have opposite signs, so have all signals after `init` and every `run`; the same steps are tried and accepted. -/
theorem C76_mirror (P : SigId → Prop) (cfg : Fin 2 → Config F) (ps : List (Wire F)) (ty : SigId → Ty) (rank : Fin 2 → BlkId → Nat)
    (h : ∀ i, (cfg i).Sealed ps ty (rank i)) (hpl : ∀ p ∈ ps, p.obj.Plain) (hl : ∀ i, ∀ l ∈ (cfg i).model.leaves, l.Linear (fun _ => 0) (mirror F P))
    (hin : ∀ i s, (∀ t, s ∈ ((cfg i).inputVals t).map Prod.fst) → ∀ t, ∃ v : Fin 2 → Val F, (∀ i, (s, v i) ∈ (cfg i).inputVals t) ∧
      (P s → v 0 = v 1) ∧ (¬ P s → (v 0).Opposite (v 1)))
    (he : ∀ i st, (cfg i).stepper = some st → st ∈ [euler, rk4, rkf45]) (hst : (∃ p ∈ ps, p.obj.isState = true) → ∀ i j, (cfg i).stepper = (cfg j).stepper)
    (w : Fin 2 → World F) (hw : ∀ i, (w i).New (cfg i) ty) (hlog : ∀ i, (w i).log = [])
    (hmem : ∀ i, ∀ l ∈ (cfg i).model.leaves, l.Held (fun _ => 0) (mirror F P) fun j => (w j).mem l.id)
    (tPrev : Fin 2 → F) (minH maxH : F) (h0 : 0 < minH) (h1 : minH < maxH) (t0 : F) :
    ∃ m0 : Fin 2 → Machine F, (∀ i, Call.exec (cfg i) (.init t0) { w := w i, s := { tPrev := tPrev i } } = .ok () (m0 i)) ∧
      ∀ ts : List F, (t0 :: ts).Pairwise (· < ·) → (∀ i, ∃ m, RunsTo (cfg i) minH maxH (m0 i) ts m) ∧
        ∀ m : Fin 2 → Machine F, (∀ i, RunsTo (cfg i) minH maxH (m0 i) ts (m i)) →
          (∀ p ∈ ps, ∀ s, p.Takes s ∨ p.Gives s →
            ∃ v : Fin 2 → Val F, (∀ i, (m i).w.shown s = some (v i)) ∧ (P s → v 0 = v 1) ∧ (¬ P s → (v 0).Opposite (v 1))) ∧
          ∃ es : List (StepEv F), ∀ i, ∃ new, (m i).w.log = new ++ (m0 i).w.log ∧ stepsIn new = es := by
  obtain ⟨m0, k1, _, k3⟩ := C76_linear (fun _ => 0) (mirror F P) cfg ps ty rank h hpl hl (fun p _ _ s _ x hx i j => by
    unfold mirror at hx
    split at hx
    · exact congrArg _ (hx i j)
    · have hx : x 1 = - x 0 := hx
      have : |x 1| = |x 0| := by rw [hx, abs_neg]
      fin_cases i <;> fin_cases j <;> simp [this]) (fun i s hi t => by
    simp only [add_zero]
    obtain ⟨v, e1, e2, e3⟩ := hin i s hi t
    refine ⟨v, e1, ?_⟩
    unfold mirror
    split
    · rename_i hP
      exact .inr (.inr ⟨le_rfl, v 0, by funext i; fin_cases i <;> simp [e2 hP]⟩)
    · rename_i hP
      exact lin_opposite (e3 hP)) he hst w hw hlog hmem tPrev minH maxH h0 h1 t0
  have hlt : ∀ es : List (StepEv F), es.map (StepEv.later 0) = es := fun es => by
    rw [show StepEv.later (0 : F) = id from funext fun e => by cases e <;> simp [StepEv.later]]
    exact List.map_id _
  simp only [add_zero, hlt] at k1 k3
  refine ⟨m0, k1, fun ts hts => ?_⟩
  have := k3 ts hts
  simp only [List.map_id'] at this
  refine ⟨this.1, fun m hm => ⟨fun p hp s hs => ?_, (this.2 m hm).2⟩⟩
  obtain ⟨v, e1, e2⟩ := (this.2 m hm).1 p hp s hs
  refine ⟨v, e1, fun hP => ?_, fun hP => ?_⟩
  · have e : mirror F P s = diag F (Fin 2) := if_pos hP
    exact e2.eq (e ▸ le_rfl) 0 1
  · have e : mirror F P s = anti F := if_neg hP
    exact opposite_of (e ▸ e2)

end

/-! ## Examples -/

def ready (st : Strategy) : Machine ℚ := stateOf (Call.exec (C72.prog rkf45 st false) (.init 0) { w := scaled, s := { tPrev := 0 } })
def after (st : Strategy) : Machine ℚ := stateOf (Call.exec (C72.prog rkf45 st false) (.run 10 1 (1/4) 10) (ready st))

theorem plain : ∀ p ∈ C72.wires false, p.obj.Plain := fun p hp => by obtain ⟨i, rfl⟩ := C72.wire_eq _ p hp; trivial

theorem made_new (v : ℚ) (stp : Stepper ℚ) (st : Strategy) : ({ C72.world with mem := fun _ => { value := .scalar v } } : World ℚ).New (C72.prog stp st false) (fun _ => .scalar) where
  fine := {
    types := fun _ => rfl
    cells := fun _ => ⟨fun e => (by cases e), fun v e => (by cases e)⟩
    members := by
      intro l hl
      rw [C72.leaves_eq] at hl
      obtain rfl := List.mem_singleton.1 hl
      exact ⟨rfl, fun _ => rfl⟩ }
  done := fun _ => rfl
  record := fun _ _ _ => rfl

/-- All hypotheses of `C76_paces` hold for the equation `x' = x` with `x = 1000` at the beginning, Rkf45, and each of the simulators.  On the way to 1 the steps to 1 and 1/2 are rejected,
the step to 1/4 - the smallest step size - is accepted in any case, and so on. -/
example (st : Strategy) : (C72.prog rkf45 st false).Sealed (C72.wires false) (fun _ => .scalar) (fun b => b) ∧ (∀ p ∈ C72.wires false, p.obj.Plain) ∧
    scaled.New (C72.prog rkf45 st false) (fun _ => .scalar) ∧ scaled.log = [] ∧ Call.exec (C72.prog rkf45 st false) (.init 0) { w := scaled, s := { tPrev := 0 } } = .ok () (ready st) ∧
    RunsTo (C72.prog rkf45 st false) (1/4) 10 (ready st) [1] (after st) ∧
    stepsIn (after st).w.log = [.trial 0 1, .trial 0 (1/2), .trial 0 (1/4), .accept 0 (1/4), .trial (1/4) (1/2), .accept (1/4) (1/2), .trial (1/2) (3/4), .accept (1/2) (3/4),
      .trial (3/4) 1, .accept (3/4) 1] :=
  ⟨C72.sealed _ (by simp) _ _, plain, made_new 1000 _ _, rfl, eq_of_returns (by cases st <;> decide +kernel), .cons 10 (eq_of_returns (by cases st <;> decide +kernel)) .nil,
    by cases st <;> decide +kernel⟩

/-- All hypotheses of `C76_run` hold there too. -/
example (st : Strategy) : (C72.prog rkf45 st false).dbg = true ∧ Owned (C72.prog rkf45 st false) ∧ (C72.prog rkf45 st false).stepper = some rkf45 ∧ Stepper.Dim (rkf45 : Stepper ℚ) ∧
    (∀ l ∈ (C72.prog rkf45 st false).model.leaves, l.Calm) ∧ Ongoing (C72.prog rkf45 st false) (ready st) ∧ 0 < (ready st).s.nState ∧ ((ready st).s.tPrev <. 1) = true ∧
    ((1 : ℚ) ==. (ready st).s.tPrev) = false ∧ run (C72.prog rkf45 st false) 10 1 (1/4) 10 (ready st) = .ok () (after st) := by
  have hs := C59.C59_complete _ _ _ _ (C72.sealed (rkf45 : Stepper ℚ) (by simp) st false)
  refine ⟨rfl, owned_of hs, rfl, hs.typed.stepper _ rfl, calm_leaf (C72.sealed _ (by simp) _ _) plain, .init scaled 0 0 (fun _ => rfl) rfl (eq_of_returns (by cases st <;> decide +kernel)), ?_, ?_, ?_,
    eq_of_returns (by cases st <;> decide +kernel)⟩ <;> cases st <;> decide +kernel

/-- All hypotheses of `C76_same` hold for two simulators and two origins of time. -/
example (st st' : Strategy) (d : ℚ) : ∃ m0 : Fin 2 → Machine ℚ,
    (∀ i, Call.exec (C72.prog rkf45 (![st, st'] i) false) (.init (0 + ![0, d] i)) { w := scaled, s := { tPrev := 0 } } = .ok () (m0 i)) ∧
    ∀ ts : List ℚ, ((0 : ℚ) :: ts).Pairwise (· < ·) → ∀ m : Fin 2 → Machine ℚ, (∀ i, RunsTo (C72.prog rkf45 (![st, st'] i) false) (1/4) 10 (m0 i) (ts.map (· + ![0, d] i)) (m i)) →
      (m 0).w.shown 0 = (m 1).w.shown 0 := by
  obtain ⟨m0, k1, _, k3⟩ := C76_same ![0, d] (fun i => C72.prog rkf45 (![st, st'] i) false) (C72.wires false) (fun _ => .scalar) (fun _ b => b) (fun i => C72.sealed _ (by simp) _ _) plain
    (fun i l hl => by
      rw [C72.leaves_eq] at hl
      obtain rfl := List.mem_singleton.1 hl
      trivial) (fun i j t q hq => hq) (fun i stp e => by cases e; simp) (fun _ _ _ => rfl) (fun _ => scaled) (fun i => made_new 1000 _ _) (fun _ => rfl)
    (fun i j p hp => rfl) (fun _ => 0) (1/4) 10 (by norm_num) (by norm_num) 0
  exact ⟨m0, k1, fun ts hts m hm => ((k3 ts hts).2 m hm).1 _ (.head _) 0 (.inr ⟨str "out", .scalar, .head _⟩) 0 1⟩

/-- All hypotheses of `C76_mirror` (and so of `C76_linear`) hold for the initial values 1000 and -1000. -/
example (st st' : Strategy) : ∃ m0 : Fin 2 → Machine ℚ,
    (∀ i, Call.exec (C72.prog rkf45 (![st, st'] i) false) (.init 0) { w := { C72.world with mem := fun _ => { value := .scalar (![1000, -1000] i) } }, s := { tPrev := 0 } } = .ok () (m0 i)) ∧
    ∀ ts : List ℚ, ((0 : ℚ) :: ts).Pairwise (· < ·) → ∀ m : Fin 2 → Machine ℚ, (∀ i, RunsTo (C72.prog rkf45 (![st, st'] i) false) (1/4) 10 (m0 i) ts (m i)) →
      ∃ v v', (m 0).w.shown 0 = some v ∧ (m 1).w.shown 0 = some v' ∧ v.Opposite v' := by
  obtain ⟨m0, k1, k3⟩ := C76_mirror (fun _ => False) (fun i => C72.prog rkf45 (![st, st'] i) false) (C72.wires false) (fun _ => .scalar) (fun _ b => b) (fun i => C72.sealed _ (by simp) _ _) plain
    (fun i l hl => by
      rw [C72.leaves_eq] at hl
      obtain rfl := List.mem_singleton.1 hl
      exact le_rfl) (fun i s hi t => (List.not_mem_nil (hi t)).elim) (fun i stp e => by cases e; simp) (fun _ _ _ => rfl)
    (fun i => { C72.world with mem := fun _ => { value := .scalar (![1000, -1000] i) } }) (fun i => made_new _ _ _) (fun _ => rfl)
    (fun i l hl => by
      rw [C72.leaves_eq] at hl
      obtain rfl := List.mem_singleton.1 hl
      show Lin (mirror ℚ (fun _ => False) 0) _
      rw [show mirror ℚ (fun _ => False) 0 = anti ℚ from if_neg id]
      exact lin_opposite (.scalar 1000)) (fun _ => 0) (1/4) 10 (by norm_num) (by norm_num) 0
  refine ⟨m0, k1, fun ts hts m hm => ?_⟩
  obtain ⟨v, e1, _, e2⟩ := ((k3 ts hts).2 m hm).1 _ (.head _) 0 (.inr ⟨str "out", .scalar, .head _⟩)
  exact ⟨v 0, v 1, e1 0, e1 1, e2 id⟩

end Pooya.C76
