import Verif.Spec.Evolve
import Verif.Spec.Simulated
import Verif.Proof.Steps
import Verif.Proof.TiedRun
import Verif.Props.C55
import Verif.Props.C25

/-! A call of `run` follows the equations of the diagram. -/

namespace Pooya

set_option linter.unusedSectionVars false

variable {K : Type} [Arith K] {cfg : Config K}

/-! ### One evaluation -/

theorem applyInput_shown {l : List (SigId × Val K)} {e : Option Err} {w w' : World K} (h : applyInput true l e w = .ok () w') :
    (∀ p ∈ l, w'.shown p.1 = some p.2) ∧ Kept w w' := by
  induction l generalizing w with
  | nil => obtain ⟨_, e⟩ := throwOpt_ok h; rw [e]; exact ⟨by simp, PreO.refl w⟩
  | cons p l ih =>
    unfold applyInput at h
    obtain ⟨_, w1, h1, h2⟩ := ok_bind h
    obtain ⟨g1, g2⟩ := setv_shown h1
    obtain ⟨i1, i2⟩ := ih h2
    refine ⟨fun q hq => ?_, PreO.trans g2 i2⟩
    rcases List.mem_cons.1 hq with rfl | hq
    · exact i2.shown g1
    · exact i1 q hq

theorem inputs_shown (hd : cfg.dbg = true) {t : K} {w w' : World K} (h : callInputs cfg t w = .ok () w') :
    (∀ p ∈ cfg.inputVals t, w'.shown p.1 = some p.2) ∧ Kept w w' := by
  unfold callInputs at h
  obtain ⟨_, w1, h1, h2⟩ := ok_bind h
  cases h1
  rw [hd] at h2
  unfold Config.inputVals
  cases hf : cfg.inputs with
  | none =>
    rw [hf] at h2
    obtain ⟨g1, g2⟩ := applyInput_shown h2
    exact ⟨by simpa using g1, g2⟩
  | some f =>
    rw [hf] at h2
    obtain ⟨_, w2, h3, h4⟩ := ok_bind h2
    obtain ⟨g1, g2⟩ := applyInput_shown h3
    obtain ⟨i1, i2⟩ := applyInput_shown h4
    refine ⟨fun p hp => ?_, fun s hs => ?_⟩
    · rcases List.mem_append.1 hp with hp | hp
      · exact i2.shown (g1 p hp)
      · exact i1 p hp
    · rw [i2 s (by rw [g2 s hs]; exact hs), g2 s hs]

theorem kept_pre (l : Leaf K) (t : K) : Moves Kept (l.pre true t) := by
  have hint : ∀ b out, Moves (Kept (K := K)) (integPre true b out) := fun b out => by
    unfold integPre
    exact Moves.bind (fun _ _ _ => rfl) (fun _ => Moves.bind (fun w => by unfold debugVerify; split <;> exact PreO.refl w) (fun _ => Moves.bind (kept_getMem _) (fun _ => kept_setv _ _)))
  refine Moves.bind (fun _ _ _ => rfl) (fun _ => ?_)
  unfold Leaf.preBody
  split
  · exact hint _ _
  · refine Moves.bind (kept_getMem _) (fun m => ?_)
    dsimp only
    split
    · exact Moves.bind (kept_setMem _ _) (fun _ => hint _ _)
    · exact hint _ _
  · exact Moves.bind (kept_getMem _) (fun _ => Moves.bind (Moves.lift _) (fun _ => Moves.bind (kept_setMem _ _) (fun _ => kept_setAll _ _)))
  · exact Moves.pure _

/-- An evaluation keeps what is assigned, and the input functions have assigned their signals. -/
theorem process_shown (hd : cfg.dbg = true) (hp : cfg.model.Proper) {t : K} {r q : Bool} {m m' : Machine K} (hm : Mid cfg m)
    (h : processModel cfg t r q m = .ok () m') : (∀ p ∈ cfg.inputVals t, m'.w.shown p.1 = some p.2) ∧ Kept m.w m'.w := by
  obtain ⟨w1, w2, m3, h1, h2, h3, h4⟩ := processModel_ok h
  have hm1 : Mid cfg { m with w := w1 } := mid_of ((covers_mid cfg).inputs t) hm (by show inW _ m = _; unfold inW; rw [h1])
  have hm2 : Mid cfg { m with w := w2 } ∧ Kept w1 w2 := by
    cases r with
    | false => rw [if_neg (by simp)] at h2; subst h2; exact ⟨hm1, PreO.refl _⟩
    | true =>
      rw [if_pos rfl] at h2
      refine ⟨mid_of ((covers_mid cfg).pre t) hm1 (by show inW _ _ = _; unfold inW; rw [h2]), ?_⟩
      have := moves_preStep (T := Kept) true t cfg.model (fun l _ => kept_pre l t) w1
      rw [hd] at h2
      rw [h2] at this
      exact this
  obtain ⟨g1, g2⟩ := inputs_shown hd h1
  obtain ⟨ls, a1, _⟩ := eval_acts hp hm2.1 h3
  rw [hd] at a1
  have k1 := acts_kept a1
  have hsig : m'.w.sig = m3.w.sig := by
    cases q with
    | false => rw [if_neg (by simp)] at h4; rw [h4]
    | true =>
      rw [if_pos rfl] at h4
      obtain ⟨w4, h4, rfl⟩ := h4
      exact postStep_sig h4
  have k2 : Kept w2 m'.w := fun s hs => by rw [hsig]; exact k1 s hs
  have k3 : Kept w1 m'.w := PreO.trans hm2.2 k2
  exact ⟨fun p hp => k3.shown (g1 p hp), PreO.trans g2 k3⟩

theorem shown_some {w : World K} {s : SigId} {v : Val K} (h : w.shown s = some v) : (w.sig s).assigned = true := by
  unfold World.shown at h
  cases ha : (w.sig s).assigned with
  | true => rfl
  | false => rw [ha] at h; cases h

theorem shown_val {w : World K} {s : SigId} (h : (w.sig s).assigned = true) : w.shown s = w.val s := by
  unfold World.shown World.val; rw [h]; rfl

/-- Resetting to `x` and evaluating at `t` solves the diagram. -/
theorem eval_solution (ho : Owned cfg) (hd : cfg.dbg = true) {m m1 m' : Machine K} {t : K} {q : Bool} {x : List K} {mem : BlkId → Mem K}
    (hm : Ready cfg m) (hf : Full cfg m) (hx : x.length = m.s.nState) (hmem : ∀ l ∈ cfg.model.leaves, mem l.id = m.w.mem l.id)
    (h1 : resetWith cfg x m = .ok () m1) (h2 : processModel cfg t false q m1 = .ok () m') : Solution cfg m.vars mem t x m'.w.shown := by
  obtain ⟨r1, e1⟩ := hm.reset h1
  have hf1 : Full cfg m1 := by unfold Full; rw [e1]; exact hf
  have hmem1 : m1.w.mem = m.w.mem := by rw [reset_mem h1]
  obtain ⟨p1, p2⟩ := process_shown hd ho.proper r1.mid h2
  have hst := hm.layout.statesOk ho.hash
  obtain ⟨g1, g2, _, _, g5⟩ := resetWith_holds hst.nodup (by rw [hx, hst.slots]) h1
  refine ⟨p1, ?_, fun l hl hreq => ?_⟩
  · unfold Machine.holds at g1
    rw [e1] at g1
    refine Packed.congr g1 (fun s hs => ?_) (fun s _ => ?_)
    · show m'.w.shown s = m1.w.val s
      rw [← shown_val (g2 s hs)]
      unfold World.shown
      rw [p2 s (g2 s hs)]
    · show (m.w.sig s).ty.size = (m1.w.sig s).ty.size
      rw [g5 s]
  · obtain ⟨mem', hv⟩ := C55_evaluation cfg hd ho.proper r1.mid hf1 h2
    obtain ⟨v1, v2⟩ := hv l hl
    by_cases hk : l.kind = .builder
    · unfold Leaf.Solved; rw [hk]; trivial
    have hs := v2 ⟨hk, fun _ s hr => by
      obtain ⟨f, k1, k2⟩ := hr
      obtain ⟨v, hv⟩ := hreq s f k1 k2
      exact shown_some hv⟩
    unfold C55.Members at v1
    rw [hmem1, ← hmem l hl] at v1
    unfold Leaf.Solved at hs ⊢
    cases hk : l.kind <;> rw [hk] at hs v1 <;> first | exact hs | (rw [← v1]; exact hs) | (simp only [Bool.false_eq_true, if_false] at v1; rw [← v1]; exact hs)

/-! ### The right-hand side -/

/-- The derivative signals of the right-hand side. -/
theorem derivs_packed (ho : Owned cfg) (hd : cfg.dbg = true) {m : Machine K} {d : List K} (hm : Ready cfg m) (h : getDerivs cfg m = .ok d m) :
    Packed (fun s => (cfg.deriv s).bind m.w.shown) (fun s => (cfg.deriv s).elim 0 m.w.size) m.s.scalarStates m.s.arrayStates d := by
  obtain ⟨_, _, h1, h2⟩ := getDerivs_ok hd h
  have key : ∀ s ∈ m.s.scalarStates ++ m.s.arrayStates, cfg.deriv s = some (cfg.drv s) := fun s hs => by
    obtain ⟨d, hd⟩ := Option.isSome_iff_exists.1 (state_sig hm.layout ho.hash hs).2
    unfold Config.drv; rw [hd]; rfl
  refine Packed.congr h1 (fun s hs => ?_) (fun s hs => ?_)
  · rw [key s hs]
    exact shown_val (h2 s hs)
  · rw [key s (by simp [hs])]; rfl

/-- What stays the same between two evaluations. -/
structure Course (cfg : Config K) (V : Vars) (mem : BlkId → Mem K) (m : Machine K) : Prop where
  ready : Ready cfg m
  full : Full cfg m
  vars : m.vars = V
  same : ∀ l ∈ cfg.model.leaves, mem l.id = m.w.mem l.id
  quiet : ∀ l ∈ cfg.model.leaves, l.Quiet (mem l.id)

theorem vars_fixed {m m' : Machine K} (h : Fixed m m') : m'.vars = m.vars := by
  unfold Machine.vars
  rw [h.scalarStates, h.arrayStates]
  have : m'.w.size = m.w.size := by funext s; show (m'.w.sig s).ty.size = _; rw [h.ty s]; rfl
  rw [this]

theorem Course.minor (ho : Owned cfg) (hd : cfg.dbg = true) {V : Vars} {mem : BlkId → Mem K} {m m' : Machine K} {t : K} {x d : List K} {n : Nat}
    (h : Course cfg V mem m) (hn : m.s.nState = n) (hl : x.length = n) (hx : minorCb cfg t x m = .ok d m') :
    Course cfg V mem m' ∧ m'.s.nState = n ∧ d.length = n ∧ Rhs cfg V mem t x d := by
  obtain ⟨m1, h1, h2, h3⟩ := minor_ok hx
  obtain ⟨r1, r2, r3⟩ := h.ready.minor hx
  have hfx := (covers_fixed cfg).toCoversC.minorCb t x m
  rw [hx] at hfx
  have hfx : Fixed m m' := hfx
  have hv : m'.vars = V := (vars_fixed hfx).trans h.vars
  have hsol := eval_solution ho hd h.ready h.full (by rw [hl, hn]) h.same h1 h2
  rw [h.vars] at hsol
  have hpk := derivs_packed ho hd r1 h3
  refine ⟨⟨r1, by unfold Full; rw [r2]; exact h.full, hv, fun l hl => ?_, h.quiet⟩, by rw [r2]; exact hn, by rw [r3]; exact hn, m'.w.shown, hsol, ?_⟩
  · have : At cfg l (mem l.id) m' := tri_ok (at_minor ho.proper hl (h.quiet l hl) t x) ⟨h.ready.mid, (h.same l hl).symm⟩ hx
    exact this.2.symm
  · rw [← hv]; exact hpk

theorem exec_by (ho : Owned cfg) (hd : cfg.dbg = true) {V : Vars} {mem : BlkId → Mem K} {n : Nat} {p : StepProg K} (hp : p.Dim n)
    {m m' : Machine K} {r : List K × K} (h : Course cfg V mem m) (hn : m.s.nState = n) (hx : p.exec (minorCb cfg) m = .ok r m') :
    Course cfg V mem m' ∧ m'.s.nState = n ∧ r.1.length = n ∧ p.By (Rhs cfg V mem) r := by
  induction p generalizing m with
  | ret v hh => cases hx; exact ⟨h, hn, hp, rfl⟩
  | call t v k ih =>
    unfold StepProg.exec at hx
    obtain ⟨d, m1, h1, h2⟩ := ok_bind hx
    obtain ⟨c1, c2, c3, c4⟩ := h.minor ho hd hn hp.1 h1
    obtain ⟨i1, i2, i3, i4⟩ := ih d (hp.2 d c3) c1 c2 h2
    exact ⟨i1, i2, i3, d, c4, i4⟩

/-! ### `post_step` -/

theorem countBefore_le (q : K) (ts : List K) : countBefore q ts ≤ ts.length := by
  unfold countBefore
  exact (List.takeWhile_prefix _).length_le

theorem upd_self {α : Type} {f : BlkId → α} {b : BlkId} {a : α} : upd f b a b = a := by simp [upd]

theorem delayPost_stored {b : BlkId} {t life : K} {x : SigId} {w w' : World K} (h : delayPost true b t life x w = .ok () w') :
    ∃ v, w.shown x = some v ∧ w'.mem b = { w.mem b with
      ts := (w.mem b).ts.drop (countBefore (t -. life) (w.mem b).ts) ++ [t],
      xs := (w.mem b).xs.drop (countBefore (t -. life) (w.mem b).ts) ++ [v] } := by
  unfold delayPost at h
  obtain ⟨mm, w1, h1, h2⟩ := ok_bind h
  cases h1
  by_cases hk : (w.mem b).xs.length < countBefore (t -. life) (w.mem b).ts
  · rw [if_pos hk] at h2; cases h2
  rw [if_neg hk] at h2
  obtain ⟨_, w2, h3, h4⟩ := ok_bind h2
  cases h3
  obtain ⟨_, w3, h5, h6⟩ := ok_bind h4
  obtain ⟨_, rfl⟩ := verify_ok h5
  obtain ⟨_, w4, h7, h8⟩ := ok_bind h6
  cases h7
  obtain ⟨v, w5, h9, h10⟩ := ok_bind h8
  obtain ⟨rfl, e⟩ := getv_shown h9
  cases h10
  exact ⟨v, e, upd_self⟩

theorem post_stored {l : Leaf K} {t : K} {w w' : World K} (h : l.post true t w = .ok () w') : l.Stored t w.shown (w.mem l.id) (w'.mem l.id) := by
  rw [post_apply] at h
  have hsh : ({ w with log := .post l.id t :: w.log } : World K).shown = w.shown := rfl
  unfold Leaf.postBody at h
  unfold Leaf.Stored
  cases hk : l.kind with
  | memory x o =>
    rw [hk] at h
    obtain ⟨v, w1, h1, h2⟩ := ok_bind h
    obtain ⟨rfl, e⟩ := getv_shown h1
    obtain ⟨mm, w2, h3, h4⟩ := ok_bind h2
    cases h3
    cases h4
    exact ⟨v, e, upd_self⟩
  | delay life x d i o =>
    rw [hk] at h
    obtain ⟨v, e1, e2⟩ := delayPost_stored h
    obtain ⟨c1, c2⟩ := countBefore_spec (t -. life) (w.mem l.id).ts
    exact ⟨_, v, e1, c1, c2, countBefore_le _ _, e2⟩
  | derivative x o =>
    rw [hk] at h
    unfold derivPost at h
    obtain ⟨mm, w1, h1, h2⟩ := ok_bind h
    cases h1
    obtain ⟨_, w2, h3, h4⟩ := ok_bind h2
    cases h3
    obtain ⟨v, w3, h5, h6⟩ := ok_bind h4
    obtain ⟨rfl, e⟩ := getv_shown h5
    cases h6
    exact ⟨v, e, upd_self⟩
  | integrator x o =>
    rw [hk] at h
    unfold integPost at h
    obtain ⟨a, w1, h1, h2⟩ := ok_bind h
    cases h1
    obtain ⟨_, w2, h3, h4⟩ := ok_bind h2
    obtain ⟨_, rfl⟩ := verify_ok h3
    obtain ⟨v, w3, h5, h6⟩ := ok_bind h4
    obtain ⟨rfl, e⟩ := getv_shown h5
    obtain ⟨mm, w4, h7, h8⟩ := ok_bind h6
    cases h7
    cases h8
    exact ⟨v, e, upd_self⟩
  | trigInt x tr o =>
    rw [hk] at h
    unfold integPost at h
    obtain ⟨a, w1, h1, h2⟩ := ok_bind h
    cases h1
    obtain ⟨_, w2, h3, h4⟩ := ok_bind h2
    obtain ⟨_, rfl⟩ := verify_ok h3
    obtain ⟨v, w3, h5, h6⟩ := ok_bind h4
    obtain ⟨rfl, e⟩ := getv_shown h5
    obtain ⟨mm, w4, h7, h8⟩ := ok_bind h6
    cases h7
    cases h8
    exact ⟨v, e, upd_self⟩
  | custom c =>
    rw [hk] at h
    obtain ⟨mm, w1, h1, h2⟩ := ok_bind h
    cases h1
    obtain ⟨vs, w2, h3, h4⟩ := ok_bind h2
    obtain ⟨rfl, e⟩ := getAll_shows h3
    obtain ⟨u, w3, h5, h6⟩ := ok_bind h4
    obtain ⟨e2, rfl⟩ := liftE_inv h5
    cases h6
    exact ⟨vs, u, e, e2, upd_self⟩
  | _ => rw [hk] at h; cases h; rfl

/-- Resetting to `x` and evaluating at `t` with `post_step` ends a step. -/
theorem eval_committed (ho : Owned cfg) (hd : cfg.dbg = true) {V : Vars} {mem : BlkId → Mem K} {m m1 m' : Machine K} {t : K} {x : List K}
    (h : Course cfg V mem m) (hx : x.length = m.s.nState) (h1 : resetWith cfg x m = .ok () m1) (h2 : processModel cfg t false true m1 = .ok () m') :
    Committed cfg V mem t x m'.w.shown m'.w.mem := by
  have hs := eval_solution ho hd h.ready h.full hx h.same h1 h2
  rw [h.vars] at hs
  refine ⟨hs, fun l hl => ?_⟩
  obtain ⟨w1, w2, m3, g1, g2, g3, g4⟩ := processModel_ok h2
  rw [if_pos rfl] at g4
  obtain ⟨w4, g4, rfl⟩ := g4
  obtain ⟨r1, _⟩ := h.ready.reset h1
  obtain ⟨wa, wb, k1, k2, k3, k4⟩ := postStep_leaf ho.proper g4 hl
  have hm3 : m3.w.mem l.id = mem l.id := by
    have hat : At cfg l (mem l.id) { m1 with w := w2 } := by
      rw [if_neg (by simp)] at g2
      subst g2
      exact tri_ok (at_inputs ho.proper hl (h.quiet l hl) t) (s := m1) (a := ()) ⟨r1.mid, by rw [reset_mem h1]; exact (h.same l hl).symm⟩
        (by unfold inW; rw [g1])
    exact (tri_ok (at_eval ho.proper hl (h.quiet l hl) t) hat g3).2
  rw [hd] at k1
  have := post_stored k1
  rw [k2, hm3] at this
  have e : w4.shown = wa.shown := by
    funext s; unfold World.shown; rw [k3, postStep_sig g4]
  show l.Stored t w4.shown (mem l.id) (w4.mem l.id)
  rw [e, k4]
  exact this

theorem Stored.quiet {l : Leaf K} {t : K} {val : SigId → Option (Val K)} {mem mem' : Mem K} (h : l.Stored t val mem mem') (hq : l.Calm) :
    l.Quiet mem' := by
  unfold Leaf.Stored at h
  unfold Leaf.Calm at hq
  unfold Leaf.Quiet
  cases hk : l.kind <;> rw [hk] at h hq <;> first | trivial | exact hq | skip
  obtain ⟨v, _, rfl⟩ := h
  rfl

theorem Quiet.calm {l : Leaf K} {mem : Mem K} (h : l.Quiet mem) : l.Calm := by
  unfold Leaf.Quiet at h
  unfold Leaf.Calm
  cases hk : l.kind <;> rw [hk] at h <;> first | trivial | exact h

/-- After a step the integrators hold the state. -/
theorem Committed.stands (ho : Owned cfg) {V : Vars} {mem mem' : BlkId → Mem K} {t : K} {x : List K} {val : SigId → Option (Val K)}
    (h : Committed cfg V mem t x val mem') (hv : ∀ s ∈ V.scalars ++ V.arrays, ∃ l ∈ cfg.model.leaves, l.state = some s) : cfg.Stands V mem' x := by
  refine Packed.congr h.solution.state (fun s hs => ?_) (fun _ _ => rfl)
  obtain ⟨l, hl, hls⟩ := hv s hs
  rw [ho.find hl hls]
  have := h.stored l hl
  unfold Leaf.Stored at this
  rcases state_cases hls with ⟨x, hk⟩ | ⟨x, tr, hk⟩ <;>
    (rw [hk] at this; obtain ⟨v, e1, e2⟩ := this; rw [e1]; show some (mem' l.id).value = some v; rw [e2])

theorem Course.integrated (ho : Owned cfg) {V : Vars} {mem : BlkId → Mem K} {m : Machine K} (h : Course cfg V mem m) :
    ∀ s ∈ V.scalars ++ V.arrays, ∃ l ∈ cfg.model.leaves, l.state = some s := by
  rw [← h.vars]
  intro s hs
  obtain ⟨k1, k2⟩ := state_sig h.ready.layout ho.hash hs
  exact ho.integrated s k1 k2

/-- A step begins with the state of the integrators. -/
theorem Course.begin (ho : Owned cfg) {V : Vars} {mem : BlkId → Mem K} {m m' : Machine K} {t : K} {orig x : List K} (h : Course cfg V mem m)
    (hs : cfg.Stands V mem x) (hx : beginStep cfg t m = .ok orig m') : orig = x ∧ Course cfg V mem m' ∧ m'.s.nState = m.s.nState ∧ orig.length = m.s.nState := by
  obtain ⟨r1, r2, r3⟩ := h.ready.begin hx
  have hfx := (covers_fixed cfg).toCoversC.beginStep t m
  rw [hx] at hfx
  have hfx : Fixed m m' := hfx
  refine ⟨?_, ⟨r1, by unfold Full; rw [r2]; exact h.full, (vars_fixed hfx).trans h.vars, fun l hl => ?_, h.quiet⟩, by rw [r2], r3⟩
  · have hb := begin_packed ho h.ready hx
    have hi := h.integrated ho
    rw [← h.vars] at hi hs
    refine packed_unique hb hs (fun s hs => ?_)
    obtain ⟨l, hl, hls⟩ := hi s hs
    unfold Config.startVal
    rw [ho.find hl hls]
    show some (l.start (m.w.mem l.id)) = some (mem l.id).value
    rw [h.same l hl]
    have hq := h.quiet l hl
    unfold Leaf.Quiet at hq
    unfold Leaf.start Leaf.pending
    rcases state_cases hls with ⟨x, hk⟩ | ⟨x, tr, hk⟩
    · rw [hk]; rfl
    · rw [hk] at hq; exact hq.elim
  · have : At cfg l (mem l.id) m' := tri_ok (at_begin ho.proper hl (h.quiet l hl) t) ⟨h.ready.mid, (h.same l hl).symm⟩ hx
    exact this.2.symm

/-- The integrators hold a state vector. -/
theorem Course.start (ho : Owned cfg) {V : Vars} {mem : BlkId → Mem K} {m m' : Machine K} {t : K} {orig : List K} (h : Course cfg V mem m)
    (hx : beginStep cfg t m = .ok orig m') : ∃ x, cfg.Stands V mem x := by
  have hb := begin_packed ho h.ready hx
  have hi := h.integrated ho
  refine ⟨orig, ?_⟩
  rw [← h.vars] at hi ⊢
  refine Packed.congr hb (fun s hs => ?_) (fun _ _ => rfl)
  obtain ⟨l, hl, hls⟩ := hi s hs
  unfold Config.startVal
  rw [ho.find hl hls]
  show some (mem l.id).value = some (l.start (m.w.mem l.id))
  rw [h.same l hl]
  have hq := h.quiet l hl
  unfold Leaf.Quiet at hq
  unfold Leaf.start Leaf.pending
  rcases state_cases hls with ⟨x, hk⟩ | ⟨x, tr, hk⟩
  · rw [hk]; rfl
  · rw [hk] at hq; exact hq.elim

theorem Course.record {V : Vars} {mem : BlkId → Mem K} {m : Machine K} {e : Event K} (h : Course cfg V mem m) : Course cfg V mem (m.record e) :=
  ⟨h.ready.record, h.full, h.vars, h.same, h.quiet⟩

theorem Course.withSv {V : Vars} {mem : BlkId → Mem K} {m : Machine K} {x : List K} (h : Course cfg V mem m) (hx : x.length = m.s.nState) :
    Course cfg V mem (m.withSv x) :=
  ⟨h.ready.withSv hx, h.full, h.vars, h.same, h.quiet⟩

/-- A trial step applies the step formula to the right-hand side. -/
theorem Course.trial (ho : Owned cfg) (hd : cfg.dbg = true) (hdim : ∀ st, cfg.stepper = some st → Stepper.Dim st) {V : Vars} {mem : BlkId → Mem K}
    {m m2 : Machine K} {t1 t2 : K} {x : List K} {r : List K × K} (h : Course cfg V mem m) (hs : cfg.Stands V mem x) (ht : Trial cfg t1 t2 m r m2) :
    Course cfg V mem m2 ∧ m2.s.nState = m.s.nState ∧ r.1.length = m.s.nState ∧
      ∃ st, cfg.stepper = some st ∧ (st t1 x t2).By (Rhs cfg V mem) r := by
  obtain ⟨orig, m1, st, h1, h2, h3⟩ := ht.ex
  obtain ⟨rfl, c1, c2, c3⟩ := h.begin ho hs h1
  have hdm : (st t1 orig t2).Dim m.s.nState := by rw [← c3]; exact hdim st h2 t1 t2 orig
  obtain ⟨i1, i2, i3, i4⟩ := exec_by ho hd hdm (c1.record (e := .trial t1 t2)) c2 h3
  exact ⟨i1, i2, i3, st, h2, i4⟩

/-! ### The steps of a call of `run` -/

theorem After.move {α : Type} {x : MM K α} (hx : Moves (fun m m' => Logs NoStep m.w m'.w) x) {L : List (Event K)} {es : List (StepEv K)}
    {m m' : Machine K} {a : α} (h : After L es m) (h1 : x m = .ok a m') : After L es m' := tri_ok (Moves.after hx L es) h h1

theorem After.trial {L : List (Event K)} {es : List (StepEv K)} {m m2 : Machine K} {t1 t2 : K} {r : List K × K} (h : After L es m)
    (ht : Trial cfg t1 t2 m r m2) : After L (es ++ [.trial t1 t2]) m2 := by
  obtain ⟨orig, m1, st, h1, h2, h3⟩ := ht.ex
  have a1 := h.move ((covers_noStep cfg).beginStep t1) h1
  have a2 : After L (es ++ [.trial t1 t2]) (m1.record (.trial t1 t2)) := a1.step (e := .trial t1 t2) rfl
  have := (covers_noStep cfg).preo
  exact a2.move (Moves.exec (fun t v => (covers_noStep cfg).minorCb t v) _) h3

theorem Course.commit (ho : Owned cfg) (hd : cfg.dbg = true) {V : Vars} {mem : BlkId → Mem K} {m m1 m' : Machine K} {t : K} {x : List K}
    (h : Course cfg V mem m) (hx : x.length = m.s.nState) (h1 : resetWith cfg x m = .ok () m1) (h2 : processModel cfg t false true m1 = .ok () m') :
    Course cfg V m'.w.mem m' ∧ m'.s.nState = m.s.nState ∧ Committed cfg V mem t x m'.w.shown m'.w.mem ∧ cfg.Stands V m'.w.mem x := by
  have hc := eval_committed ho hd h hx h1 h2
  obtain ⟨r1, e1⟩ := h.ready.reset h1
  obtain ⟨r2, e2⟩ := r1.process h2
  have f1 := (covers_fixed cfg).reset x m
  have f2 := (covers_fixed cfg).processModel t false true m1
  rw [h1] at f1
  rw [h2] at f2
  have f1 : Fixed m m1 := f1
  have f2 : Fixed m1 m' := f2
  refine ⟨⟨r2, by unfold Full; rw [e2, e1]; exact h.full, (vars_fixed f2).trans ((vars_fixed f1).trans h.vars), fun _ _ => rfl,
    fun l hl => Stored.quiet (hc.stored l hl) (Quiet.calm (h.quiet l hl))⟩, by rw [e2, e1], hc, hc.stands ho (h.integrated ho)⟩

theorem subrun_evolves (ho : Owned cfg) (hd : cfg.dbg = true) (hdim : ∀ st, cfg.stepper = some st → Stepper.Dim st) {V : Vars} {st : Stepper K}
    (hst : cfg.stepper = some st) {t minH maxH t1 t2 : K} {f : Bool} {m m1 m' : Machine K} (h : SubRun cfg t minH maxH t1 t2 f m m1)
    (hf : Final cfg t m1 m') {mem : BlkId → Mem K} {x : List K} {L : List (Event K)} {es : List (StepEv K)} (hc : Course cfg V mem m)
    (hs : cfg.Stands V mem x) (h0 : 0 < m.s.nState) (ha : After L es m) (hlt : (t1 <. t) = true) :
    ∃ (es' : List (StepEv K)) (y : List K), After L (es ++ es') m' ∧ m'.s.sv = some y ∧
      Evolves cfg V st t mem t1 x (es'.filterMap StepEv.accept?) y m'.w.shown m'.w.mem := by
  induction h generalizing mem x es with
  | stop h => rw [hlt] at h; cases h
  | @reject t1 t2 f m m2 m1 r h1 h2 h3 h4 ih =>
    obtain ⟨c1, c2, c3, st', e, _⟩ := hc.trial ho hd hdim hs h2
    have a1 := ha.trial h2
    have a2 : After L (es ++ [.trial t1 t2]) (m2.withSv r.1) := a1
    obtain ⟨es', y, i1, i2, i3⟩ := ih hf (c1.withSv (by rw [c3, c2])) hs (by rw [show (m2.withSv r.1).s.nState = m2.s.nState from rfl, c2]; exact h0) a2 hlt
    refine ⟨.trial t1 t2 :: es', y, ?_, i2, ?_⟩
    · rw [← List.append_cons] at i1; exact i1
    · exact i3
  | @accept t1 t2 f m m2 m3 m1 r h1 h2 h3 h4 h5 ih =>
    obtain ⟨c1, c2, c3, st', e, hby⟩ := hc.trial ho hd hdim hs h2
    rw [hst] at e
    cases e
    have a1 := ha.trial h2
    have a1 : After L (es ++ [.trial t1 t2]) (m2.withSv r.1) := a1
    have a2 : After L ((es ++ [.trial t1 t2]) ++ [.accept t1 t2]) ((m2.withSv r.1).record (.accept t1 t2)) := a1.step (e := .accept t1 t2) rfl
    have c4 : Course cfg V mem ((m2.withSv r.1).record (.accept t1 t2)) := (c1.withSv (by rw [c3, c2])).record
    have hn4 : ((m2.withSv r.1).record (.accept t1 t2)).s.nState = m.s.nState := c2
    unfold MidEval at h4
    by_cases hu : (t2 <. t) = true
    · rw [if_pos hu] at h4
      obtain ⟨m4, g1, g2⟩ := h4
      obtain ⟨k1, k2, k3, k4⟩ := c4.commit ho hd (by rw [c3, hn4]) g1 g2
      have a3 := (a2.move ((covers_noStep cfg).reset _) g1).move ((covers_noStep cfg).processModel _ _ _) g2
      obtain ⟨es', y, i1, i2, i3⟩ := ih hf k1 k4 (by rw [k2, hn4]; exact h0) a3 hu
      refine ⟨.trial t1 t2 :: .accept t1 t2 :: es', y, ?_, i2, ?_⟩
      · simpa using i1
      · exact .step hlt hu hby k3 i3
    · rw [if_neg hu] at h4
      subst h4
      have hu : (t2 <. t) = false := by simpa using hu
      clear ih
      generalize fmin (t2 +. fmax minH (fmin r.2 maxH)) t = u' at h5
      generalize hg : (m2.withSv r.1).record (.accept t1 t2) = m3 at h5
      cases h5 with
      | stop _ =>
        subst hg
        obtain ⟨x', ma, mb, f1, f2, f3, f4⟩ := hf.ex
        cases f1
        rw [show decide (r.1.length = 0) = false from decide_eq_false (by rw [c3]; omega)] at f3
        obtain ⟨k1, k2, k3, k4⟩ := c4.commit ho hd (by rw [c3, hn4]) f2 f3
        have a3 := (a2.move ((covers_noStep cfg).reset _) f2).move ((covers_noStep cfg).processModel _ _ _) f3
        have e1 : mb.s.sv = some r.1 := by
          obtain ⟨q1, q2⟩ := c4.ready.reset f2
          obtain ⟨_, q3⟩ := q1.process f3
          rw [q3, q2]; rfl
        subst f4
        refine ⟨[.trial t1 t2, .accept t1 t2], r.1, ?_, e1, ?_⟩
        · have a4 : After L (es ++ [.trial t1 t2, .accept t1 t2]) mb := by simpa using a3
          exact a4
        · exact .last hlt hu hby k3
      | reject g1 _ _ _ => rw [hu] at g1; cases g1
      | accept g1 _ _ _ _ => rw [hu] at g1; cases g1

theorem Evolves.stands (ho : Owned cfg) {V : Vars} {st : Stepper K} {t s : K} {mem mem' : BlkId → Mem K} {x y : List K} {steps : List (K × K)}
    {val : SigId → Option (Val K)} (h : Evolves cfg V st t mem s x steps y val mem')
    (hv : ∀ s ∈ V.scalars ++ V.arrays, ∃ l ∈ cfg.model.leaves, l.state = some s) : cfg.Stands V mem' y := by
  induction h with
  | last _ _ _ h => exact h.stands ho hv
  | step _ _ _ _ _ ih => exact ih

/-! ### Simulations -/

theorem Ongoing.once {m : Machine K} (h : Ongoing cfg m) : Once cfg m ∧ m.s.initialized = true := by
  induction h with
  | @init m w t0 t h1 h2 hx =>
    have h3 : Once cfg (stateOf (Call.exec cfg (.init t) { w := w, s := { tPrev := t0 } })) := .call _ (.new w t0 h1 h2) (fun _ _ => rfl)
    have h4 := C25.simInit_initialized cfg t { w := w, s := { tPrev := t0 } }
    rw [hx] at h3
    have hx : simInit cfg t { w := w, s := { tPrev := t0 } } = .ok () m := hx
    rw [hx] at h4
    exact ⟨h3, h4⟩
  | @run m m' fuel t minH maxH _ hx ih =>
    have h3 : Once cfg (stateOf (Call.exec cfg (.run fuel t minH maxH) m)) := .call _ ih.1 (fun _ e => by cases e)
    rw [hx] at h3
    refine ⟨h3, ?_⟩
    have := (covers_fixed cfg).run fuel t minH maxH m ih.2
    have hx : Pooya.run cfg fuel t minH maxH m = .ok () m' := hx
    rw [hx] at this
    exact this.initialized.trans ih.2
  | user sig _ hs ih => exact ⟨.user sig ih.1 hs, ih.2⟩

/-- The last evaluation of a call. -/
theorem Ongoing.last (hp : cfg.model.Proper) {m : Machine K} (h : Ongoing cfg m) : Full cfg m ∧
    ∃ (w2 w : World K) (t : K), cfg.model.postStep cfg.dbg t w2 = .ok () w ∧ m.w.mem = w.mem := by
  induction h with
  | @init m w t0 t h1 h2 hx =>
    have hx : simInit cfg t { w := w, s := { tPrev := t0 } } = .ok () m := hx
    obtain ⟨m1, g1, g2, g3, _⟩ := init_last hp (Mid.new (cfg := cfg) w t0 h1) hx
    obtain ⟨w1, w2, m3, _, _, _, k4⟩ := processModel_ok g3
    rw [if_pos rfl] at k4
    obtain ⟨w4, k4, rfl⟩ := k4
    exact ⟨full_init hp hx, _, _, t, k4, rfl⟩
  | @run m m' fuel t minH maxH ho hx ih =>
    have hi := ho.once.2
    have hx : Pooya.run cfg fuel t minH maxH m = .ok () m' := hx
    refine ⟨full_run hi ih.1 hx, ?_⟩
    have key : ∃ ma, Final cfg t ma m' := by
      rcases run_ok hi hx with ⟨_, h⟩ | ⟨_, m1, _, h⟩ <;> exact ⟨_, h⟩
    obtain ⟨ma, hf⟩ := key
    obtain ⟨x, m1, m2, _, _, f3, f4⟩ := hf.ex
    obtain ⟨w1, w2, m3, _, _, _, k4⟩ := processModel_ok f3
    rw [if_pos rfl] at k4
    obtain ⟨w4, k4, rfl⟩ := k4
    subst f4
    exact ⟨_, _, t, k4, rfl⟩
  | user sig _ hs ih => exact ih

theorem Ongoing.course (ho : Owned cfg) (hd : cfg.dbg = true) (hdim : ∀ st, cfg.stepper = some st → Stepper.Dim st)
    (hc : ∀ l ∈ cfg.model.leaves, l.Calm) {m : Machine K} (h : Ongoing cfg m) : Course cfg m.vars m.w.mem m := by
  obtain ⟨h1, h2⟩ := h.once
  obtain ⟨h3, w2, w, t, h4, h5⟩ := h.last ho.proper
  refine ⟨once_ready hdim h1 h2, h3, rfl, fun _ _ => rfl, fun l hl => ?_⟩
  obtain ⟨wa, wb, k1, k2, k3, k4⟩ := postStep_leaf ho.proper h4 hl
  rw [hd] at k1
  have := Stored.quiet (post_stored k1) (hc l hl)
  rw [h5, k4]; exact this

/-! ### The right-hand side is a function -/

theorem Given.some {val : SigId → Option (Val K)} {ss : List SigId} {vs : List (Option (Val K))} (h : Given val ss vs) (hl : ss.length ≤ vs.length)
    (hn : none ∉ vs) {s : SigId} (hs : s ∈ ss) : ∃ v, val s = some v := by
  obtain ⟨i, hi, e⟩ := List.mem_iff_getElem.1 hs
  have hi' : i < vs.length := by omega
  cases hv : vs[i] with
  | none => exact (hn (by rw [← hv]; exact List.getElem_mem hi')).elim
  | some v => exact ⟨v, h i s v (by rw [List.getElem?_eq_getElem hi, e]) (by rw [List.getElem?_eq_getElem hi', hv])⟩

theorem Solved.outs {l : Leaf K} (hc : l.Complete) {t : K} {mem : Mem K} {val : SigId → Option (Val K)} (h : l.Solved t mem val) {s : SigId}
    (hs : s ∈ l.outs) : ∃ v, val s = some v := by
  unfold Leaf.Solved at h
  unfold Leaf.Complete at hc
  unfold Leaf.outs at hs
  cases hk : l.kind with
  | const v o => rw [hk] at h hs; cases List.mem_singleton.1 hs; exact ⟨_, h⟩
  | source f o => rw [hk] at h hs; cases List.mem_singleton.1 hs; obtain ⟨v, _, e⟩ := h; exact ⟨_, e⟩
  | sources f os => rw [hk] at h hs hc; exact h.2.some (hc t).1 (hc t).2 hs
  | gain k x o => rw [hk] at h hs; cases List.mem_singleton.1 hs; obtain ⟨_, _, _, _, e⟩ := h; exact ⟨_, e⟩
  | add i x o => rw [hk] at h hs; cases List.mem_singleton.1 hs; obtain ⟨_, _, e⟩ := h; exact ⟨_, e⟩
  | multiply i x o => rw [hk] at h hs; cases List.mem_singleton.1 hs; obtain ⟨_, _, e⟩ := h; exact ⟨_, e⟩
  | subtract a b o => rw [hk] at h hs; cases List.mem_singleton.1 hs; obtain ⟨_, _, _, _, _, _, e⟩ := h; exact ⟨_, e⟩
  | divide a b o => rw [hk] at h hs; cases List.mem_singleton.1 hs; obtain ⟨_, _, _, _, _, _, e⟩ := h; exact ⟨_, e⟩
  | pipe x o => rw [hk] at h hs; cases List.mem_singleton.1 hs; obtain ⟨_, _, e⟩ := h; exact ⟨_, e⟩
  | memory x o => rw [hk] at h hs; cases List.mem_singleton.1 hs; exact ⟨_, h⟩
  | delay a b d i o =>
    rw [hk] at h hs; cases List.mem_singleton.1 hs
    dsimp only at h
    split at h
    · obtain ⟨_, _, e⟩ := h; exact ⟨_, e⟩
    · obtain ⟨_, _, _, e, _⟩ := h; exact ⟨_, e⟩
  | derivative x o =>
    rw [hk] at h hs; cases List.mem_singleton.1 hs
    dsimp only at h
    split at h
    · exact ⟨_, h⟩
    · obtain ⟨_, _, h⟩ := h
      split at h
      · exact ⟨_, h⟩
      · obtain ⟨_, _, _, _, _, _, e⟩ := h; exact ⟨_, e⟩
  | integrator a b => rw [hk] at hs; cases hs
  | trigInt a b c => rw [hk] at hs; cases hs
  | siso f x o => rw [hk] at h hs; cases List.mem_singleton.1 hs; obtain ⟨_, _, _, _, e⟩ := h; exact ⟨_, e⟩
  | so f x o => rw [hk] at h hs; cases List.mem_singleton.1 hs; obtain ⟨_, _, _, _, e⟩ := h; exact ⟨_, e⟩
  | func f rs os => rw [hk] at h hs hc; obtain ⟨vs, _, h1, h2⟩ := h; exact h2.some (hc t vs h1).1 (hc t vs h1).2 hs
  | builder => rw [hk] at hs; cases hs
  | custom c => rw [hk] at h hs hc; obtain ⟨vs, r, _, h1, h2⟩ := h; exact h2.some (hc _ _ _ _ h1).1 (hc _ _ _ _ h1).2 hs

theorem Packed.some {val : SigId → Option (Val K)} {size : SigId → Nat} {ss sa : List SigId} {x : List K} (h : Packed val size ss sa x) {s : SigId}
    (hs : s ∈ ss ++ sa) : ∃ v, val s = some v := by
  obtain ⟨a, b, h1, h2, h3⟩ := h
  clear h3
  rcases List.mem_append.1 hs with hs | hs
  · clear h2
    induction h1 with
    | nil => cases hs
    | cons e _ ih =>
      rcases List.mem_cons.1 hs with rfl | hs
      · exact ⟨_, e⟩
      · exact ih (by simp [hs]) hs
  · clear h1
    induction h2 with
    | nil => cases hs
    | cons e _ ih =>
      rcases List.mem_cons.1 hs with rfl | hs
      · exact ⟨_, e.1⟩
      · exact ih (by simp [hs]) hs

/-- Two solutions at the same time and state. -/
theorem Solution.unique {V : Vars} (he : Explicit cfg V) (hc : ∀ l ∈ cfg.model.leaves, l.Complete) {mem : BlkId → Mem K} {t : K} {x : List K}
    {v1 v2 : SigId → Option (Val K)} (h1 : Solution cfg V mem t x v1) (h2 : Solution cfg V mem t x v2) :
    (∀ l ∈ cfg.model.leaves, l.Solved t (mem l.id) v1) ∧ (∀ l ∈ cfg.model.leaves, ∀ s ∈ l.outs, v1 s = v2 s) ∧
      (∀ s ∈ V.scalars ++ V.arrays, v1 s = v2 s) ∧ ∀ s ∈ (cfg.inputVals t).map Prod.fst, v1 s = v2 s := by
  obtain ⟨rank, hrk⟩ := he.ranked
  have hst : ∀ s ∈ V.scalars ++ V.arrays, v1 s = v2 s := packed_inj h1.state h2.state
  have hin : ∀ s ∈ (cfg.inputVals t).map Prod.fst, v1 s = v2 s := fun s hs => by
    obtain ⟨p, hp, rfl⟩ := List.mem_map.1 hs
    rw [h1.input p hp, h2.input p hp]
  have hin' : ∀ s ∈ (cfg.inputVals t).map Prod.fst, ∃ v, v1 s = some v := fun s hs => by
    obtain ⟨p, hp, rfl⟩ := List.mem_map.1 hs
    exact ⟨_, h1.input p hp⟩
  have key : ∀ (n : Nat) (l : Leaf K), l ∈ cfg.model.leaves → rank l.id < n →
      l.Solved t (mem l.id) v1 ∧ l.Solved t (mem l.id) v2 ∧ ∀ s ∈ l.outs, v1 s = v2 s := by
    intro n
    induction n with
    | zero => intro l _ h; exact absurd h (Nat.not_lt_zero _)
    | succ n ih =>
      intro l hl hr
      have hreq : ∀ s f, (s, f) ∈ l.links → f.isRequired = true → (∃ v, v1 s = some v) ∧ v1 s = v2 s := by
        intro s f g1 g2
        rcases hrk l hl s f g1 g2 with g | g | ⟨l', hl', g, g'⟩
        · exact ⟨hin' s (g t), hin s (g t)⟩
        · exact ⟨h1.state.some g, hst s g⟩
        · obtain ⟨i1, _, i2⟩ := ih l' hl' (by exact Nat.lt_of_lt_of_le g' (Nat.le_of_lt_succ hr))
          exact ⟨Solved.outs (hc l' hl') i1 g, i2 s g⟩
      have s1 := h1.block l hl (fun s f g1 g2 => (hreq s f g1 g2).1)
      have s2 := h2.block l hl (fun s f g1 g2 => by rw [← (hreq s f g1 g2).2]; exact (hreq s f g1 g2).1)
      refine ⟨s1, s2, fun s hs => Solved.det (hc l hl) s1 s2 (fun r hr => ?_) hs⟩
      obtain ⟨f, g1, g2⟩ := he.reads l hl r hr
      exact (hreq r f g1 g2).2
  exact ⟨fun l hl => (key _ l hl (Nat.lt_succ_self _)).1, fun l hl => (key _ l hl (Nat.lt_succ_self _)).2.2, hst, hin⟩

theorem Rhs.unique {V : Vars} (he : Explicit cfg V) (hc : ∀ l ∈ cfg.model.leaves, l.Complete) {mem : BlkId → Mem K} {t : K} {x d1 d2 : List K}
    (h1 : Rhs cfg V mem t x d1) (h2 : Rhs cfg V mem t x d2) : d1 = d2 := by
  obtain ⟨v1, s1, p1⟩ := h1
  obtain ⟨v2, s2, p2⟩ := h2
  obtain ⟨_, u1, u2, u3⟩ := s1.unique he hc s2
  refine packed_unique p1 p2 (fun s hs => ?_)
  cases hd : cfg.deriv s with
  | none => rfl
  | some d =>
    show v1 d = v2 d
    rcases he.derivs s hs d hd with g | g | ⟨l, hl, g⟩
    · exact u3 d (g t)
    · exact u2 d g
    · exact u1 l hl d g

omit [Arith K] in
theorem By.exec {R : K → List K → List K → Prop} {f : K → List K → List K} (hR : ∀ t x d, R t x d → d = f t x) {p : StepProg K} {r : List K × K}
    (h : p.By R r) : r = p.exec (m := Id) f := by
  induction p with
  | ret v hh => exact h
  | call t v k ih =>
    obtain ⟨d, h1, h2⟩ := h
    have := hR _ _ _ h1
    subst this
    exact ih _ h2

theorem Solution.algebraic (ha : ∀ l ∈ cfg.model.leaves, l.Algebraic) {V : Vars} {mem mem' : BlkId → Mem K} {t : K} {x : List K}
    {val : SigId → Option (Val K)} (h : Solution cfg V mem t x val) : Solution cfg V mem' t x val :=
  ⟨h.input, h.state, fun l hl hr => Solved.algebraic (ha l hl) (h.block l hl hr)⟩

end Pooya
