import Verif.Proof.Reset
import Verif.Proof.Restrict

/-! # C79: diagrams with `TriggeredIntegrator`s follow their equations and their resets -/

namespace Pooya.C79

open Pooya C60 C69

set_option linter.unusedSectionVars false

section
variable {K : Type} [Arith K]

variable {cfg : Config K} {ps : List (Wire K)} {ty : SigId → Ty} {rank : BlkId → Nat} {V : Vars} {minH maxH t u t1 t2 : K} {m m' : Machine K} {mem mem' : BlkId → Mem K}
  {val val' : SigId → Option (Val K)}

/-- C79 for one call of `run` to a later time, in any arithmetic: it tries and accepts the steps of a course with resets. -/
theorem C79_run (cfg : Config K) (hd : cfg.dbg = true) (ho : Owned cfg) (st : Stepper K) (hst : cfg.stepper = some st) (hdim : Stepper.Dim st)
    (hc : ∀ l ∈ cfg.model.leaves, l.Tame) (m m' : Machine K) (hm : Ongoing cfg m)
    (hh : ∀ l ∈ cfg.model.leaves, ∀ o, l.state = some o → o ∈ m.vars.scalars ++ m.vars.arrays) (h0 : 0 < m.s.nState) (fuel : Nat) (t minH maxH : K)
    (hlt : (m.s.tPrev <. t) = true) (hne : (t ==. m.s.tPrev) = false) (hx : Call.exec cfg (.run fuel t minH maxH) m = .ok () m') :
    m'.s.tPrev = t ∧ ∃ (new : List (Event K)) (y : List K), m'.w.log = new ++ m.w.log ∧
      Resets cfg m.vars st minH maxH t m.w.mem m.s.tPrev t false (stepsIn new) y m'.w.shown m'.w.mem := by
  have hr := hm.ride ho hd (fun st' e => by rw [hst] at e; cases e; exact hdim) hc hh
  obtain ⟨_, hi⟩ := hm.once
  have hx : run cfg fuel t minH maxH m = .ok () m' := hx
  rcases run_ok hi hx with ⟨e, _⟩ | ⟨_, m1, ha, hf⟩
  · rw [hr.ready.sized.1] at e; omega
  refine ⟨?_, ?_⟩
  · obtain ⟨_, _, _, _, _, _, e⟩ := hf.ex
    rw [e]
  cases ha with
  | again _ e _ => rw [hne] at e; cases e
  | steps _ _ hs =>
    obtain ⟨es, y, a1, a2⟩ := subrun_resets ho hd hst hdim hs hf hr h0 (After.refl m) hlt
    obtain ⟨new, b1, b2⟩ := a1
    exact ⟨new, y, b1, b2 ▸ a2⟩

/-- C79 for calls of `run`, in any arithmetic. -/
theorem C79_runs (cfg : Config K) (hd : cfg.dbg = true) (ho : Owned cfg) (st : Stepper K) (hst : cfg.stepper = some st) (hdim : Stepper.Dim st)
    (hc : ∀ l ∈ cfg.model.leaves, l.Tame) (ts : List K) (m m' : Machine K) (hm : Ongoing cfg m)
    (hh : ∀ l ∈ cfg.model.leaves, ∀ o, l.state = some o → o ∈ m.vars.scalars ++ m.vars.arrays) (h0 : 0 < m.s.nState) (minH maxH : K)
    (hts : (m.s.tPrev :: ts).IsChain fun a b => (a <. b) = true ∧ (b ==. a) = false) (hx : RunsTo cfg minH maxH m ts m') :
    ∃ new, m'.w.log = new ++ m.w.log ∧ ResetsTo cfg m.vars st minH maxH m.w.mem m.w.shown m.s.tPrev ts (stepsIn new) m'.w.mem m'.w.shown := by
  induction ts generalizing m with
  | nil => cases hx; exact ⟨[], rfl, .nil⟩
  | cons u us ih =>
    cases hx with
    | @cons _ m1 _ _ _ fuel g1 g2 =>
      obtain ⟨⟨k1, k2⟩, k3⟩ := List.isChain_cons_cons.1 hts
      obtain ⟨e, new, y, e1, e2⟩ := C79_run cfg hd ho st hst hdim hc m m1 hm hh h0 fuel u minH maxH k1 k2 g1
      have hfx := fixed_run hm.once.2 g1
      have hv : m1.vars = m.vars := vars_fixed hfx
      obtain ⟨new', e3, e4⟩ := ih m1 (.run _ _ _ _ hm g1) (by rw [hv]; exact hh) (by rw [hfx.nState]; exact h0) (by rw [e]; exact k3) g2
      refine ⟨new' ++ new, by rw [e3, e1, List.append_assoc], ?_⟩
      rw [stepsIn_append]
      rw [hv, e] at e4
      exact .cons e2 e4

/-! ## Closed diagrams -/

/-- What a connected `TriggeredIntegrator` requires. -/
theorem trig_requires {p : Wire K} {vt : VTy} (ho : p.obj = .trigInt vt) {d d' : Derivs} {l : Leaf K} (h : p.connect true d = .ok (l, d')) : l.Trig := by
  obtain ⟨b, st, h1, h2, -, h4, -⟩ := C58.inv (fun a b c e f he => by rw [ho] at he; cases he) h
  rw [ho] at h1 h2
  have hreq := fun s f hs hr => cls_requires (.inl rfl) h1 (s := s) (f := f) hs hr
  obtain ⟨q1, q2⟩ := cls_types (.inl rfl) h1
  have dv := cls_derivs h1
  have hp := (cls_ports h1).1
  obtain ⟨pid, obj, ibus, obus⟩ := p
  obtain ⟨ins, out⟩ := b
  dsimp only at h1 h2 hreq q1 q2 dv hp
  rcases ins with _ | ⟨x, _ | ⟨tr, _ | ⟨y, xs⟩⟩⟩ <;> rcases out with _ | o <;> simp only [Make.kind, reduceCtorEq, Except.ok.injEq] at h2
  refine ⟨x, tr, o, h2.symm, ?_⟩
  rintro s ⟨f, hf, hr⟩
  rcases hreq s f (h4 ▸ hf) hr with e | ⟨k, m0⟩
  · cases e; exact .inr rfl
  left
  obtain ⟨x', tr', o', e, j⟩ := dv
  cases e
  obtain ⟨⟨k1, s1⟩, m1, e1, t1⟩ := q1.2.1
  obtain ⟨t', _, k', _, m2, hf⟩ := j.types
  have h3 : (ibus.length = 2) := hp 2 rfl
  have e1 : Signal.id s1 = tr := e1
  subst e1
  cases t1 with
  | bool tr =>
  match ibus, h3 with
  | [a, b], _ =>
    simp only [List.mem_cons, List.not_mem_nil, or_false] at m0 m1 m2
    have hd : ∀ c, (k1, Signal.val tr .bool) = c → (k', Signal.val x t') = c → False := by
      rintro c rfl h
      cases h; exact hf
    have hd2 : ∀ c, (k, Signal.val s .bool) = c → (k', Signal.val x t') = c → False := by
      rintro c rfl h
      cases h; exact hf
    have he : ∀ c, (k1, Signal.val tr .bool) = c → (k, Signal.val s .bool) = c → s = tr := by
      rintro c rfl h
      cases h; rfl
    rcases m1 with m1 | m1 <;> rcases m2 with m2 | m2 <;> rcases m0 with m0 | m0 <;>
      first | exact he _ m1 m0 | exact (hd _ m1 m2).elim | exact (hd2 _ m0 m2).elim

theorem trig_takes {p : Wire K} {vt : VTy} (ho : p.obj = .trigInt vt) {d d' : Derivs} {l : Leaf K} (h : p.connect true d = .ok (l, d')) {x tr o : SigId}
    (hk : l.kind = .trigInt x tr o) : p.Takes tr := by
  obtain ⟨b, st, h1, h2, -, h4, -⟩ := C58.inv (fun a b c e f he => by rw [ho] at he; cases he) h
  rw [ho] at h1 h2
  obtain ⟨q1, q2⟩ := cls_types (.inl rfl) h1
  obtain ⟨pid, obj, ibus, obus⟩ := p
  obtain ⟨ins, out⟩ := b
  dsimp only at h1 h2 q1 q2
  rcases ins with _ | ⟨x, _ | ⟨tr, _ | ⟨y, xs⟩⟩⟩ <;> rcases out with _ | o <;> simp only [Make.kind, reduceCtorEq, Except.ok.injEq] at h2
  rw [hk] at h2
  cases h2
  obtain ⟨⟨k1, s1⟩, m1, e1, t1⟩ := q1.2.1
  have e1 : Signal.id s1 = _ := e1
  subst e1
  cases t1 with
  | bool tr => exact ⟨k1, _, m1⟩

/-- A block with a trigger was made as one. -/
theorem trig_wire (h : cfg.Sealed ps ty rank) {l : Leaf K} (hl : l ∈ cfg.model.leaves) {x tr o : SigId} (hk : l.kind = .trigInt x tr o) :
    ∃ p ∈ ps, ∃ vt d d', p.obj = .trigInt vt ∧ p.connect true d = .ok (l, d') := by
  obtain ⟨ls, h1, h2⟩ := h.assembled
  obtain ⟨p, hp, d1, d2, e⟩ := C58.all_mem h1 l (h2.mem_iff.1 hl)
  rw [h.dbg] at e
  refine ⟨p, hp, ?_⟩
  have hcu : ∀ a b c e f, p.obj ≠ .custom a b c e f := by
    intro a b c e f he
    rcases (h.sane p hp).2.2 with ⟨n, _, k, _⟩ | ⟨k, _⟩ <;> rw [he] at k <;> exact k.elim
  obtain ⟨b, s, _, k, _⟩ := C58.inv hcu e
  rw [hk] at k
  unfold Make.kind at k
  split at k <;> first
    | (cases k; done)
    | (rename_i vt _ _ _ he _; exact ⟨vt, d1, d2, he, e⟩)
    | (split at k <;> cases k)

theorem tame_leaf (h : cfg.Sealed ps ty rank) : ∀ l ∈ cfg.model.leaves, l.Tame := by
  intro l hl
  obtain ⟨q, hq, hf⟩ := C59.leaf_wire h hl
  unfold Leaf.Tame
  by_cases hk : ∃ x tr o, l.kind = .trigInt x tr o
  · right
    obtain ⟨x, tr, o, hk⟩ := hk
    obtain ⟨p, hp, vt, d1, d2, e', e⟩ := trig_wire h hl hk
    obtain ⟨x, tr, o, k1, k2⟩ := trig_requires e' e
    exact ⟨x, tr, o, k1, fun s f a b => k2 s ⟨f, a, b⟩⟩
  · left
    unfold Leaf.Calm
    cases e : l.kind <;> first | trivial | (exact (hk ⟨_, _, _, e⟩).elim) | (exact (hf.code _ e).elim)

/-! ## One course -/

theorem vals_unique (h : cfg.Sealed ps ty rank) (hV : ∀ s, s ∈ V.scalars ++ V.arrays ↔ ∃ p ∈ ps, p.obj.isState = true ∧ p.Gives s) {x : List K}
    (hm : ∀ l ∈ cfg.model.leaves, mem l.id = mem' l.id) (h1 : Solution cfg V mem t x val) (h2 : Solution cfg V mem' t x val') :
    ∀ s, (∃ p ∈ ps, p.Takes s ∨ p.Gives s) → val s = val' s := by
  have hp := C59.C59_complete cfg ps ty rank h
  obtain ⟨_, u1, u2, u3⟩ := (solution_mem hm h1).unique (explicit_sealed h hV) hp.complete h2
  intro s hs
  rcases sourced h hV hs with g | g | ⟨l, hl, g⟩
  · exact u3 s (g t)
  · exact u2 s g
  · exact u1 l hl s g

theorem noted_unique (h : cfg.Sealed ps ty rank) {l : Leaf K} (hl : l ∈ cfg.model.leaves) (hv : ∀ s, (∃ p ∈ ps, p.Takes s ∨ p.Gives s) → val s = val' s) (a : Mem K) :
    l.noted val a = l.noted val' a := by
  cases hk : l.kind with
  | trigInt x tr o =>
    obtain ⟨p, hp, vt, d1, d2, e', e⟩ := trig_wire h hl hk
    have := hv tr ⟨p, hp, .inl (trig_takes e' e hk)⟩
    simp only [Leaf.noted, hk, isSet, this]
  | _ => simp only [Leaf.noted, hk]

theorem stage_unique (h : cfg.Sealed ps ty rank) (hV : ∀ s, s ∈ V.scalars ++ V.arrays ↔ ∃ p ∈ ps, p.obj.isState = true ∧ p.Gives s) {x d d' : List K}
    {m1 m2 : BlkId → Mem K} (hm : ∀ l ∈ cfg.model.leaves, mem l.id = mem' l.id) (h1 : Stage cfg V mem t x d m1) (h2 : Stage cfg V mem' t x d' m2) :
    d = d' ∧ ∀ l ∈ cfg.model.leaves, m1 l.id = m2 l.id := by
  have hp := C59.C59_complete cfg ps ty rank h
  obtain ⟨v1, a1, a2, a3⟩ := h1
  obtain ⟨v2, b1, b2, b3⟩ := h2
  refine ⟨Rhs.unique (explicit_sealed h hV) hp.complete (rhs_mem hm ⟨v1, a1, a2⟩) ⟨v2, b1, b2⟩, fun l hl => ?_⟩
  rw [a3 l hl, b3 l hl, hm l hl]
  exact noted_unique h hl (vals_unique h hV hm a1 b1) _

theorem along_unique (h : cfg.Sealed ps ty rank) (hV : ∀ s, s ∈ V.scalars ++ V.arrays ↔ ∃ p ∈ ps, p.obj.isState = true ∧ p.Gives s) {p : StepProg K} {r r' : List K × K}
    {m1 m2 : BlkId → Mem K} (hm : ∀ l ∈ cfg.model.leaves, mem l.id = mem' l.id) (h1 : p.Along (Stage cfg V) mem r m1) (h2 : p.Along (Stage cfg V) mem' r' m2) :
    r = r' ∧ ∀ l ∈ cfg.model.leaves, m1 l.id = m2 l.id := by
  induction p generalizing mem mem' with
  | ret v hh =>
    obtain ⟨rfl, rfl⟩ := h1
    obtain ⟨rfl, rfl⟩ := h2
    exact ⟨rfl, hm⟩
  | call t v k ih =>
    obtain ⟨d, c, a1, a2⟩ := h1
    obtain ⟨d', c', b1, b2⟩ := h2
    obtain ⟨rfl, e⟩ := stage_unique h hV hm a1 b1
    exact ih d e a2 b2

theorem attempt_unique (h : cfg.Sealed ps ty rank) (hV : ∀ s, s ∈ V.scalars ++ V.arrays ↔ ∃ p ∈ ps, p.obj.isState = true ∧ p.Gives s) {st : Stepper K} {r r' : List K × K}
    {m1 m2 : BlkId → Mem K} (hm : ∀ l ∈ cfg.model.leaves, mem l.id = mem' l.id) (h1 : Attempt cfg V st mem t1 t2 r m1) (h2 : Attempt cfg V st mem' t1 t2 r' m2) :
    r = r' ∧ ∀ l ∈ cfg.model.leaves, m1 l.id = m2 l.id := by
  obtain ⟨a, x, a1, a2, a3⟩ := h1
  obtain ⟨b, y, b1, b2, b3⟩ := h2
  have hab : ∀ l ∈ cfg.model.leaves, a l.id = b l.id := fun l hl => by rw [a1 l hl, b1 l hl, hm l hl]
  have hxy : x = y := packed_unique a2 b2 fun s _ => by
    cases hf : cfg.model.leaves.find? (fun l => decide (l.state = some s)) with
    | none => rfl
    | some l => simp only [Option.map_some, hab l (List.mem_of_find?_eq_some hf)]
  subst hxy
  exact along_unique h hV hab a3 b3

theorem closes_unique (h : cfg.Sealed ps ty rank) (hV : ∀ s, s ∈ V.scalars ++ V.arrays ↔ ∃ p ∈ ps, p.obj.isState = true ∧ p.Gives s) {x : List K}
    {m1 m2 : BlkId → Mem K} (hm : ∀ l ∈ cfg.model.leaves, mem l.id = mem' l.id) (h1 : Closes cfg V mem t x val m1) (h2 : Closes cfg V mem' t x val' m2) :
    (∀ l ∈ cfg.model.leaves, m1 l.id = m2 l.id) ∧ ∀ s, (∃ p ∈ ps, p.Takes s ∨ p.Gives s) → val s = val' s := by
  have hv := vals_unique h hV hm h1.solution h2.solution
  refine ⟨fun l hl => ?_, hv⟩
  obtain ⟨p, hpp, hfit⟩ := C59.leaf_wire h hl
  have s1 := h1.stored l hl
  rw [hm l hl, noted_unique h hl hv] at s1
  refine stored_unique hfit.code (fun s hs => hv s ?_) s1 (h2.stored l hl)
  rcases hfit.post s hs with g | g
  · exact ⟨p, hpp, .inl g⟩
  · exact ⟨p, hpp, .inr (hfit.state s g).1⟩

theorem Resets.inv {cfg : Config K} {st : Stepper K} {force : Bool} {y : List K} {es : List (StepEv K)}
    (h : Resets cfg V st minH maxH t mem t1 t2 force es y val mem') :
    ∃ q x1 mem1, (t1 <. t) = true ∧ Attempt cfg V st mem t1 t2 (x1, q) mem1 ∧
      ((¬ Suits minH t1 t2 force q ∧ ∃ es', es = .trial t1 t2 :: es' ∧ Resets cfg V st minH maxH t mem1 t1 (t1 +. limited minH maxH q) (q <=. minH) es' y val mem') ∨
       (Suits minH t1 t2 force q ∧ (t2 <. t) = true ∧ ∃ val1 mem2 es', es = .trial t1 t2 :: .accept t1 t2 :: es' ∧ Closes cfg V mem1 t2 x1 val1 mem2 ∧
          Resets cfg V st minH maxH t mem2 t2 (fmin (t2 +. limited minH maxH q) t) false es' y val mem') ∨
       (Suits minH t1 t2 force q ∧ (t2 <. t) = false ∧ es = [.trial t1 t2, .accept t1 t2] ∧ y = x1 ∧ Closes cfg V mem1 t y val mem')) := by
  cases h with
  | reject a b c d => exact ⟨_, _, _, a, b, .inl ⟨c, _, rfl, d⟩⟩
  | step a b c d e f => exact ⟨_, _, _, a, b, .inr (.inl ⟨c, d, _, _, _, rfl, e, f⟩)⟩
  | last a b c d e => exact ⟨_, _, _, a, b, .inr (.inr ⟨c, d, rfl, rfl, e⟩)⟩

theorem resets_unique (h : cfg.Sealed ps ty rank) (hV : ∀ s, s ∈ V.scalars ++ V.arrays ↔ ∃ p ∈ ps, p.obj.isState = true ∧ p.Gives s) {st : Stepper K} {force : Bool}
    {y y' : List K} {es es' : List (StepEv K)} {m1 m2 : BlkId → Mem K} (h1 : Resets cfg V st minH maxH t mem t1 t2 force es y val m1)
    (hm : ∀ l ∈ cfg.model.leaves, mem l.id = mem' l.id) (h2 : Resets cfg V st minH maxH t mem' t1 t2 force es' y' val' m2) :
    es = es' ∧ y = y' ∧ (∀ l ∈ cfg.model.leaves, m1 l.id = m2 l.id) ∧ ∀ s, (∃ p ∈ ps, p.Takes s ∨ p.Gives s) → val s = val' s := by
  induction h1 generalizing mem' es' with
  | reject a b c d ih =>
    obtain ⟨q', x', mem1', _, b', k⟩ := Resets.inv h2
    obtain ⟨e, em⟩ := attempt_unique h hV hm b b'
    obtain ⟨rfl, rfl⟩ := Prod.mk.inj e
    rcases k with ⟨_, es', rfl, d'⟩ | ⟨c', _⟩ | ⟨c', _⟩
    · obtain ⟨rfl, k⟩ := ih em d'
      exact ⟨rfl, k⟩
    · exact (c c').elim
    · exact (c c').elim
  | step a b c g e f ih =>
    obtain ⟨q', x', mem1', _, b', k⟩ := Resets.inv h2
    obtain ⟨eq, em⟩ := attempt_unique h hV hm b b'
    obtain ⟨rfl, rfl⟩ := Prod.mk.inj eq
    rcases k with ⟨c', _⟩ | ⟨_, _, val1', mem2', es', rfl, e', f'⟩ | ⟨_, g', _⟩
    · exact (c' c).elim
    · obtain ⟨rfl, k⟩ := ih (closes_unique h hV em e e').1 f'
      exact ⟨rfl, k⟩
    · rw [g] at g'; cases g'
  | last a b c g e =>
    obtain ⟨q', x', mem1', _, b', k⟩ := Resets.inv h2
    obtain ⟨eq, em⟩ := attempt_unique h hV hm b b'
    obtain ⟨rfl, rfl⟩ := Prod.mk.inj eq
    rcases k with ⟨c', _⟩ | ⟨_, g', _⟩ | ⟨_, _, rfl, rfl, e'⟩
    · exact (c' c).elim
    · rw [g] at g'; cases g'
    · exact ⟨rfl, rfl, closes_unique h hV em e e'⟩

/-- C79, determinism, in any arithmetic: in a closed diagram there is one course with resets, and one sequence of trial and accepted steps. -/
theorem C79_unique (cfg : Config K) (ps : List (Wire K)) (ty : SigId → Ty) (rank : BlkId → Nat) (h : cfg.Sealed ps ty rank)
    (V : Vars) (hV : ∀ s, s ∈ V.scalars ++ V.arrays ↔ ∃ p ∈ ps, p.obj.isState = true ∧ p.Gives s) (st : Stepper K) (minH maxH t : K) (ts : List K)
    (mem mem' m1 m2 : BlkId → Mem K) (hm : ∀ l ∈ cfg.model.leaves, mem l.id = mem' l.id) (v v' v1 v2 : SigId → Option (Val K))
    (hv : ∀ s, (∃ p ∈ ps, p.Takes s ∨ p.Gives s) → v s = v' s) (es es' : List (StepEv K))
    (h1 : ResetsTo cfg V st minH maxH mem v t ts es m1 v1) (h2 : ResetsTo cfg V st minH maxH mem' v' t ts es' m2 v2) :
    es = es' ∧ (∀ l ∈ cfg.model.leaves, m1 l.id = m2 l.id) ∧ ∀ s, (∃ p ∈ ps, p.Takes s ∨ p.Gives s) → v1 s = v2 s := by
  induction h1 generalizing mem' v' es' with
  | nil => cases h2; exact ⟨rfl, hm, hv⟩
  | cons a b ih =>
    cases h2 with
    | cons a' b' =>
      obtain ⟨rfl, _, em, ev⟩ := resets_unique h hV a hm a'
      obtain ⟨rfl, k⟩ := ih _ em _ ev _ b'
      exact ⟨rfl, k⟩

/-! ## Nothing is triggered -/

theorem along_by (hq : ∀ (mem : BlkId → Mem K) (t : K) (x : List K) (val : SigId → Option (Val K)), Solution cfg V mem t x val → ∀ l ∈ cfg.model.leaves, ∀ x tr o, l.kind = .trigInt x tr o → isSet val tr = false)
    {p : StepProg K} {r : List K × K} {a b : BlkId → Mem K} (hab : ∀ l ∈ cfg.model.leaves, b l.id = a l.id) (h : p.Along (Stage cfg V) b r mem') :
    p.By (Rhs cfg V a) r ∧ ∀ l ∈ cfg.model.leaves, mem' l.id = a l.id := by
  induction p generalizing b with
  | ret v hh => obtain ⟨rfl, rfl⟩ := h; exact ⟨rfl, hab⟩
  | call t v k ih =>
    obtain ⟨d, c, ⟨val, a1, a2, a3⟩, a4⟩ := h
    obtain ⟨k1, k2⟩ := ih d (b := c) (fun l hl => by
      rw [a3 l hl, hab l hl]
      cases hk : l.kind with
      | trigInt x tr o => simp only [Leaf.noted, hk, hq _ _ _ _ a1 l hl _ _ _ hk, Bool.or_false]
      | _ => simp only [Leaf.noted, hk]) a4
    exact ⟨⟨d, ⟨val, solution_mem hab a1, a2⟩, k1⟩, k2⟩

/-- C79: if no trigger is ever set, and none was noted at the beginning, then `TriggeredIntegrator`s are integrators. -/
theorem C79_untriggered (cfg : Config K) (ho : Owned cfg) (V : Vars) (st : Stepper K) (minH maxH t : K)
    (hq : ∀ (mem : BlkId → Mem K) (t : K) (x : List K) (val : SigId → Option (Val K)), Solution cfg V mem t x val → ∀ l ∈ cfg.model.leaves, ∀ x tr o, l.kind = .trigInt x tr o → isSet val tr = false)
    (mem mem' : BlkId → Mem K) (h0 : ∀ l ∈ cfg.model.leaves, ∀ x tr o, l.kind = .trigInt x tr o → (mem l.id).triggered = false)
    (t1 t2 : K) (force : Bool) (es : List (StepEv K)) (y x : List K) (val : SigId → Option (Val K)) (hs : cfg.Stands V mem x)
    (h : Resets cfg V st minH maxH t mem t1 t2 force es y val mem') : Adapts cfg V st minH maxH t mem t1 t2 force x es y val mem' := by
  have hv : ∀ s ∈ V.scalars ++ V.arrays, ∃ l ∈ cfg.model.leaves, l.state = some s := by
    intro s hs'
    obtain ⟨v, e⟩ := Packed.some hs hs'
    cases hf : cfg.model.leaves.find? (fun l => decide (l.state = some s)) with
    | none => rw [hf] at e; cases e
    | some l => exact ⟨l, List.mem_of_find?_eq_some hf, by simpa using List.find?_some hf⟩
  -- the members after an attempt are those before it
  have hat : ∀ {mem a mem1 : BlkId → Mem K} {x : List K} {t1 t2 : K} {r : List K × K}, (∀ l ∈ cfg.model.leaves, mem l.id = a l.id) →
      (∀ l ∈ cfg.model.leaves, ∀ x tr o, l.kind = .trigInt x tr o → (a l.id).triggered = false) → cfg.Stands V a x → Attempt cfg V st mem t1 t2 r mem1 →
      (st t1 x t2).By (Rhs cfg V a) r ∧ ∀ l ∈ cfg.model.leaves, mem1 l.id = a l.id := by
    intro mem a mem1 x t1 t2 r hm h0 hs h
    obtain ⟨b, z, k1, k2, k3⟩ := h
    have hb : ∀ l ∈ cfg.model.leaves, b l.id = a l.id := by
      intro l hl
      rw [k1 l hl, hm l hl]
      cases hk : l.kind with
      | trigInt x tr o => simp only [Leaf.begun, hk, h0 l hl _ _ _ hk, Bool.false_eq_true, if_false]
      | _ => simp only [Leaf.begun, hk]
    have hzx : z = x := packed_unique k2 hs fun s _ => by
      cases hf : cfg.model.leaves.find? (fun l => decide (l.state = some s)) with
      | none => rfl
      | some l => simp only [Option.map_some, hb l (List.mem_of_find?_eq_some hf)]
    subst hzx
    exact along_by hq hb k3
  have hcl : ∀ {mem a mem1 : BlkId → Mem K} {x : List K} {t : K} {val : SigId → Option (Val K)}, (∀ l ∈ cfg.model.leaves, mem l.id = a l.id) →
      (∀ l ∈ cfg.model.leaves, ∀ x tr o, l.kind = .trigInt x tr o → (a l.id).triggered = false) → Closes cfg V mem t x val mem1 →
      Committed cfg V a t x val mem1 ∧ (∀ l ∈ cfg.model.leaves, ∀ x tr o, l.kind = .trigInt x tr o → (mem1 l.id).triggered = false) := by
    intro mem a mem1 x t val hm h0 h
    have hst : ∀ l ∈ cfg.model.leaves, l.Stored t val (a l.id) (mem1 l.id) := by
      intro l hl
      have := h.stored l hl
      rw [hm l hl] at this
      cases hk : l.kind with
      | trigInt x tr o =>
        have e : l.noted val (a l.id) = a l.id := by simp only [Leaf.noted, hk, hq _ _ _ _ h.solution l hl _ _ _ hk, Bool.or_false]
        rw [e] at this; exact this
      | _ =>
        have e : l.noted val (a l.id) = a l.id := by simp only [Leaf.noted, hk]
        rw [e] at this; exact this
    refine ⟨⟨solution_mem hm h.solution, hst⟩, fun l hl x tr o hk => ?_⟩
    have := hst l hl
    simp only [Leaf.Stored, hk] at this
    obtain ⟨v, _, e⟩ := this
    rw [e]
    exact h0 l hl _ _ _ hk
  have key : ∀ {mem mem' : BlkId → Mem K} {t1 t2 : K} {force : Bool} {es : List (StepEv K)} {y : List K} {val : SigId → Option (Val K)},
      Resets cfg V st minH maxH t mem t1 t2 force es y val mem' → ∀ {a : BlkId → Mem K} {x : List K}, (∀ l ∈ cfg.model.leaves, mem l.id = a l.id) →
      (∀ l ∈ cfg.model.leaves, ∀ x tr o, l.kind = .trigInt x tr o → (a l.id).triggered = false) → cfg.Stands V a x → Adapts cfg V st minH maxH t a t1 t2 force x es y val mem' := by
    intro mem mem' t1 t2 force es y val h
    induction h with
    | reject a1 a2 a3 _ ih =>
      intro a x hm h0 hs
      obtain ⟨b1, b2⟩ := hat hm h0 hs a2
      exact .reject a1 b1 a3 (ih b2 h0 hs)
    | step a1 a2 a3 a4 a5 _ ih =>
      intro a x hm h0 hs
      obtain ⟨b1, b2⟩ := hat hm h0 hs a2
      obtain ⟨b3, b4⟩ := hcl b2 h0 a5
      exact .step a1 b1 a3 a4 b3 (ih (fun _ _ => rfl) b4 (b3.stands ho hv))
    | last a1 a2 a3 a4 a5 =>
      intro a x hm h0 hs
      obtain ⟨b1, b2⟩ := hat hm h0 hs a2
      exact .last a1 b1 a3 a4 (hcl b2 h0 a5).1
  exact key h (fun _ _ => rfl) h0 hs

/-! ## The processing order -/

theorem along_mono {σ : Type} {R R' : σ → K → List K → List K → σ → Prop} (hR : ∀ a t x d b, R a t x d b → R' a t x d b) {p : StepProg K} {a b : σ} {r : List K × K}
    (h : p.Along R a r b) : p.Along R' a r b := by
  induction p generalizing a with
  | ret v hh => exact h
  | call t v k ih =>
    obtain ⟨d, c, h1, h2⟩ := h
    exact ⟨d, c, hR _ _ _ _ _ h1, ih d h2⟩

theorem resets_of (σ : Strategy) {st : Stepper K} {force : Bool} {es : List (StepEv K)} {y : List K} (h : Resets cfg V st minH maxH t mem t1 t2 force es y val mem') :
    Resets { cfg with strategy := σ } V st minH maxH t mem t1 t2 force es y val mem' := by
  have hs : ∀ {mem t x val}, Solution cfg V mem t x val → Solution { cfg with strategy := σ } V mem t x val := fun h => ⟨h.input, h.state, h.block⟩
  have ha : ∀ {mem mem1 : BlkId → Mem K} {t1 t2 : K} {r : List K × K}, Attempt cfg V st mem t1 t2 r mem1 → Attempt { cfg with strategy := σ } V st mem t1 t2 r mem1 :=
    fun ⟨a, x, h1, h2, h3⟩ => ⟨a, x, h1, h2, along_mono (fun _ _ _ _ _ ⟨v, k1, k2, k3⟩ => ⟨v, hs k1, k2, k3⟩) h3⟩
  have hc : ∀ {mem mem1 : BlkId → Mem K} {t : K} {x : List K} {val : SigId → Option (Val K)}, Closes cfg V mem t x val mem1 → Closes { cfg with strategy := σ } V mem t x val mem1 :=
    fun h => ⟨hs h.solution, h.stored⟩
  induction h with
  | reject a b c _ ih => exact .reject a (ha b) c ih
  | step a b c d e _ ih => exact .step a (ha b) c d (hc e) ih
  | last a b c d e => exact .last a (ha b) c d (hc e)

theorem resetsTo_of (σ : Strategy) {st : Stepper K} {ts : List K} {es : List (StepEv K)} (h : ResetsTo cfg V st minH maxH mem val t ts es mem' val') :
    ResetsTo { cfg with strategy := σ } V st minH maxH mem val t ts es mem' val' := by
  induction h with
  | nil => exact .nil
  | cons a _ ih => exact .cons (resets_of σ a) ih

theorem attended_layout (h : cfg.Sealed ps ty rank) (hord : cfg.Delays → OrderedArith K) (hi : ∃ p ∈ ps, p.obj.isState = true) (hm : Attended cfg ty m) (hin : m.s.initialized = true) :
    Layout cfg m ∧ (∀ s, (m.w.sig s).ty = ty s) ∧ 0 < m.s.nState ∧ (∀ s, s ∈ m.vars.scalars ++ m.vars.arrays ↔ ∃ p ∈ ps, p.obj.isState = true ∧ p.Gives s) ∧
      ∀ l ∈ cfg.model.leaves, ∀ o, l.state = some o → o ∈ m.vars.scalars ++ m.vars.arrays := by
  have hp := C59.C59_complete cfg ps ty rank h
  have hf := (attended_cared hp hord hm).fit hin
  have hV := init_vars h hf
  have hh : ∀ l ∈ cfg.model.leaves, ∀ o, l.state = some o → o ∈ m.vars.scalars ++ m.vars.arrays := by
    intro l hl o e
    obtain ⟨p, hpp, hfit⟩ := C59.leaf_wire h hl
    exact (hV o).2 ⟨p, hpp, (hfit.state o e).2, (hfit.state o e).1⟩
  refine ⟨hf.call.layout, hf.world.types, ?_, hV, hh⟩
  obtain ⟨p, hpp, hb⟩ := hi
  obtain ⟨l, hl, hfit⟩ := C59.wire_leaf h hpp
  obtain ⟨s, e⟩ := hfit.owns hb
  exact nState_pos hp hf (hh l hl s e)

/-- C79 for `init`, in any arithmetic: except with the `FastSimulator`, whose first pass over the blocks may note a trigger (C20), `init(t0)` carries out the resets that
are pending in the members it finds, and ends a step at `t0`. -/
theorem C79_init (cfg : Config K) (ps : List (Wire K)) (ty : SigId → Ty) (rank : BlkId → Nat) (h : cfg.Sealed ps ty rank) (hord : cfg.Delays → OrderedArith K)
    (hi : ∃ p ∈ ps, p.obj.isState = true) (hs : cfg.strategy ≠ .fast) (w : World K) (hw : w.New cfg ty) (hlog : w.log = []) (tPrev t0 : K) (m : Machine K)
    (hx : Call.exec cfg (.init t0) { w := w, s := { tPrev := tPrev } } = .ok () m) :
    ∃ (mem0 : BlkId → Mem K) (x : List K), (∀ l ∈ cfg.model.leaves, mem0 l.id = l.begun (w.mem l.id)) ∧ cfg.Stands m.vars mem0 x ∧
      Closes cfg m.vars mem0 t0 x m.w.shown m.w.mem := by
  have hp := C59.C59_complete cfg ps ty rank h
  have ho := owned_of hp
  have hd := hp.typed.dbg
  obtain ⟨m', g1, g2⟩ := C57.C57_init cfg ty rank hp hord _ (.new w tPrev hw) rfl t0
  have hx0 := hx
  rw [g1] at hx0
  cases hx0
  have hat : Attended cfg ty m := .call (.init t0) (.new w tPrev hw) rfl g1
  obtain ⟨hlay, hty, _, hV, hh⟩ := attended_layout h hord hi hat g2.init
  have hr : Reach cfg { w := w, s := { tPrev := tPrev } } := .new w tPrev hw.done hlog
  obtain ⟨m1, h1, h2, h3, _, _, _, _, k1, _⟩ := init_last ho.proper (reach_mid cfg hr) hx
  have k1 : m1.w.mem = w.mem := k1 hs
  obtain ⟨p1, _⟩ := process_shown hd ho.proper h1 h3
  let mem0 : BlkId → Mem K := fun b => (cfg.model.leaves.find? (fun l => decide (l.id = b))).elim (w.mem b) (fun l => l.begun (w.mem b))
  have e0 : ∀ l ∈ cfg.model.leaves, mem0 l.id = l.begun (w.mem l.id) := by
    intro l hl
    show Option.elim _ _ _ = _
    cases hf : cfg.model.leaves.find? (fun l' => decide (l'.id = l.id)) with
    | none => have := List.find?_eq_none.1 hf l hl; simp at this
    | some l' =>
      have e : l'.id = l.id := by simpa using List.find?_some hf
      rw [leaf_eq ho.proper (List.mem_of_find?_eq_some hf) hl e]
      rfl
  have shown_state : ∀ l ∈ cfg.model.leaves, ∀ o, l.state = some o → m.w.shown o = some (mem0 l.id).value := by
    intro l hl o e
    have hpre := state_preOuts e
    have := process_pre_value ho.proper hl e (fun l' hl' hs' => ho.drivers.prePre l' hl' l hl o hs' hpre) (fun l' hl' hs' => ho.drivers.outPre l' hl' l hl o hs' hpre) h1 h3
    have hasg : (m.w.sig o).assigned = true := (g2.values o (.inl (.inr (state_sig hlay ho.hash (hh l hl o e))))).1
    rw [shown_val hasg, e0 l hl, begun_eq, afterPre_value, ← k1]
    exact this
  have hcong : ∀ s ∈ m.vars.scalars ++ m.vars.arrays,
      ((cfg.model.leaves.find? (fun l => decide (l.state = some s))).map (fun l => (mem0 l.id).value)) = m.w.shown s := by
    intro s hs
    obtain ⟨q1, q2⟩ := state_sig hlay ho.hash hs
    obtain ⟨l, hl, e⟩ := ho.integrated s q1 q2
    rw [ho.find hl e]
    exact (shown_state l hl s e).symm
  have hpk : ∃ x, Packed m.w.shown m.vars.size m.vars.scalars m.vars.arrays x := by
    refine ⟨_, (Within.packed_iff (fun _ _ => rfl)).2 ⟨fun s hs => ?_, fun s hs => ?_, rfl⟩⟩
    · obtain ⟨a, v, hv, f1, f2⟩ := g2.values s (.inl (.inr (state_sig hlay ho.hash (List.mem_append_left _ hs))))
      have hs : s ∈ m.s.scalarStates := hs
      rw [hlay.scalarStates, (ho.hash _).mem_iff] at hs
      simp only [scalarStatesOf, List.mem_filter, Bool.and_eq_true, decide_eq_true_eq] at hs
      rw [← hty, hs.2.1] at f1
      rw [shown_val a, show m.w.val s = some v from hv]
      cases v <;> simp_all [Val.hasTag]
    · obtain ⟨a, v, hv, f1, f2⟩ := g2.values s (.inl (.inr (state_sig hlay ho.hash (List.mem_append_right _ hs))))
      have hs : s ∈ m.s.arrayStates := hs
      rw [hlay.arrayStates, (ho.hash _).mem_iff] at hs
      simp only [arrayStatesOf, List.mem_filter, Bool.and_eq_true] at hs
      have ha := hs.2.1
      rw [← hty] at f1 f2
      show ∃ v, m.w.shown s = some (.array v) ∧ v.length = (m.w.sig s).ty.size
      rw [shown_val a, show m.w.val s = some v from hv]
      cases hyy : (m.w.sig s).ty <;> rw [hyy] at ha f1 f2 <;> first | (cases ha; done) | skip
      cases v <;> simp_all [Val.hasTag, Val.sizeOk, Ty.size]
  obtain ⟨x, hpk⟩ := hpk
  have key : ∀ l ∈ cfg.model.leaves, l.Calm → mem0 l.id = m1.w.mem l.id := by
    intro l hl hc
    rw [e0 l hl, k1]
    unfold Leaf.Calm at hc
    unfold Leaf.begun
    cases hk : l.kind <;> first | rfl | (rw [hk] at hc; exact hc.elim)
  refine ⟨mem0, x, e0, Packed.congr hpk (fun s hs => hcong s hs) (fun _ _ => rfl), ⟨p1, hpk, fun l hl hreq => ?_⟩, fun l hl => ?_⟩
  · rcases tame_leaf h l hl with hc | ⟨i, tr, o, hk, _⟩
    · rw [key l hl hc]
      exact process_solved hd ho.proper hl hc h1 h2 h3 (.refl hc _) hreq
    · unfold Leaf.Solved
      rw [hk]
      exact trivial
  · rcases tame_leaf h l hl with hc | ⟨i, tr, o, hk, hreq⟩
    · rw [Calm.noted hc, key l hl hc]
      exact process_stored hd ho.proper hl hc h1 h3 (.refl hc _)
    · have e : l.state = some o := by unfold Leaf.state; rw [hk]
      have hpre := state_preOuts e
      obtain ⟨b, b1, b2⟩ := process_trig_pre hd ho.proper hl hk (fun s ⟨f, a1, a2⟩ => hreq s f a1 a2) (fun l' hl' hs' => ho.drivers.prePre l' hl' l hl o hs' hpre) h1 h2 h3
      obtain ⟨v, b', c1, c2, _⟩ := process_integ ho.proper hl e h1 h3
      simp only [if_true] at c1 c2
      have eb : b' = ((mem0 l.id).triggered || isSet m.w.shown tr) := by
        have : b' = b := by rw [← b1, c1]
        rw [this, Bool.eq_iff_iff, b2, Bool.or_eq_true, isSet_iff, e0 l hl, begun_eq, k1]
      have hasg : (m.w.sig o).assigned = true := (g2.values o (.inl (.inr (state_sig hlay ho.hash (hh l hl o e))))).1
      have en : l.noted m.w.shown (mem0 l.id) = { mem0 l.id with triggered := (mem0 l.id).triggered || isSet m.w.shown tr } := by
        unfold Leaf.noted
        rw [hk]
      unfold Leaf.Stored
      rw [hk]
      refine ⟨v, by rw [shown_val hasg]; exact c2, ?_⟩
      rw [en, c1, eb, e0 l hl, begun_eq, k1]

/-- C79, the processing order, in any arithmetic: two simulators of a closed diagram with integrators that differ only in the processing order, with the same members of
the blocks and values of the signals at the same time, try and accept the same steps, and end with the same values of the signals and the same members. -/
theorem C79_same (cfg : Config K) (σ : Strategy) (ps : List (Wire K)) (ty : SigId → Ty) (rank : BlkId → Nat) (h : cfg.Sealed ps ty rank) (h' : Config.Sealed { cfg with strategy := σ } ps ty rank)
    (hord : cfg.Delays → OrderedArith K) (hi : ∃ p ∈ ps, p.obj.isState = true) (st : Stepper K) (hst : cfg.stepper = some st) (ts : List K) (m n m' n' : Machine K)
    (hm : Ongoing cfg m) (ham : Attended cfg ty m) (hn : Ongoing { cfg with strategy := σ } n) (han : Attended { cfg with strategy := σ } ty n)
    (ht : n.s.tPrev = m.s.tPrev) (hmem : ∀ l ∈ cfg.model.leaves, m.w.mem l.id = n.w.mem l.id) (hv : ∀ s, (∃ p ∈ ps, p.Takes s ∨ p.Gives s) → m.w.shown s = n.w.shown s)
    (minH maxH : K) (hts : (m.s.tPrev :: ts).IsChain fun a b => (a <. b) = true ∧ (b ==. a) = false)
    (hx : RunsTo cfg minH maxH m ts m') (hx' : RunsTo { cfg with strategy := σ } minH maxH n ts n') :
    ∃ new new', m'.w.log = new ++ m.w.log ∧ n'.w.log = new' ++ n.w.log ∧ stepsIn new = stepsIn new' ∧ (∀ l ∈ cfg.model.leaves, m'.w.mem l.id = n'.w.mem l.id) ∧
      ∀ s, (∃ p ∈ ps, p.Takes s ∨ p.Gives s) → m'.w.shown s = n'.w.shown s := by
  have hp := C59.C59_complete cfg ps ty rank h
  have hp' := C59.C59_complete _ ps ty rank h'
  obtain ⟨l1, y1, h0, hV, hh⟩ := attended_layout h hord hi ham hm.once.2
  obtain ⟨l2, y2, h0', -, hh'⟩ := attended_layout h' hord hi han hn.once.2
  have hs : SameTy m.w n.w := fun s => (y2 s).trans (y1 s).symm
  have hvars : n.vars = m.vars := by
    unfold Machine.vars
    congr 1
    · rw [l1.scalarStates, l2.scalarStates, scalarStatesOf_ty hs]; rfl
    · rw [l1.arrayStates, l2.arrayStates, arrayStatesOf_ty hs]; rfl
    · funext s
      show (n.w.sig s).ty.size = (m.w.sig s).ty.size
      rw [hs s]
  obtain ⟨new, e1, e2⟩ := C79_runs cfg hp.typed.dbg (owned_of hp) st hst (hp.typed.stepper st hst) (tame_leaf h) ts m m' hm hh h0 minH maxH hts hx
  obtain ⟨new', e3, e4⟩ := C79_runs _ hp'.typed.dbg (owned_of hp') st hst (hp.typed.stepper st hst) (tame_leaf h') ts n n' hn hh' h0' minH maxH
    (by rw [ht]; exact hts) hx'
  rw [hvars, ht] at e4
  obtain ⟨k1, k2, k3⟩ := C79_unique _ ps ty rank h' m.vars hV st minH maxH _ ts _ _ _ _ hmem _ _ _ _ hv _ _ (resetsTo_of σ e2) e4
  exact ⟨new, new', e1, e3, k1, k2, k3⟩

end

section
variable {F : Type} [_root_.Field F] [LinearOrder F] [IsStrictOrderedRing F] [Archimedean F]
attribute [local instance] Arith.exact
variable {cfg : Config F} {ps : List (Wire F)} {ty : SigId → Ty} {rank : BlkId → Nat} {t u minH maxH : F} {m m' : Machine F}

theorem runs_return (h : cfg.WellPosed ty rank) (he : ∀ st, cfg.stepper = some st → st ∈ [euler, rk4, rkf45]) (h0 : 0 < minH) (h1 : minH < maxH) (ts : List F) :
    ∀ {m : Machine F}, Attended cfg ty m → m.s.initialized = true → (m.s.tPrev :: ts).IsChain (· < ·) → ∃ m', RunsTo cfg minH maxH m ts m' := by
  induction ts with
  | nil => exact fun _ _ _ => ⟨_, .nil⟩
  | cons u us ih =>
    intro m hm hi hts
    obtain ⟨k1, k2⟩ := List.isChain_cons_cons.1 hts
    have hf : ∀ fuel, (Call.run fuel u minH maxH).Fair cfg m := fun fuel _ =>
      ⟨fun _ => decide_eq_true k1, fun _ => ⟨.inr (.inr (decide_eq_true k1)), decide_eq_false (not_lt.2 k1.le), by simpa using h0, decide_eq_true h1, fun _ => C57.C57_exact cfg _ u minH maxH h0⟩⟩
    obtain ⟨N, hN⟩ := C57.C57_run cfg ty rank h he m hm u minH maxH (hf 0) h0
    obtain ⟨m1, g1, g2⟩ := hN N (le_refl _)
    obtain ⟨m', g⟩ := ih (.call _ hm (hf N) g1) g2.init (by rw [g2.time]; exact k2)
    exact ⟨m', .cons N g1 g⟩

/-- C79 for closed diagrams: blocks of all provided classes with at least one integrator, with or without trigger, simulated with one of the provided methods.
`init(t0)` returns, calls of `run` for any increasing times return, and what results is a course with resets from the members after `init`. -/
theorem C79_sealed (cfg : Config F) (ps : List (Wire F)) (ty : SigId → Ty) (rank : BlkId → Nat) (h : cfg.Sealed ps ty rank)
    (hi : ∃ p ∈ ps, p.obj.isState = true) (st : Stepper F) (hst : cfg.stepper = some st) (he : st ∈ [euler, rk4, rkf45])
    (w : World F) (hw : w.New cfg ty) (hlog : w.log = []) (tPrev t0 minH maxH : F) (h0 : 0 < minH) (h1 : minH < maxH) :
    ∃ (m0 : Machine F) (V : Vars), Call.exec cfg (.init t0) { w := w, s := { tPrev := tPrev } } = .ok () m0 ∧ V = m0.vars ∧
      (∀ s, s ∈ V.scalars ++ V.arrays ↔ ∃ p ∈ ps, p.obj.isState = true ∧ p.Gives s) ∧ (∀ s, V.size s = (ty s).size) ∧
      ∀ ts : List F, (t0 :: ts).IsChain (· < ·) → (∃ m, RunsTo cfg minH maxH m0 ts m) ∧
        ∀ m, RunsTo cfg minH maxH m0 ts m → ∃ new, m.w.log = new ++ m0.w.log ∧
          ResetsTo cfg V st minH maxH m0.w.mem m0.w.shown t0 ts (stepsIn new) m.w.mem m.w.shown := by
  have hp := C59.C59_complete cfg ps ty rank h
  have ho := owned_of hp
  have hord : cfg.Delays → OrderedArith F := fun _ => C57.ordered_exact
  obtain ⟨m0, g1, g2⟩ := C57.C57_init cfg ty rank hp hord _ (.new w tPrev hw) rfl t0
  have hat : Attended cfg ty m0 := .call (.init t0) (.new w tPrev hw) rfl g1
  have hon : Ongoing cfg m0 := .init w tPrev t0 hw.done hlog g1
  obtain ⟨-, hty, hn, hV, hh⟩ := attended_layout h hord hi hat g2.init
  have ht : m0.s.tPrev = t0 := g2.time
  refine ⟨m0, m0.vars, g1, rfl, hV, fun s => by show (m0.w.sig s).ty.size = _; rw [hty], fun ts hts => ⟨?_, fun m hm => ?_⟩⟩
  · exact runs_return hp (fun st' e => by rw [hst] at e; cases e; exact he) h0 h1 ts hat g2.init (by rw [ht]; exact hts)
  · have := C79_runs cfg hp.typed.dbg ho st hst (hp.typed.stepper st hst) (tame_leaf h) ts m0 m hon hh hn minH maxH (by
      rw [ht]
      exact hts.imp fun a b hab => ⟨decide_eq_true hab, decide_eq_false (ne_of_gt hab)⟩) hm
    rw [ht] at this
    exact this

end

end Pooya.C79
namespace Pooya.C79

/-! ## Example -/

def tint : Leaf ℚ := { id := 1, links := [(0, Demo.inp), (1, Demo.rq), (2, Demo.st)], kind := .trigInt 0 1 2 }

/-- The integrator (signal 2) of the constant 1 (signal 0); the trigger (signal 1) is set from 1 on, before 2. -/
def cfg (st : Strategy) (sp : Stepper ℚ) : Config ℚ where
  dbg := true
  model := .sub 100 [] [.leaf tint]
  deriv s := if s = 2 then some 0 else none
  inputs := none
  modelInput t := ([(0, .scalar 1), (1, .bool (decide (1 ≤ t ∧ t < 2)))], none)
  stepper := some sp
  strategy := st
  hash := id

def wires : List (Wire ℚ) := [⟨1, .trigInt .double, [C58.sc "in" 0, (str "trigger", .val 1 .bool)], [C58.sc "out" 2]⟩]

def types (s : SigId) : Ty := if s = 1 then .bool else .scalar

def world : World ℚ where
  sig s := { ty := types s }
  mem _ := { value := .scalar 5 }
  done _ := false
  log := []

theorem leaves_eq (st : Strategy) (sp : Stepper ℚ) : (cfg st sp).model.leaves = [tint] := by simp [cfg, Block.leaves, leavesL]

theorem closed (st : Strategy) (sp : Stepper ℚ) (hsp : sp ∈ [euler, rk4, rkf45]) : (cfg st sp).Sealed wires types (fun _ => 0) := by
  have hg : ∀ p ∈ wires, ∀ i, p.Gives i → p.id = 1 ∧ i = 2 := by
    intro p hp i hi
    obtain ⟨k, t, hi⟩ := hi
    simp only [wires, List.mem_cons, List.not_mem_nil, or_false] at hp
    subst hp
    simp only [C58.sc, List.mem_cons, List.not_mem_nil, or_false] at hi
    cases hi; exact ⟨rfl, rfl⟩
  have ht : ∀ p ∈ wires, ∀ i, p.Takes i → i = 0 ∨ i = 1 := by
    intro p hp i hi
    obtain ⟨k, t, hi⟩ := hi
    simp only [wires, List.mem_cons, List.not_mem_nil, or_false] at hp
    subst hp
    simp only [C58.sc, List.mem_cons, List.not_mem_nil, or_false] at hi
    rcases hi with hi | hi <;> cases hi
    · exact .inl rfl
    · exact .inr rfl
  have hk : ∀ t, (cfg st sp).inputKeys t = [0, 1] := fun t => rfl
  exact {
    dbg := rfl
    assembled := ⟨[tint], by with_unfolding_all rfl, by rw [leaves_eq]⟩
    proper := by
      have : (cfg st sp).model.ids = [100, 1] := by simp [cfg, tint, Block.ids, Block.all, allL, Block.id]
      unfold Block.Proper
      rw [this]
      decide
    hash := fun _ => .refl _
    sane := by
      intro p hp
      simp only [wires, List.mem_cons, List.not_mem_nil, or_false] at hp
      subst hp
      refine ⟨fun q hq i t e => ?_, fun q hq i t e => ?_, .inl ⟨1, Nat.one_pos, trivial, trivial, fun q hq i m e => ?_, fun q hq i m e => ?_⟩⟩ <;>
        simp only [C58.sc, List.mem_cons, List.not_mem_nil, or_false] at hq
      · rcases hq with rfl | rfl <;> cases e <;> rfl
      · subst hq; cases e; rfl
      · rcases hq with rfl | rfl <;> cases e
      · subst hq; cases e
    once := fun p hp q hq i h1 h2 => by rw [(hg p hp i h1).1, (hg q hq i h2).1]
    provided := fun p hp i hi => .inl fun t => by
      rw [hk]
      rcases ht p hp i hi with rfl | rfl <;> decide
    loops := fun p hp i hn q hq hgi => by
      simp only [wires, List.mem_cons, List.not_mem_nil, or_false] at hq
      subst hq
      exact .inl rfl
    inputs := fun f e => by cases e
    modelInput := ⟨fun t => ⟨fun p hp => by
      simp only [cfg, List.mem_cons, List.not_mem_nil, or_false] at hp
      rcases hp with rfl | rfl <;> exact ⟨rfl, fun _ => rfl⟩, fun e h => (by cases h)⟩, fun _ => rfl⟩
    inputOnce := fun t => by rw [hk]; decide
    inputFree := fun t s hs => by
      rw [hk] at hs
      simp only [List.mem_cons, List.not_mem_nil, or_false] at hs
      refine ⟨⟨_, .head _, ?_⟩, fun p hp hgi => ?_⟩
      · rcases hs with rfl | rfl
        · exact ⟨str "in", .scalar, .head _⟩
        · exact ⟨str "trigger", .bool, .tail _ (.head _)⟩
      · have := (hg p hp s hgi).2
        rcases hs with rfl | rfl <;> cases this
    stepper := fun st' e => by cases e; simp only [List.mem_cons, List.not_mem_nil, or_false] at hsp; rcases hsp with rfl | rfl | rfl <;> first | exact C26.dim_provided.1 | exact C26.dim_provided.2.1 | exact C26.dim_provided.2.2
    stepped := fun _ => rfl
    reuse := fun _ => ⟨_, .head _, rfl⟩ }

theorem new (st : Strategy) (sp : Stepper ℚ) : world.New (cfg st sp) types where
  fine := {
    types := fun _ => rfl
    cells := fun s => ⟨fun e => (by cases e), fun v e => (by cases e)⟩
    members := by
      intro l hl
      rw [leaves_eq] at hl
      simp only [List.mem_cons, List.not_mem_nil, or_false] at hl
      subst hl
      exact ⟨rfl, fun _ => rfl⟩ }
  done := fun _ => rfl
  record := fun _ _ _ => rfl

/-- The machine after `init(0)` and the calls of `run` for the times. -/
def at_ (st : Strategy) (sp : Stepper ℚ) : List ℚ → Machine ℚ
  | [] => stateOf (Call.exec (cfg st sp) (.init 0) { w := world, s := { tPrev := 0 } })
  | t :: ts => stateOf (Call.exec (cfg st sp) (.run 9 t (1/10) 10) (at_ st sp ts))

theorem runs (st : Strategy) : RunsTo (cfg st euler) (1/10) 10 (at_ st euler []) [1, 2, 3] (at_ st euler [3, 2, 1]) :=
  .cons (m1 := at_ st euler [1]) 9 (eq_of_returns (by cases st <;> decide +kernel))
    (.cons (m1 := at_ st euler [2, 1]) 9 (eq_of_returns (by cases st <;> decide +kernel)) (.cons 9 (eq_of_returns (by cases st <;> decide +kernel)) .nil))


/-- The state is 6 at the time 1, when the trigger is set; the step to 2 begins with 0, so that it is 1 at 2; the trigger was set in an evaluation of the step, so the
step to 3 begins with 0 again, and it is 1 at 3 (`C37_refuted`). -/
example (st : Strategy) : [(at_ st euler [1]), (at_ st euler [2, 1]), (at_ st euler [3, 2, 1])].map (fun m => (m.w.shown 2, m.w.shown 1)) =
    [(some (.scalar 6), some (.bool true)), (some (.scalar 1), some (.bool false)), (some (.scalar 1), some (.bool false))] := by
  cases st <;> decide +kernel

/-- All hypotheses of `C79_sealed` and `C79_runs` hold for these calls, and of `C79_unique` for what results. -/
example (st : Strategy) : (∃ p ∈ wires, p.obj.isState = true) ∧ world.New (cfg st euler) types ∧ world.log = [] ∧
    ∃ new V, (at_ st euler [3, 2, 1]).w.log = new ++ (at_ st euler []).w.log ∧
      ResetsTo (cfg st euler) V euler (1/10) 10 (at_ st euler []).w.mem (at_ st euler []).w.shown 0 [1, 2, 3] (stepsIn new) (at_ st euler [3, 2, 1]).w.mem (at_ st euler [3, 2, 1]).w.shown ∧
      ∀ es m v, ResetsTo (cfg st euler) V euler (1/10) 10 (at_ st euler []).w.mem (at_ st euler []).w.shown 0 [1, 2, 3] es m v → v 2 = some (.scalar 1) := by
  refine ⟨⟨_, .head _, rfl⟩, new st euler, rfl, ?_⟩
  have hc := closed st euler (by simp)
  obtain ⟨m0, V, g1, rfl, g3, _, g⟩ := C79_sealed (cfg st euler) wires types _ hc ⟨_, .head _, rfl⟩ euler rfl (by simp) world (new st euler) rfl 0 0 (1/10) 10
    (by norm_num) (by norm_num)
  have hm0 : m0 = at_ st euler [] := by unfold at_; rw [g1]; rfl
  subst hm0
  obtain ⟨new, e1, e2⟩ := (g [1, 2, 3] (by decide +kernel)).2 _ (runs st)
  refine ⟨new, _, e1, e2, fun es m v h => ?_⟩
  have := (C79_unique (cfg st euler) wires types _ hc _ g3 euler (1/10) 10 0 [1, 2, 3] _ _ _ _ (fun _ _ => rfl) _ _ _ _ (fun _ _ => rfl) _ _ h e2).2.2 2
    ⟨_, .head _, .inr ⟨str "out", .scalar, .head _⟩⟩
  rw [this]
  clear this h e2 e1 g g1 g3 hc
  cases st <;> decide +kernel

/-- The hypotheses of `C79_init`, for members with a reset pending, as an earlier simulator may have left them: the state begins with 0 instead of 5. -/
example (st : Strategy) (hs : st ≠ .fast) :
    let w : World ℚ := { world with mem := fun _ => { value := .scalar 5, triggered := true } }
    w.New (cfg st euler) types ∧ w.log = [] ∧ (cfg st euler).strategy ≠ .fast ∧
      ∃ m, Call.exec (cfg st euler) (.init 0) { w := w, s := { tPrev := 0 } } = .ok () m ∧ m.w.shown 2 = some (.scalar 0) ∧ (m.w.mem 1).triggered = false := by
  intro w
  refine ⟨⟨⟨fun _ => rfl, fun s => ⟨fun e => (by cases e), fun v e => (by cases e)⟩, ?_⟩, fun _ => rfl, fun _ _ _ => rfl⟩, rfl, hs,
    stateOf (Call.exec (cfg st euler) (.init 0) { w := w, s := { tPrev := 0 } }), eq_of_returns (by cases st <;> decide +kernel), ?_, ?_⟩
  · intro l hl
    rw [leaves_eq] at hl
    cases List.mem_singleton.1 hl
    exact ⟨rfl, fun _ => rfl⟩
  all_goals cases st <;> decide +kernel

/-- The hypotheses of `C79_same`: the same diagram with two processing orders. -/
example (st σ : Strategy) : (cfg st euler).Sealed wires types (fun _ => 0) ∧ Config.Sealed { cfg st euler with strategy := σ } wires types (fun _ => 0) ∧
    Ongoing (cfg st euler) (at_ st euler []) ∧ Attended (cfg st euler) types (at_ st euler []) ∧
    Ongoing { cfg st euler with strategy := σ } (at_ σ euler []) ∧ Attended { cfg st euler with strategy := σ } types (at_ σ euler []) ∧
    (at_ σ euler []).s.tPrev = (at_ st euler []).s.tPrev ∧ (at_ st euler []).w.mem 1 = (at_ σ euler []).w.mem 1 ∧
    (∀ s ∈ [0, 1, 2], (at_ st euler []).w.shown s = (at_ σ euler []).w.shown s) ∧
    RunsTo (cfg st euler) (1/10) 10 (at_ st euler []) [1, 2, 3] (at_ st euler [3, 2, 1]) ∧
    RunsTo { cfg st euler with strategy := σ } (1/10) 10 (at_ σ euler []) [1, 2, 3] (at_ σ euler [3, 2, 1]) := by
  have hr : ∀ st, Call.exec (cfg st euler) (.init 0) { w := world, s := { tPrev := 0 } } = .ok () (at_ st euler []) :=
    fun st => eq_of_returns (by cases st <;> decide +kernel)
  refine ⟨closed st euler (by simp), closed σ euler (by simp), ?_, ?_, ?_, ?_, ?_, ?_, ?_, runs st, runs σ⟩
  · exact .init world 0 0 (new st euler).done rfl (hr st)
  · exact .call (.init 0) (.new world 0 (new st euler)) rfl (hr st)
  · exact .init (cfg := cfg σ euler) world 0 0 (new σ euler).done rfl (hr σ)
  · exact .call (cfg := cfg σ euler) (.init 0) (.new world 0 (new σ euler)) rfl (hr σ)
  all_goals cases st <;> cases σ <;> decide +kernel

/-- The hypotheses of `C79_untriggered` for the same diagram with a trigger that is never set. -/
example (st : Strategy) : ∃ V, (∀ (mem : BlkId → Mem ℚ) (t : ℚ) (x : List ℚ) (val : SigId → Option (Val ℚ)), Solution { cfg st euler with modelInput := fun _ => ([(0, .scalar 1), (1, .bool false)], none) } V mem t x val →
      ∀ l ∈ (cfg st euler).model.leaves, ∀ x tr o, l.kind = .trigInt x tr o → isSet val tr = false) ∧
    (∀ l ∈ (cfg st euler).model.leaves, ∀ x tr o, l.kind = .trigInt x tr o → (world.mem l.id).triggered = false) ∧ (cfg st euler).Stands V world.mem [5] := by
  refine ⟨⟨[2], [], fun _ => 1⟩, ?_, fun _ _ _ _ _ _ => rfl, ?_⟩
  · intro mem t x val h l hl x tr o hk
    rw [leaves_eq] at hl
    cases List.mem_singleton.1 hl
    cases hk
    have := h.input (1, .bool false) (.tail _ (.head _))
    simp only [isSet, this]
  · exact ⟨[5], [], .cons rfl .nil, .nil, rfl⟩

end Pooya.C79
