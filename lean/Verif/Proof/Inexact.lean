import Verif.Proof.Orders
import Verif.Props.C70

/-! A program that simulates a drawing with errors. -/

namespace Pooya.Acc

open Pooya Set

set_option linter.unusedSectionVars false

variable {d d' : Sketch} {R ρ a b t0 : ℝ} {rank : BlkId → Nat}

/-! ### The drawing of the program -/

theorem within_integrator {p p' : Part} (h : p.Within R ρ a b p') : p'.isIntegrator = p.isIntegrator := by
  cases p <;> cases p' <;> first | rfl | exact h.elim

theorem within_delay {p p' : Part} (h : p.Within R ρ a b p') : p'.isDelay = p.isDelay := by
  cases p <;> cases p' <;> first | rfl | exact h.elim

theorem forall₂_map {α β γ : Type} {P : α → β → Prop} {f : α → γ} {g : β → γ} (hP : ∀ x y, P x y → g y = f x) {xs : List α} {ys : List β} (h : List.Forall₂ P xs ys) :
    ys.map g = xs.map f := by
  induction h with
  | nil => rfl
  | cons h1 _ ih => rw [List.map_cons, List.map_cons, hP _ _ h1, ih]

theorem within_closed (h : d.Within R ρ a b d') (hc : d.Closed rank) : d'.Closed rank := by
  have e1 : d'.pieces.map Piece.id = d.pieces.map Piece.id := forall₂_map (fun _ _ q => q.1) h.pieces
  have e2 : d'.pieces.map Piece.out = d.pieces.map Piece.out := forall₂_map (fun _ _ q => q.2.2.1) h.pieces
  have e3 : d'.inputs.map Prod.fst = d.inputs.map Prod.fst := forall₂_map (fun _ _ q => q.1) h.inputs
  refine ⟨e1 ▸ hc.ids, by rw [e2, e3]; exact hc.once, fun p' hp' s hs => ?_, fun u' hu' => ?_, fun p' hp' hi q' hq' ho => ?_⟩
  · obtain ⟨p, hp, _, k2, _⟩ := forall₂_right h.pieces hp'
    rw [e2, e3]
    exact hc.provided p hp s (k2 ▸ hs)
  · obtain ⟨u, hu, k⟩ := forall₂_right h.inputs hu'
    obtain ⟨p, hp, hm⟩ := hc.used u hu
    obtain ⟨p', hp', _, k2, _⟩ := forall₂_left h.pieces hp
    exact ⟨p', hp', by rw [k2, k.1]; exact hm⟩
  · obtain ⟨p, hp, k1, k2, k3, k4⟩ := forall₂_right h.pieces hp'
    obtain ⟨q, hq, l1, l2, l3, l4⟩ := forall₂_right h.pieces hq'
    rw [within_integrator k4] at hi
    rw [within_integrator l4, l1, k1]
    exact hc.loops p hp hi q hq (by rw [← l3, ← k2]; exact ho)

/-! ### The equations -/

section
variable [A : Arith ℝ]

theorem folded_scalars (f : ℝ → ℝ → ℝ) (val : SigId → Option (Val ℝ)) {xs : List SigId} (hv : ∀ x ∈ xs, ∃ z, val x = some (.scalar z)) (v : ℝ) {r : Val ℝ}
    (h : Folded val f (.scalar v) xs r) : r = .scalar ((xs.map (fun s => scal (val s))).foldl f v) := by
  induction xs generalizing v with
  | nil => cases h; rfl
  | cons x xs ih =>
    obtain ⟨z, hz⟩ := hv x (.head _)
    cases h with
    | cons h1 h2 h3 =>
      rw [hz] at h1
      cases h1
      cases h2
      rw [List.map_cons, List.foldl_cons, hz]
      exact ih (fun y hy => hv y (.tail _ hy)) _ h3

/-- Values that satisfy the equation of the block of the program satisfy that of the drawing, up to errors. -/
theorem makes_about {p p' : Piece} {l : Leaf ℝ} (e1 : p'.ins = p.ins) (e2 : p'.out = p.out) (hw : p.part.Within R ρ a b p'.part) (hm : p'.Makes l.kind)
    (hnd : p.part.isDelay = false) (hi : p.part.isIntegrator = false) {t : ℝ} {mem : Mem ℝ}
    {val : SigId → Option (Val ℝ)} (h : l.Solved t mem val) (hv : ∀ x ∈ p.ins, ∃ z, val x = some (.scalar z)) :
    (∃ z, val p.out = some (.scalar z)) ∧ (t ∈ Icc a b → p.About A R ρ t (fun s => scal (val s))) := by
  obtain ⟨id, part, ins, out⟩ := p
  obtain ⟨id', part', ins', out'⟩ := p'
  simp only at e1 e2
  subst e1 e2
  unfold Piece.Makes at hm
  unfold Piece.About
  unfold Leaf.Solved at h
  simp only at hm hw hi hv hnd ⊢
  have both : ∀ {f : ℝ → ℝ → ℝ} {x y : ℝ} {r : Val ℝ}, Both f (.scalar x) (.scalar y) r → r = .scalar (f x y) := by
    intro f x y r h; cases h; rfl
  match part, part', hw with
  | .const v, .const v', hw =>
    match ins', hm with
    | [], hm => rw [hm] at h; simp only at h; exact ⟨⟨_, h⟩, fun _ => by rw [h]; exact hw⟩
  | .source f, .source f', hw =>
    rw [hm] at h; simp only at h
    obtain ⟨v, e1, e2⟩ := h
    cases e1
    exact ⟨⟨_, e2⟩, fun ht => by simp only; rw [e2]; exact hw t ht⟩
  | .gain k, .gain k', hw =>
    match ins', hm, hv with
    | [x], hm, hv =>
      rw [hm] at h; simp only at h
      obtain ⟨z, hz⟩ := hv _ (.head _)
      obtain ⟨a, r, e1, e2, e3⟩ := h
      rw [hz] at e1; cases e1
      cases e2
      exact ⟨⟨_, e3⟩, fun _ => ⟨k', hw, by rw [e3, hz]; rfl⟩⟩
  | .add v, .add v', hw =>
    rw [hm] at h; simp only at h
    obtain ⟨r, e1, e2⟩ := h
    have := folded_scalars _ _ hv _ e1
    subst this
    exact ⟨⟨_, e2⟩, fun _ => ⟨v', hw, by rw [e2]; rfl⟩⟩
  | .multiply v, .multiply v', hw =>
    rw [hm] at h; simp only at h
    obtain ⟨r, e1, e2⟩ := h
    have := folded_scalars _ _ hv _ e1
    subst this
    exact ⟨⟨_, e2⟩, fun _ => ⟨v', hw, by rw [e2]; rfl⟩⟩
  | .subtract, .subtract, hw =>
    match ins', hm, hv with
    | [x, y], hm, hv =>
      rw [hm] at h; simp only at h
      obtain ⟨z, hz⟩ := hv _ (.head _)
      obtain ⟨u, hu⟩ := hv _ (.tail _ (.head _))
      obtain ⟨a, b, r, e1, e2, e3, e4⟩ := h
      rw [hz] at e1; cases e1
      rw [hu] at e2; cases e2
      cases both e3
      exact ⟨⟨_, e4⟩, fun _ => by simp only; rw [e4, hz, hu]; rfl⟩
  | .divide, .divide, hw =>
    match ins', hm, hv with
    | [x, y], hm, hv =>
      rw [hm] at h; simp only at h
      obtain ⟨z, hz⟩ := hv _ (.head _)
      obtain ⟨u, hu⟩ := hv _ (.tail _ (.head _))
      obtain ⟨a, b, r, e1, e2, e3, e4⟩ := h
      rw [hz] at e1; cases e1
      rw [hu] at e2; cases e2
      cases both e3
      exact ⟨⟨_, e4⟩, fun _ => by simp only; rw [e4, hz, hu]; rfl⟩
  | .pipe, .pipe, hw =>
    match ins', hm, hv with
    | [x], hm, hv =>
      rw [hm] at h; simp only at h
      obtain ⟨z, hz⟩ := hv _ (.head _)
      obtain ⟨v, e1, e2⟩ := h
      rw [hz] at e1; cases e1
      exact ⟨⟨_, e2⟩, fun _ => by simp only; rw [e2, hz]⟩
  | .siso f, .siso f', hw =>
    match ins', hm, hv with
    | [x], hm, hv =>
      rw [hm] at h; simp only at h
      obtain ⟨z, hz⟩ := hv _ (.head _)
      obtain ⟨v, r, e1, e2, e3⟩ := h
      rw [hz] at e1; cases e1
      cases e2
      exact ⟨⟨_, e3⟩, fun ht hR => by rw [e3]; rw [hz] at hR ⊢; exact hw t ht _ hR⟩
  | .func f, .func f', hw =>
    match ins', hm, hv with
    | x :: _, hm, hv =>
      rw [hm] at h; simp only at h
      obtain ⟨z, hz⟩ := hv _ (.head _)
      obtain ⟨vs, e1, _, e3⟩ := h
      cases e1 with
      | cons h1 h2 =>
        cases h2
        rw [hz] at h1; cases h1
        have e3 := e3 0 out' _ rfl rfl
        exact ⟨⟨_, e3⟩, fun ht hR => by rw [e3]; rw [hz] at hR ⊢; exact hw t ht _ hR⟩
  | .integrator _, .integrator _, _ => cases hi
  | .delay _, .delay _, _ => cases hnd

variable {cfg : Config ℝ} {ws : List (Wire ℝ)} {wd : World ℝ} {st : Stepper ℝ}

/-- A solution of the diagram gives a solution of the drawing, up to errors. -/
theorem solution_about (h : cfg.Drawn d' ws) (hw : d.Within R ρ a b d') (hc : d.Closed rank) (hnd : ∀ p ∈ d.pieces, p.part.isDelay = false) {V : Vars} (hV : V.Of d')
    {mem : BlkId → Mem ℝ} {t : ℝ} {x : List ℝ} {val : SigId → Option (Val ℝ)} (hs : Solution (cfg.with st) V mem t x val) :
    (∀ s ∈ d.signals, ∃ z, val s = some (.scalar z)) ∧ (t ∈ Icc a b → d.About A R ρ t (fun s => scal (val s))) := by
  have hc' := within_closed hw hc
  have hin : ∀ u ∈ d.inputs, ∃ z, val u.1 = some (.scalar z) ∧ (t ∈ Icc a b → |z - u.2 t| ≤ ρ) := fun u hu => by
    obtain ⟨u', hu', k1, k2⟩ := forall₂_left hw.inputs hu
    refine ⟨u'.2 t, ?_, k2 t⟩
    rw [← k1]
    refine hs.input (u'.1, .scalar (u'.2 t)) ?_
    show _ ∈ cfg.inputVals t
    rw [h.draws.vals]; exact List.mem_map_of_mem (f := fun u : SigId × (ℝ → ℝ) => (u.1, Val.scalar (u.2 t))) hu'
  have hst : ∀ p ∈ d.pieces, p.part.isIntegrator = true → ∃ z, val p.out = some (.scalar z) := fun p hp hi => by
    have := hs.state
    rw [hV.arrays, packed_scalars] at this
    obtain ⟨p', hp', k1, k2, k3, k4⟩ := forall₂_left hw.pieces hp
    obtain ⟨z, _, e⟩ := forall₂_left this ((hV.scalars _).2 ⟨p', hp', by rw [within_integrator k4]; exact hi, rfl⟩)
    exact ⟨z, by rw [← k3]; exact e⟩
  have key : ∀ n, ∀ p ∈ d.pieces, rank p.id = n → (∃ z, val p.out = some (.scalar z)) ∧ (t ∈ Icc a b → p.About A R ρ t (fun s => scal (val s))) := by
    intro n
    induction n using Nat.strong_induction_on with
    | _ n ih =>
      intro p hp hn
      obtain ⟨p', hp', k1, k2, k3, k4⟩ := forall₂_left hw.pieces hp
      obtain ⟨l, hl, hlid, hf, hm⟩ := h.leaf_of hp'
      cases hi : p.part.isIntegrator with
      | true =>
        refine ⟨hst p hp hi, fun _ => ?_⟩
        obtain ⟨x, e1, _⟩ := hm.slope (by rw [within_integrator k4]; exact hi)
        rw [k2] at e1
        unfold Piece.About
        obtain ⟨id, part, ins, out⟩ := p
        cases part <;> (simp only at e1; subst e1; trivial)
      | false =>
        have hins : ∀ x ∈ p.ins, ∃ z, val x = some (.scalar z) := by
          intro x hx
          rcases List.mem_append.1 (hc.provided p hp x hx) with hx' | hx'
          · obtain ⟨q, hq, rfl⟩ := List.mem_map.1 hx'
            rcases hc.loops p hp hi q hq hx with k | k
            · exact hst q hq k
            · exact (ih _ (hn ▸ k) q hq rfl).1
          · obtain ⟨u, hu, rfl⟩ := List.mem_map.1 hx'
            obtain ⟨z, q, _⟩ := hin u hu
            exact ⟨z, q⟩
        refine makes_about k2 k3 k4 hm (hnd p hp) hi (hs.block l hl (fun s f hlf hr => ?_)) hins
        obtain ⟨q, hq, hid', _, hm', hreq⟩ := h.leaf hl
        have : q = p' := Piece.eq_of_out hc' hq hp' (by
          have := List.inj_on_of_nodup_map hc'.ids hq hp' (by rw [← hid']; assumption)
          rw [this])
        subst this
        rcases hreq s ⟨f, hlf, hr⟩ with ⟨_, k⟩ | k
        · obtain ⟨z, hz⟩ := hins s (k2 ▸ k)
          exact ⟨_, hz⟩
        · rw [hm'.state, within_integrator k4, hi] at k
          cases k
  refine ⟨fun s hs => ?_, fun ht => ⟨fun p hp => (key _ p hp rfl).2 ht, fun u hu => by obtain ⟨z, q1, q2⟩ := hin u hu; rw [q1]; exact q2 ht⟩⟩
  rcases List.mem_append.1 hs with hs | hs
  · obtain ⟨p, hp, rfl⟩ := List.mem_map.1 hs
    exact (key _ p hp rfl).1
  · obtain ⟨u, hu, rfl⟩ := List.mem_map.1 hs
    obtain ⟨z, q, _⟩ := hin u hu
    exact ⟨z, q⟩

/-! ### The state signals -/

theorem sealed_with (h : cfg.Drawn d' ws) (hc : d'.Closed rank) (hw : wd.Begins d') (hst : st ∈ [euler, rk4]) : (cfg.with st).Sealed ws (fun s => (wd.sig s).ty) rank := by
  have q := h.closed hc hw
  refine ⟨q.dbg, q.assembled, q.proper, q.hash, q.sane, q.once, q.provided, q.loops, q.inputs, q.modelInput, q.inputOnce, q.inputFree, fun s e t1 t2 x => ?_, fun _ => rfl, q.reuse⟩
  cases e
  have := C44.C44_dimension x.length t1 x t2 rfl
  simp only [List.mem_cons, List.not_mem_nil, or_false] at hst
  rcases hst with rfl | rfl
  · exact this.1
  · exact this.2.1

theorem new_with (h : cfg.Drawn d' ws) (hw : wd.Begins d') : wd.New (cfg.with st) (fun s => (wd.sig s).ty) := by
  have q := h.new hw
  exact ⟨⟨q.fine.types, q.fine.cells, q.fine.members⟩, q.done, q.record⟩

theorem delays_with (h : cfg.Drawn d' ws) (hnd : ∀ p ∈ d'.pieces, p.part.isDelay = false) : ¬ (cfg.with st).Delays := by
  rintro ⟨l, hl, e⟩
  obtain ⟨p, hp, _, _, hm, _⟩ := h.leaf hl
  have := hnd p hp
  obtain ⟨id, part, ins, out⟩ := p
  unfold Piece.Makes at hm
  unfold Leaf.isDelay at e
  simp only at hm this
  split at hm <;> first | exact hm.elim | (cases this; done) | (rw [hm] at e; cases e)

theorem vars_with (h : cfg.Drawn d' ws) (hc : d'.Closed rank) (hnd : ∀ p ∈ d'.pieces, p.part.isDelay = false) (hw : wd.Begins d') (hst : st ∈ [euler, rk4]) {tPrev t0 : ℝ} {m0 : Machine ℝ}
    (hinit : Call.exec (cfg.with st) (.init t0) { w := wd, s := { tPrev := tPrev } } = .ok () m0) : m0.vars.Of d' := by
  have hcl := sealed_with h hc hw hst
  have hp := C59.C59_complete _ _ _ _ hcl
  have hord : (cfg.with st).Delays → OrderedArith ℝ := fun k => (delays_with h hnd k).elim
  obtain ⟨m0', g1, g2⟩ := C57.C57_init _ _ _ hp hord _ (.new wd tPrev (new_with h hw)) rfl t0
  rw [hinit] at g1
  cases g1
  have hat : Attended (cfg.with st) (fun s => (wd.sig s).ty) m0 := .call (.init t0) (.new wd tPrev (new_with h hw)) rfl hinit
  have hf := (attended_cared hp hord hat).fit g2.init
  have ht : ∀ s, (m0.w.sig s).ty = (wd.sig s).ty := hf.world.types
  have hs : ∀ s, (cfg.deriv s).isSome = true → ∃ p ∈ d'.pieces, p.part.isIntegrator = true ∧ s = p.out := by
    intro s e
    obtain ⟨l, hl, e⟩ := C59.deriv_state hcl e
    obtain ⟨p, hp, _, _, hm, _⟩ := h.leaf hl
    rw [hm.state] at e
    split at e
    · exact ⟨p, hp, by assumption, (Option.some.inj e).symm⟩
    · cases e
  have ha : arrayStatesOf (cfg.with st) m0.w = [] := by
    unfold arrayStatesOf
    refine List.filter_eq_nil_iff.2 (fun s _ k => ?_)
    rw [Bool.and_eq_true] at k
    obtain ⟨p, hp, _, rfl⟩ := hs s k.2
    rw [ht, (hw.types p hp).2] at k
    cases k.1
  have hperm := (h.draws.hash (scalarStatesOf (cfg.with st) m0.w))
  refine ⟨?_, fun s => ?_⟩
  · show m0.s.arrayStates = []
    rw [hf.call.layout.arrayStates, ha]
    exact List.perm_nil.1 (h.draws.hash [])
  · show s ∈ m0.s.scalarStates ↔ _
    rw [hf.call.layout.scalarStates]
    show s ∈ cfg.hash (scalarStatesOf (cfg.with st) m0.w) ↔ _
    rw [hperm.mem_iff]
    unfold scalarStatesOf
    rw [List.mem_filter, Bool.and_eq_true]
    constructor
    · exact fun k => hs s k.2.2
    · rintro ⟨p, hp, hi, rfl⟩
      obtain ⟨x, _, e⟩ := h.derivs hc hw hp hi
      obtain ⟨w, hm, hwp⟩ := h.wire p hp
      obtain ⟨l, hl, hfit⟩ := C59.wire_leaf hcl hm
      refine ⟨mem_linkedSigs (cfg.with st) _ (C59.link_of hl (hfit.links _ (.inr ((Piece.gives_iff hwp _).2 rfl)))), ?_, by show (cfg.deriv _).isSome = true; rw [e]; rfl⟩
      rw [decide_eq_true_eq, ht, (hw.types p hp).2]

/-! ### The steps -/

variable {n : Nat} {o g : Fin n → SigId} {V : Vars}

/-- What the steps need of the program. -/
structure Setup (cfg : Config ℝ) (st : Stepper ℝ) (d : Sketch) (o g : Fin n → SigId) (R ρ a b : ℝ) (V : Vars) : Prop where
  arrays : V.arrays = []
  solved : ∀ {mem : BlkId → Mem ℝ} {t : ℝ} {x : List ℝ} {val : SigId → Option (Val ℝ)}, Solution (cfg.with st) V mem t x val →
    (∀ s ∈ d.signals, ∃ z, val s = some (.scalar z)) ∧ (t ∈ Icc a b → d.About A R ρ t (fun s => scal (val s)))
  state : ∀ k, o k ∈ V.scalars
  deriv : ∀ k, cfg.deriv (o k) = some (g k)

theorem state_list {val : SigId → Option (Val ℝ)} {l : List SigId} {x : List ℝ} (h : List.Forall₂ (fun s v => val s = some (.scalar v)) l x) : x = l.map (fun s => scal (val s)) := by
  induction h with
  | nil => rfl
  | cons h1 _ ih => rw [List.map_cons, h1, ← ih]; rfl

theorem map_at {l : List SigId} {S T : SigId → ℝ} (h : l.map S = l.map T) {s : SigId} (hs : s ∈ l) : S s = T s := List.map_inj_left.1 h s hs

/-- One evaluation of the derivatives. -/
theorem Setup.rhs (h : Setup cfg st d o g R ρ a b V) {mem : BlkId → Mem ℝ} {t : ℝ} {S : SigId → ℝ} {dx : List ℝ} (hr : Rhs (cfg.with st) V mem t (V.scalars.map S) dx) :
    ∃ (Z : SigId → ℝ) (T : SigId → ℝ), dx = V.scalars.map T ∧ (t ∈ Icc a b → d.About A R ρ t Z) ∧ (∀ k, Z (o k) = S (o k)) ∧ ∀ k, T (o k) = Z (g k) := by
  obtain ⟨val, hs, hd⟩ := hr
  have h1 := hs.state
  rw [h.arrays, packed_scalars] at h1 hd
  refine ⟨fun s => scal (val s), _, state_list hd, (h.solved hs).2, fun k => (map_at (state_list h1) (h.state k)).symm, fun k => ?_⟩
  show scal ((cfg.deriv (o k)).bind val) = _
  rw [h.deriv k]
  rfl

theorem vadd_map (l : List SigId) (S T : SigId → ℝ) : vadd (l.map S) (l.map T) = l.map (fun s => S s +. T s) := by
  unfold vadd
  rw [List.zipWith_map]
  induction l with
  | nil => rfl
  | cons x l ih => rw [List.zipWith_cons_cons, List.map_cons, ih]

theorem vsmul_map (l : List SigId) (c : ℝ) (S : SigId → ℝ) : vsmul c (l.map S) = l.map (fun s => c *. S s) := by
  unfold vsmul
  rw [List.map_map]
  rfl

theorem Setup.euler (h : Setup cfg st d o g R ρ a b V) {mem : BlkId → Mem ℝ} {t u q : ℝ} {S : SigId → ℝ} {y : List ℝ}
    (hs : (Pooya.euler t (V.scalars.map S) u).By (Rhs (cfg.with st) V mem) (y, q)) :
    ∃ S', y = V.scalars.map S' ∧ EulerStep a b d o g A R ρ t u (fun k => S (o k)) (fun k => S' (o k)) := by
  obtain ⟨d1, h1, e⟩ := hs
  obtain ⟨Z, T, rfl, k1, k2, k3⟩ := h.rhs h1
  have e : (y, q) = (vadd (V.scalars.map S) (vsmul (u -. t) (V.scalars.map T)), u -. t) := e
  rw [vsmul_map, vadd_map] at e
  refine ⟨_, congrArg Prod.fst e, ⟨Z, k1, k2, fun k => ?_⟩⟩
  rw [k3]

theorem Setup.rk4 (h : Setup cfg st d o g R ρ a b V) {mem : BlkId → Mem ℝ} {t u q : ℝ} {S : SigId → ℝ} {y : List ℝ}
    (hs : (Pooya.rk4 t (V.scalars.map S) u).By (Rhs (cfg.with st) V mem) (y, q)) :
    ∃ S', y = V.scalars.map S' ∧ Rk4Step a b d o g A R ρ t u (fun k => S (o k)) (fun k => S' (o k)) := by
  obtain ⟨d1, h1, hs⟩ := hs
  obtain ⟨Z1, T1, rfl, a1, a2, a3⟩ := h.rhs h1
  obtain ⟨d2, h2, hs⟩ := hs
  rw [vsmul_map, vadd_map] at h2
  obtain ⟨Z2, T2, rfl, b1, b2, b3⟩ := h.rhs h2
  obtain ⟨d3, h3, hs⟩ := hs
  rw [vsmul_map, vadd_map] at h3
  obtain ⟨Z3, T3, rfl, c1, c2, c3⟩ := h.rhs h3
  obtain ⟨d4, h4, e⟩ := hs
  rw [vsmul_map, vadd_map] at h4
  obtain ⟨Z4, T4, rfl, f1, f2, f3⟩ := h.rhs h4
  simp only [vsmul_map, vadd_map] at e
  simp only [a3, b3, c3] at b2 c2 f2
  refine ⟨_, congrArg Prod.fst e, ⟨Z1, Z2, Z3, Z4, ⟨a1, a2⟩, ⟨b1, b2⟩, ⟨c1, c2⟩, ⟨f1, f2⟩, fun k => ?_⟩⟩
  rw [a3, b3, c3, f3]

/-- All steps. -/
theorem path_of (hst : st ∈ [Pooya.euler, Pooya.rk4]) (hne : V.scalars ≠ []) {Q : ℝ → (Fin n → ℝ) → ℝ → (Fin n → ℝ) → Prop}
    (hQ : ∀ {mem : BlkId → Mem ℝ} {t u q : ℝ} {S : SigId → ℝ} {y : List ℝ}, (st t (V.scalars.map S) u).By (Rhs (cfg.with st) V mem) (y, q) →
      ∃ S', y = V.scalars.map S' ∧ Q t (fun k => S (o k)) u (fun k => S' (o k))) {c e : Snapshot ℝ} {ts : List ℝ} (hp : @Passes ℝ A (Arith.before ℝ) (cfg.with st) V c ts e) :
    ∀ {S : SigId → ℝ}, c.state = V.scalars.map S → (∃ mem x, Solution (cfg.with st) V mem c.time x c.vals ∧ x = c.state) →
    ∃ S' : SigId → ℝ, e.state = V.scalars.map S' ∧ Path Q c.time (fun k => S (o k)) ts (fun k => S' (o k)) ∧
      ∃ mem, Solution (cfg.with st) V mem e.time e.state e.vals := by
  induction hp with
  | nil =>
    rintro S hS ⟨mem, x, hs, rfl⟩
    exact ⟨S, hS, .nil, mem, hs⟩
  | steps steps hv hst' htiles hone hev _ ih =>
    intro S hS _
    cases hst'
    have e1 := hone hst
    subst e1
    rw [hS] at hev
    cases hev with
    | last q1 q2 q3 q4 =>
      obtain ⟨S1, e2, hq⟩ := hQ q3
      obtain ⟨S', k1, k2, k3⟩ := ih e2 ⟨_, _, q4.solution, rfl⟩
      exact ⟨S', k1, .cons hq k2, k3⟩
    | step q1 q2 q3 q4 q5 => cases q5
  | sample hv _ _ _ =>
    rw [List.append_eq_nil_iff] at hv
    exact (hne hv.1).elim

/-! ### The simulation -/

theorem later_of (hA : A.Within R ρ) {t u : ℝ} (h : t < u) : Later t u where
  lt := (hA.lt _ _).trans (decide_eq_true h)
  back := (hA.lt _ _).trans (decide_eq_false (not_lt.2 h.le))
  ne := (hA.eq _ _).trans (decide_eq_false h.ne')
  self := (hA.lt _ _).trans (decide_eq_false (lt_irrefl _))
  length := (hA.le _ _).trans (decide_eq_true (le_refl _))

/-- The initial values. -/
theorem starts_of (hc : d'.Closed rank) : ∃ X0 : SigId → ℝ, ∀ p ∈ d'.pieces, ∀ x0, p.part = .integrator x0 → X0 p.out = x0 := by
  classical
  refine ⟨fun s => if h : ∃ x0, ∃ p ∈ d'.pieces, p.part = .integrator x0 ∧ p.out = s then h.choose else 0, fun p hp x0 e => ?_⟩
  have h : ∃ x0, ∃ q ∈ d'.pieces, q.part = .integrator x0 ∧ q.out = p.out := ⟨x0, p, hp, e, rfl⟩
  simp only [h, dite_true]
  obtain ⟨q, hq, e1, e2⟩ := h.choose_spec
  rw [Piece.eq_of_out hc hq hp e2, e] at e1
  exact (Part.integrator.inj e1).symm

/-- A simulation with errors: the program gets to all times, in steps with errors. -/
theorem erring {X : SigId → ℝ → ℝ} {sol : ℝ → (Fin n → ℝ) → SigId → ℝ} {T : ℝ} (ref : Ref d o g sol) (hd : Calm d rank t0 T X) (hnd : ∀ p ∈ d.pieces, p.part.isDelay = false)
    (hin : ∃ p ∈ d.pieces, p.part.isIntegrator = true) (hst : st ∈ [Pooya.euler, Pooya.rk4]) (hρ : 0 ≤ ρ) (hA : A.Within R ρ) (hW : d.Within R ρ t0 T d') (h : cfg.Draws d') (hw : wd.Begins d')
    {Q : ℝ → (Fin n → ℝ) → ℝ → (Fin n → ℝ) → Prop}
    (hQ : ∀ V, Setup cfg st d o g R ρ t0 T V → ∀ {mem : BlkId → Mem ℝ} {t u q : ℝ} {S : SigId → ℝ} {y : List ℝ}, (st t (V.scalars.map S) u).By (Rhs (cfg.with st) V mem) (y, q) →
      ∃ S', y = V.scalars.map S' ∧ Q t (fun k => S (o k)) u (fun k => S' (o k)))
    (tPrev minH maxH : ℝ) (h0 : (Arith.lit 0 <. minH) = true) (h1 : (minH <. maxH) = true) :
    ∃ m0, Call.exec (cfg.with st) (.init t0) { w := wd, s := { tPrev := tPrev } } = .ok () m0 ∧ ∀ ts : List ℝ, (t0 :: ts).IsChain (· < ·) → (t0 :: ts).getLast (by simp) ≤ T →
      (∃ m, RunsTo (cfg.with st) minH maxH m0 ts m) ∧ ∀ m, RunsTo (cfg.with st) minH maxH m0 ts m → ∃ (x0 z : Fin n → ℝ) (Z : SigId → ℝ), ‖x0 - path X o t0‖ ≤ ρ ∧ Path Q t0 x0 ts z ∧
        d.About A R ρ ((t0 :: ts).getLast (by simp)) Z ∧ (∀ k, Z (o k) = z k) ∧ ∀ s ∈ d.signals, m.w.shown s = some (.scalar (Z s)) := by
  obtain ⟨ws, hdr⟩ := h.drawn
  have hc' := within_closed hW hd.closed
  have hnd' : ∀ p ∈ d'.pieces, p.part.isDelay = false := fun p' hp' => by
    obtain ⟨p, hp, _, _, _, k⟩ := forall₂_right hW.pieces hp'
    rw [within_delay k]; exact hnd p hp
  have hst' : ∀ s, (cfg.with st).stepper = some s → s ∈ [Pooya.euler, Pooya.rk4] := fun s e => by cases e; exact hst
  obtain ⟨m0, V, x0, hinit, hVm, _, _, hstand, hcom, hpass⟩ := C70.C70_single (cfg.with st) ws _ rank (sealed_with hdr hc' hw hst)
    (fun w hm => by obtain ⟨p, hp, e⟩ := hdr.piece w hm; exact Piece.plain e) hst' (fun k => (delays_with hdr hnd' k).elim) wd (new_with hdr hw) hw.log tPrev t0 minH maxH h0 h1
  have hV : V.Of d' := hVm ▸ vars_with hdr hc' hnd' hw hst hinit
  have hset : Setup cfg st d o g R ρ t0 T V := by
    refine ⟨hV.arrays, fun hs => solution_about hdr hW hd.closed hnd hV hs, fun k => ?_, fun k => ?_⟩
    all_goals
      obtain ⟨p, hp, v, e1, e2, e3⟩ := ref.slot k
      obtain ⟨p', hp', k1, k2, k3, k4⟩ := forall₂_left hW.pieces hp
      have hi : p'.part.isIntegrator = true := by rw [within_integrator k4, e1]; rfl
    · exact (hV.scalars _).2 ⟨p', hp', hi, by rw [k3, e3]⟩
    · obtain ⟨x, q1, q2⟩ := hdr.derivs hc' hw hp' hi
      rw [k2, e2] at q1
      cases q1
      rw [← e3, ← k3]
      exact q2
  have hne : V.scalars ≠ [] := by
    obtain ⟨p, hp, hi⟩ := hin
    obtain ⟨p', hp', _, _, _, k4⟩ := forall₂_left hW.pieces hp
    exact List.ne_nil_of_mem ((hV.scalars _).2 ⟨p', hp', by rw [within_integrator k4]; exact hi, rfl⟩)
  obtain ⟨X0, hX0⟩ := starts_of hc'
  have hx0 : x0 = V.scalars.map X0 := packed_unique hstand (hdr.stands hc' hw hV hX0) (fun _ _ => rfl)
  refine ⟨m0, hinit, fun ts hch hl => ?_⟩
  obtain ⟨r1, r2⟩ := hpass ts (hch.imp fun s u hsu => later_of hA hsu)
  refine ⟨r1, fun m hm => ?_⟩
  obtain ⟨y, hy⟩ := r2 m hm
  obtain ⟨S, k1, k2, mem, k3⟩ := path_of hst hne (fun {_ _ _ _ _ _} => hQ V hset) hy hx0 ⟨_, _, hcom.solution, rfl⟩
  obtain ⟨a1, a2⟩ := hset.solved k3
  have hge := last_ge (R := (· < ·)) (fun _ _ => le_of_lt) ts t0 hch
  refine ⟨_, _, fun s => scal (m.w.shown s), ?_, k2, a2 ⟨hge, hl⟩, fun k => ?_, fun s hs => ?_⟩
  · rw [pi_norm_le_iff_of_nonneg hρ]
    intro k
    obtain ⟨p, hp, v, e1, e2, e3⟩ := ref.slot k
    obtain ⟨p', hp', l1, l2, l3, l4⟩ := forall₂_left hW.pieces hp
    rw [e1] at l4
    cases hp2 : p'.part with
    | integrator v' =>
      rw [hp2] at l4
      have q1 := hX0 p' hp' v' hp2
      have q2 := hd.course.initial p hp v e1
      rw [l3, e3] at q1
      rw [e3] at q2
      show |X0 (o k) - X (o k) t0| ≤ ρ
      rw [q1, q2]
      exact l4
    | _ => rw [hp2] at l4; exact l4.elim
  · have := k3.state
    rw [hV.arrays, packed_scalars] at this
    exact (map_at ((state_list this).symm.trans k1) (hset.state k))
  · obtain ⟨z, hz⟩ := a1 s hs
    have hz : m.w.shown s = some (.scalar z) := hz
    simp only [hz]
    rfl

end

end Pooya.Acc
