import Verif.Proof.Lag
import Verif.Props.C69

/-! Simulated drawings keep close to the course. -/

namespace Pooya.C66

open Pooya Set

set_option linter.unusedSectionVars false

attribute [local instance] Arith.exact

variable {cfg : Config ℝ} {d : Sketch} {ws : List (Wire ℝ)} {rank : BlkId → Nat} {wd : World ℝ}

theorem ofFn_signals {n : Nat} {l : List SigId} (hn : n = l.length) (f : SigId → ℝ) : List.ofFn (fun i : Fin n => f (l.getD i 0)) = l.map f := by
  subst hn
  refine List.ext_getElem (by simp) (fun i h1 h2 => ?_)
  simp only [List.length_ofFn] at h1
  simp [h1]

theorem at_signals {n : Nat} {l : List SigId} (hn : n = l.length) {R : SigId → ℝ → Prop} {x : Fin n → ℝ} (h : List.Forall₂ R l (List.ofFn x)) (i : Fin n) :
    R (l.getD i 0) (x i) := by
  subst hn
  have := (List.forall₂_iff_get.1 h).2 i i.2 (by simp)
  simpa using this

/-- The state signals after `init`. -/
theorem vars_of (h : cfg.Drawn d ws) (hc : d.Closed rank) (hw : wd.Begins d) {tPrev t0 : ℝ} {m0 : Machine ℝ}
    (hinit : Call.exec cfg (.init t0) { w := wd, s := { tPrev := tPrev } } = .ok () m0) :
    m0.vars.Of d ∧ m0.s.nState = m0.vars.scalars.length := by
  have hcl := h.closed hc hw
  have hp := C59.C59_complete _ _ _ _ hcl
  have hord : cfg.Delays → OrderedArith ℝ := fun _ => C57.ordered_exact
  obtain ⟨m0', g1, g2⟩ := C57.C57_init _ _ _ hp hord _ (.new wd tPrev (h.new hw)) rfl t0
  rw [hinit] at g1
  cases g1
  have hat : Attended cfg (fun s => (wd.sig s).ty) m0 := .call (.init t0) (.new wd tPrev (h.new hw)) rfl hinit
  have hf := (attended_cared hp hord hat).fit g2.init
  have ht : ∀ s, (m0.w.sig s).ty = (wd.sig s).ty := hf.world.types
  have hst : ∀ s, (cfg.deriv s).isSome = true → ∃ p ∈ d.pieces, p.part.isIntegrator = true ∧ s = p.out := by
    intro s e
    obtain ⟨l, hl, e⟩ := C59.deriv_state hcl e
    obtain ⟨p, hp, _, _, hm, _⟩ := h.leaf hl
    rw [hm.state] at e
    split at e
    · exact ⟨p, hp, by assumption, (Option.some.inj e).symm⟩
    · cases e
  have ha : arrayStatesOf cfg m0.w = [] := by
    unfold arrayStatesOf
    refine List.filter_eq_nil_iff.2 (fun s _ k => ?_)
    rw [Bool.and_eq_true] at k
    obtain ⟨p, hp, _, rfl⟩ := hst s k.2
    rw [ht, (hw.types p hp).2] at k
    cases k.1
  have hperm := (h.draws.hash (scalarStatesOf cfg m0.w))
  refine ⟨⟨?_, fun s => ?_⟩, ?_⟩
  · show m0.s.arrayStates = []
    rw [hf.call.layout.arrayStates, ha]
    exact List.perm_nil.1 (h.draws.hash [])
  · show s ∈ m0.s.scalarStates ↔ _
    rw [hf.call.layout.scalarStates, hperm.mem_iff]
    unfold scalarStatesOf
    rw [List.mem_filter, Bool.and_eq_true]
    constructor
    · exact fun k => hst s k.2.2
    · rintro ⟨p, hp, hi, rfl⟩
      obtain ⟨x, _, e⟩ := h.derivs hc hw hp hi
      obtain ⟨w, hm, hwp⟩ := h.wire p hp
      obtain ⟨l, hl, hfit⟩ := C59.wire_leaf hcl hm
      refine ⟨mem_linkedSigs cfg _ (C59.link_of hl (hfit.links _ (.inr ((Piece.gives_iff hwp _).2 rfl)))), ?_, by rw [e]; rfl⟩
      rw [decide_eq_true_eq, ht, (hw.types p hp).2]
  · rw [hf.call.layout.nState]
    show stateSize cfg m0.w = m0.s.scalarStates.length
    rw [hf.call.layout.scalarStates, hperm.length_eq]
    unfold stateSize
    rw [ha]
    rfl

/-- The state of the course. -/
def states (V : Vars) (X : SigId → ℝ → ℝ) (n : Nat) (t : ℝ) : Fin n → ℝ := fun i => X (V.scalars.getD i 0) t

/-- Its derivative. -/
def slopes (cfg : Config ℝ) (V : Vars) (X : SigId → ℝ → ℝ) (n : Nat) (t : ℝ) : Fin n → ℝ := fun i => X ((cfg.deriv (V.scalars.getD i 0)).getD 0) t

/-- The state signals of the machine. -/
theorem slot (h : cfg.Drawn d ws) (hc : d.Closed rank) (hw : wd.Begins d) {V : Vars} (hV : V.Of d) {n : Nat} (hn : n = V.scalars.length) (i : Fin n) :
    ∃ p ∈ d.pieces, p.part.isIntegrator = true ∧ V.scalars.getD i 0 = p.out ∧ ∃ x, p.ins = [x] ∧ cfg.deriv p.out = some x ∧ x ∈ d.signals := by
  have hi : (i : Nat) < V.scalars.length := hn ▸ i.2
  have hm : V.scalars.getD i 0 ∈ V.scalars := by
    rw [List.getD_eq_getElem?_getD, List.getElem?_eq_getElem hi]
    exact List.getElem_mem hi
  obtain ⟨p, hp, hint, e⟩ := (hV.scalars _).1 hm
  obtain ⟨x, e1, e2⟩ := h.derivs hc hw hp hint
  exact ⟨p, hp, hint, e, x, e1, e2, hc.provided p hp x (by rw [e1]; exact .head _)⟩

/-- The states are those of the vector. -/
theorem state_at {V : Vars} (hV : V.Of d) {n : Nat} (hn : n = V.scalars.length) {mem : BlkId → Mem ℝ} {t : ℝ} {x : Fin n → ℝ} {val : SigId → Option (Val ℝ)}
    (hs : Solution cfg V mem t (List.ofFn x) val) (i : Fin n) : val (V.scalars.getD i 0) = some (.scalar (x i)) := by
  have hst := hs.state
  rw [hV.arrays, packed_scalars] at hst
  exact at_signals hn hst i

/-- Solutions of the equations are as far off the course as their states. -/
theorem off_of (h : cfg.Drawn d ws) (hc : d.Closed rank) {V : Vars} (hV : V.Of d) {n : Nat} (hn : n = V.scalars.length) {X : SigId → ℝ → ℝ}
    {mem : BlkId → Mem ℝ} {t : ℝ} {x : Fin n → ℝ} {val : SigId → Option (Val ℝ)} (hs : Solution cfg V mem t (List.ofFn x) val)
    (hxs : ∀ p ∈ d.pieces, p.part.isDelay = true → ∀ v ∈ (mem p.id).xs, ∃ z, v = .scalar z) : d.Off X t ‖x - states V X n t‖ (fun s => scal (val s)) := by
  refine ⟨(h.meets hc hV hs hxs).2, fun p hp hi => ?_⟩
  have hmem := (hV.scalars _).2 ⟨p, hp, hi, rfl⟩
  obtain ⟨j, hj, e⟩ := List.getElem_of_mem hmem
  have hjn : j < n := hn ▸ hj
  have e' : V.scalars.getD j 0 = p.out := by rw [List.getD_eq_getElem?_getD, List.getElem?_eq_getElem hj, e]; rfl
  have q := state_at hV hn hs ⟨j, hjn⟩
  simp only at q
  rw [e'] at q
  have := norm_le_pi_norm (x - states V X n t) ⟨j, hjn⟩
  rw [Pi.sub_apply, Real.norm_eq_abs] at this
  simp only [q]
  unfold states at this
  simp only [e'] at this
  exact this

/-- The state of the course is continuous. -/
theorem states_cont (h : cfg.Drawn d ws) (hc : d.Closed rank) (hw : wd.Begins d) {V : Vars} (hV : V.Of d) {n : Nat} (hn : n = V.scalars.length)
    {J : Finset ℝ} {t0 T : ℝ} {X : SigId → ℝ → ℝ} (hX : d.Course J t0 T X) : ContinuousOn (states V X n) (Icc t0 T) := by
  refine continuousOn_pi.2 fun i => ?_
  obtain ⟨p, hp, hi, e, x, e1, e2, _⟩ := slot h hc hw hV hn i
  unfold states
  rw [e]
  exact hX.cont p hp hi

theorem states_deriv (h : cfg.Drawn d ws) (hc : d.Closed rank) (hw : wd.Begins d) {V : Vars} (hV : V.Of d) {n : Nat} (hn : n = V.scalars.length)
    {J : Finset ℝ} {t0 T : ℝ} {X : SigId → ℝ → ℝ} (hX : d.Course J t0 T X) :
    ∀ t ∈ Icc t0 T, t ∉ J → HasDerivWithinAt (states V X n) (slopes cfg V X n t) (Icc t0 T) t := by
  intro t ht hJ
  rw [hasDerivWithinAt_pi]
  intro i
  obtain ⟨p, hp, hi, e, x, e1, e2, _⟩ := slot h hc hw hV hn i
  unfold states slopes
  rw [e, e2, Option.getD_some]
  cases hpart : p.part with
  | integrator x0 => exact hX.integrates p hp x0 x hpart e1 t ht hJ
  | _ => rw [hpart] at hi; cases hi

theorem slopes_cont (h : cfg.Drawn d ws) (hc : d.Closed rank) (hw : wd.Begins d) {V : Vars} (hV : V.Of d) {n : Nat} (hn : n = V.scalars.length)
    {J : Finset ℝ} {t0 T : ℝ} {X : SigId → ℝ → ℝ} (hr : ∀ s ∈ d.signals, Nice d J t0 T X (fun _ Z => Z s)) : ContinuousOn (slopes cfg V X n) (Icc t0 T \ J) := by
  rw [continuousOn_pi]
  intro i
  obtain ⟨p, hp, hi, e, y, e1, e2, hy⟩ := slot h hc hw hV hn i
  unfold slopes
  simp only [e, e2, Option.getD_some]
  exact (hr y hy).cont

theorem slopes_bounded (h : cfg.Drawn d ws) (hc : d.Closed rank) (hw : wd.Begins d) {V : Vars} (hV : V.Of d) {n : Nat} (hn : n = V.scalars.length)
    {J : Finset ℝ} {t0 T : ℝ} {X : SigId → ℝ → ℝ} (hr : ∀ s ∈ d.signals, Nice d J t0 T X (fun _ Z => Z s)) : ∃ K, ∀ t ∈ Icc t0 T, ‖slopes cfg V X n t‖ ≤ K := by
  have hb : ∀ i : Fin n, ∃ K ≥ 0, ∀ t ∈ Icc t0 T, |slopes cfg V X n t i| ≤ K := by
    intro i
    obtain ⟨p, hp, hi, e, y, e1, e2, hy⟩ := slot h hc hw hV hn i
    unfold slopes
    simp only [e, e2, Option.getD_some]
    exact (hr y hy).bound
  choose K hK0 hK using hb
  have hsum : ∀ i, K i ≤ ∑ j, K j := fun i => Finset.single_le_sum (fun j _ => hK0 j) (Finset.mem_univ i)
  exact ⟨∑ j, K j, fun t ht => (pi_norm_le_iff_of_nonneg (Finset.sum_nonneg fun j _ => hK0 j)).2 fun i => (hK i t ht).trans (hsum i)⟩

/-- The derivatives are as close to those of the course as all signals. -/
theorem slopes_near (h : cfg.Drawn d ws) (hc : d.Closed rank) (hw : wd.Begins d) {V : Vars} (hV : V.Of d) {n : Nat} (hn : n = V.scalars.length)
    {X : SigId → ℝ → ℝ} {t B : ℝ} (hB : 0 ≤ B) {val : SigId → Option (Val ℝ)} {dx : Fin n → ℝ}
    (near : ∀ s ∈ d.signals, ∃ v, val s = some (.scalar v) ∧ |v - X s t| ≤ B)
    (hd : Packed (fun s => (cfg.deriv s).bind val) (fun s => (cfg.deriv s).elim 0 V.size) V.scalars V.arrays (List.ofFn dx)) : ‖dx - slopes cfg V X n t‖ ≤ B := by
  rw [pi_norm_le_iff_of_nonneg hB]
  intro i
  obtain ⟨p, hp, hi, e, y, e1, e2, hy⟩ := slot h hc hw hV hn i
  rw [hV.arrays, packed_scalars] at hd
  have q := at_signals hn hd i
  simp only [e, e2, Option.bind_some] at q
  obtain ⟨v, hv, hb⟩ := near y hy
  rw [hv] at q
  cases q
  rw [Pi.sub_apply, Real.norm_eq_abs]
  unfold slopes
  rw [e, e2, Option.getD_some]
  exact hb

/-- The course of a drawing without delays solves the differential equation of the diagram. -/
theorem solves (h : cfg.Drawn d ws) (hc : d.Closed rank) (hw : wd.Begins d) {V : Vars} (hV : V.Of d) {n : Nat} (hn : n = V.scalars.length)
    (hnd : ∀ p ∈ d.pieces, p.part.isDelay = false)
    {J : Finset ℝ} {t0 T : ℝ} {X : SigId → ℝ → ℝ} (hX : d.Course J t0 T X) (hr : ∀ s ∈ d.signals, Nice d J t0 T X (fun _ Z => Z s)) :
    ∃ r > 0, ∃ L ≥ 0, C61.Solves cfg V wd.mem J t0 T (states V X n) (slopes cfg V X n) r L ∧ ContinuousOn (slopes cfg V X n) (Icc t0 T \ J) ∧
      (∃ K, ∀ t ∈ Icc t0 T, ‖slopes cfg V X n t‖ ≤ K) ∧
      ∀ t ∈ Icc t0 T, ∀ (mem : BlkId → Mem ℝ) (x : Fin n → ℝ) (val : SigId → Option (Val ℝ)), ‖x - states V X n t‖ ≤ r →
        Solution cfg V mem t (List.ofFn x) val → ∀ s ∈ d.signals, ∃ v, val s = some (.scalar v) ∧ |v - X s t| ≤ L * ‖x - states V X n t‖ := by
  obtain ⟨r, hr0, L, hL, hu⟩ := Nice.uniform hr
  have hxs : ∀ mem : BlkId → Mem ℝ, ∀ p ∈ d.pieces, p.part.isDelay = true → ∀ v ∈ (mem p.id).xs, ∃ z, v = Val.scalar z :=
    fun mem p hp e => by rw [hnd p hp] at e; cases e
  have near : ∀ t ∈ Icc t0 T, ∀ (mem : BlkId → Mem ℝ) (x : Fin n → ℝ) (val : SigId → Option (Val ℝ)), ‖x - states V X n t‖ ≤ r →
        Solution cfg V mem t (List.ofFn x) val → ∀ s ∈ d.signals, ∃ v, val s = some (.scalar v) ∧ |v - X s t| ≤ L * ‖x - states V X n t‖ := by
    intro t ht mem x val hx hs s hsig
    obtain ⟨v, hv⟩ := (h.meets hc hV hs (hxs mem)).1 s hsig
    have off := off_of h hc hV hn (X := X) hs (hxs mem)
    have := hu s hsig t ht _ (norm_nonneg _) hx _ ⟨[], ⟨ht, off, fun p hp life x e i k => by have := hnd p hp; rw [k] at this; cases this⟩, trivial⟩
    simp only [hv] at this
    exact ⟨v, hv, this⟩
  refine ⟨r, hr0, L, hL, ⟨?_, states_cont h hc hw hV hn hX, states_deriv h hc hw hV hn hX, ?_, ?_⟩, slopes_cont h hc hw hV hn hr, slopes_bounded h hc hw hV hn hr, near⟩
  · unfold states
    rw [ofFn_signals hn (fun s => X s t0)]
    exact h.stands hc hw hV hX.initial
  · intro t ht
    refine ⟨fun s => some (.scalar (X s t)), ?_, ?_⟩
    · unfold states
      rw [ofFn_signals hn (fun s => X s t)]
      exact h.solution hnd hV wd.mem (hX.meets t ht)
    · unfold slopes
      rw [hV.arrays, packed_scalars, ofFn_signals hn (fun s => X ((cfg.deriv s).getD 0) t), List.forall₂_map_right_iff, List.forall₂_same]
      intro s hs
      obtain ⟨p, hp, hi, rfl⟩ := (hV.scalars s).1 hs
      obtain ⟨x, _, e⟩ := h.derivs hc hw hp hi
      rw [e]
      rfl
  · rintro t ht x dx hx ⟨val, hs, hd⟩
    exact slopes_near h hc hw hV hn (mul_nonneg hL (norm_nonneg _)) (near t ht _ x val hx hs) hd

/-! ### Delays -/

/-- The block of a `Delay`. -/
theorem delay_leaf (h : cfg.Drawn d ws) {p : Piece} (hp : p ∈ d.pieces) {life : ℝ} (e : p.part = .delay life) :
    ∃ x y i, p.ins = [x, y, i] ∧ ∃ l ∈ cfg.model.leaves, l.id = p.id ∧ l.kind = .delay life x y i p.out := by
  obtain ⟨l, hl, hid, _, hm⟩ := h.leaf_of hp
  obtain ⟨id, part, ins, out⟩ := p
  simp only at e
  subst e
  unfold Piece.Makes at hm
  match ins, hm with
  | [x, y, i], hm => exact ⟨x, y, i, rfl, l, hl, hid, hm⟩

/-- The blocks hold the past of the signals they delay. -/
structure Held (d : Sketch) (a η t : ℝ) (H : Past) (mem : BlkId → Mem ℝ) : Prop where
  dense : H.Dense a η t
  kept : ∀ p ∈ d.pieces, ∀ life x e i, p.part = .delay life → p.ins = [x, e, i] → H.Kept t life x (mem p.id)

/-- The delay times leave room for steps of size `η`. -/
def Slack (d : Sketch) (a b η : ℝ) : Prop :=
  ∀ p ∈ d.pieces, ∀ life x e i, p.part = .delay life → p.ins = [x, e, i] → ∃ g, d.Preset e g ∧ ∀ t ∈ Icc a b, 0 ≤ g t ∧ g t + η < life

/-- The delayed signals change by `ω` at most in times up to `η`. -/
def Slow (d : Sketch) (X : SigId → ℝ → ℝ) (a b η ω : ℝ) : Prop :=
  ∀ p ∈ d.pieces, ∀ life x e i, p.part = .delay life → p.ins = [x, e, i] → ∀ s ∈ Icc a b, ∀ q ∈ Icc a b, |s - q| ≤ η → |X x s - X x q| ≤ ω

theorem scalars_of (h : cfg.Drawn d ws) {t : ℝ} {H : Past} {mem : BlkId → Mem ℝ}
    (hk : ∀ p ∈ d.pieces, ∀ life x e i, p.part = .delay life → p.ins = [x, e, i] → H.Kept t life x (mem p.id)) :
    ∀ p ∈ d.pieces, p.part.isDelay = true → ∀ v ∈ (mem p.id).xs, ∃ z, v = Val.scalar z := by
  intro p hp hd
  obtain ⟨life, e⟩ : ∃ life, p.part = .delay life := by
    revert hd; cases p.part <;> simp [Part.isDelay]
  obtain ⟨x, y, i, e2, _⟩ := delay_leaf h hp e
  exact (hk p hp life x y i e e2).scalars

/-- The equation of a block. -/
theorem solved_at (h : cfg.Drawn d ws) {V : Vars} {mem : BlkId → Mem ℝ} {t : ℝ} {x : List ℝ} {val : SigId → Option (Val ℝ)}
    (hs : Solution cfg V mem t x val) (hval : ∀ s ∈ d.signals, ∃ z, val s = some (.scalar z)) (hc : d.Closed rank) {l : Leaf ℝ} (hl : l ∈ cfg.model.leaves) :
    l.Solved t (mem l.id) val := by
  obtain ⟨p, hp, _, _, hm, hreq⟩ := h.leaf hl
  refine hs.block l hl (fun s f hlf hr => ?_)
  rcases hreq s ⟨f, hlf, hr⟩ with ⟨_, k⟩ | k
  · obtain ⟨z, hz⟩ := hval s (hc.provided p hp s k)
    exact ⟨_, hz⟩
  · rw [hm.state] at k
    split at k
    · cases k
      obtain ⟨z, hz⟩ := hval p.out (List.mem_append.2 (.inl (List.mem_map_of_mem hp)))
      exact ⟨_, hz⟩
    · cases k

/-- What delays show. -/
theorem Held.recalls (h : cfg.Drawn d ws) (hc : d.Closed rank) {V : Vars} (hV : V.Of d) {X : SigId → ℝ → ℝ} {a b η ω δ t u : ℝ} {H : Past} {mem : BlkId → Mem ℝ}
    (hh : Held d a η t H mem) (hsl : Slack d a b η) (hω : Slow d X a b η ω) (hδ : ω ≤ δ) (hut : t ≤ u) (huη : u ≤ t + η) (hub : u ≤ b)
    {x : List ℝ} {val : SigId → Option (Val ℝ)} (hs : Solution cfg V mem u x val) : ∀ p ∈ d.pieces, p.Recalls a X δ H u (fun s => scal (val s)) := by
  intro p hp life x e i k1 k2
  obtain ⟨hval, hmeets⟩ := h.meets hc hV hs (scalars_of h hh.kept)
  obtain ⟨x', e', i', k2', l, hl, hid, hk⟩ := delay_leaf h hp k1
  rw [k2] at k2'
  cases k2'
  have hsv := solved_at h hs hval hc hl
  unfold Leaf.Solved at hsv
  rw [hk, hid] at hsv
  simp only at hsv
  obtain ⟨g, hg, hgl⟩ := hsl p hp life x e i k1 k2
  have hold := hh.dense.older
  obtain ⟨r0, H', hH, hr0⟩ : ∃ r0 H', H = r0 :: H' ∧ r0.1 = t := by
    have := hh.dense.head
    match H, this with
    | r0 :: H', this => exact ⟨r0, H', rfl, by simpa using this⟩
  have hau : a ≤ u := by have := (hold r0 (by rw [hH]; exact .head _)).1; linarith
  have hη0 : 0 ≤ η := by linarith
  obtain ⟨g0, g1⟩ := hgl u ⟨hau, hub⟩
  have hze : scal (val e) = g u := hg.eq hmeets
  obtain ⟨ze, hve⟩ := hval e (hc.provided p hp e (by rw [k2]; simp))
  obtain ⟨zi, hvi⟩ := hval i (hc.provided p hp i (by rw [k2]; simp))
  have hze' : ze = g u := by rw [hve] at hze; exact hze
  subst hze'
  have hkept := hh.kept p hp life x e i k1 k2
  have hne : (mem p.id).ts ≠ [] := by
    intro he
    obtain ⟨K, D, e1, e2, _, e4⟩ := hkept
    rw [he] at e2
    have : K = [] := by simpa using e2.symm
    subst this
    have := e4 r0 (by rw [List.nil_append] at e1; rw [← e1, hH]; exact .head _)
    linarith
  rw [if_neg hne] at hsv
  obtain ⟨dv, rv, e1, e2, init, e3, e4⟩ := hsv
  rw [hve] at e1
  cases e1
  simp only
  rw [hze]
  rcases hkept.recall hh.dense hut huη g0 g1 e3 with ⟨q1, rfl, t0, rest, q3, q4⟩ | ⟨q1, r, hr, r', hr', c, c0, c1, q2, q3, q4⟩
  · refine .inl ⟨q1, ?_⟩
    have := e4 ⟨t0, rest, q3, decide_eq_true q4⟩
    rw [e2, this]
  · refine .inr ⟨q1, r, hr, r', hr', c, c0, c1, ?_, ?_, ?_⟩
    · exact (hω p hp life x e i k1 k2 _ ⟨(hold r hr).1, by linarith [(hold r hr).2]⟩ _ ⟨q1.le, by linarith⟩ q2).trans hδ
    · exact (hω p hp life x e i k1 k2 _ ⟨(hold r' hr').1, by linarith [(hold r' hr').2]⟩ _ ⟨q1.le, by linarith⟩ q3).trans hδ
    · rw [e2, q4]; rfl

/-- At the beginning, delays show their initial values. -/
theorem recalls_first (h : cfg.Drawn d ws) (hc : d.Closed rank) {V : Vars} (hV : V.Of d) {X : SigId → ℝ → ℝ} {a b η δ : ℝ} {mem : BlkId → Mem ℝ}
    (he : ∀ p ∈ d.pieces, p.part.isDelay = true → (mem p.id).ts = [] ∧ (mem p.id).xs = []) (hsl : Slack d a b η) (hab : a ≤ b)
    {x : List ℝ} {val : SigId → Option (Val ℝ)} (hs : Solution cfg V mem a x val) : ∀ p ∈ d.pieces, p.Recalls a X δ [] a (fun s => scal (val s)) := by
  intro p hp life x e i k1 k2
  obtain ⟨hval, hmeets⟩ := h.meets hc hV hs (fun p hp hd v hv => by rw [(he p hp hd).2] at hv; cases hv)
  obtain ⟨x', e', i', k2', l, hl, hid, hk⟩ := delay_leaf h hp k1
  rw [k2] at k2'
  cases k2'
  have hsv := solved_at h hs hval hc hl
  unfold Leaf.Solved at hsv
  rw [hk, hid] at hsv
  simp only at hsv
  rw [if_pos (he p hp (by rw [k1]; rfl)).1] at hsv
  obtain ⟨v, e1, e2⟩ := hsv
  obtain ⟨g, hg, hgl⟩ := hsl p hp life x e i k1 k2
  have hze : scal (val e) = g a := hg.eq hmeets
  refine .inl ⟨?_, ?_⟩
  · simp only; rw [hze]; linarith [(hgl a ⟨le_refl _, hab⟩).1]
  · simp only; rw [e1, e2]

/-- The past, with the present. -/
theorem trace_of (h : cfg.Drawn d ws) (hc : d.Closed rank) {V : Vars} (hV : V.Of d) {n : Nat} (hn : n = V.scalars.length) {X : SigId → ℝ → ℝ} {a b δ u : ℝ} {H : Past}
    {mem : BlkId → Mem ℝ} (hxs : ∀ p ∈ d.pieces, p.part.isDelay = true → ∀ v ∈ (mem p.id).xs, ∃ z, v = Val.scalar z) {x : Fin n → ℝ} {val : SigId → Option (Val ℝ)}
    (hs : Solution cfg V mem u (List.ofFn x) val) (hr : ∀ p ∈ d.pieces, p.Recalls a X δ H u (fun s => scal (val s))) (hu : u ∈ Icc a b)
    (hδ : ‖x - states V X n u‖ ≤ δ) (ht : d.Trace a b X δ H) : d.Trace a b X δ ((u, fun s => scal (val s)) :: H) := by
  have off := off_of h hc hV hn (X := X) hs hxs
  exact ⟨⟨hu, ⟨off.meets, fun p hp hi => (off.states p hp hi).trans hδ⟩, hr⟩, ht⟩

/-! ### Steps -/

/-- The bound of the error at time `t`. -/
noncomputable def errorAt (L ω a : ℝ) (G : ℝ → ℝ) (t : ℝ) : ℝ := Real.exp (120 * L * (t - a)) * ((240 + 1) * (G t - G a) + ω)

/-- What is known of the drawing, its course and the size of the steps. -/
structure Plan (cfg : Config ℝ) (d : Sketch) (ws : List (Wire ℝ)) (rank : BlkId → Nat) (wd : World ℝ) (V : Vars) (n : Nat) (J : Finset ℝ) (a b : ℝ) (X : SigId → ℝ → ℝ)
    (r L W η ω : ℝ) (G : ℝ → ℝ) : Prop where
  drawn : cfg.Drawn d ws
  closed : d.Closed rank
  begins : wd.Begins d
  vars : V.Of d
  size : n = V.scalars.length
  unique : ∀ mem t x d d', Rhs cfg V mem t x d → Rhs cfg V mem t x d' → d = d'
  course : d.Course J a b X
  near : ∀ s ∈ d.signals, ∀ t ∈ Icc a b, ∀ δ, 0 ≤ δ → δ ≤ r → ∀ Z, d.Near a b X t δ Z → |Z s - X s t| ≤ L * δ
  slack : Slack d a b η
  slow : Slow d X a b η ω
  varies : Conv.Varies (slopes cfg V X n) a b W η G
  mono : Monotone G
  radius : 0 < r
  lip : 0 ≤ L
  bound : 0 ≤ W
  small : 0 ≤ ω
  steps : 0 ≤ η ∧ η * (120 * L) ≤ 1 ∧ η * (120 * (L * (r / 2) + 3 * W)) ≤ r / 2
  total : errorAt L ω a G b ≤ r / 2

theorem by_exec {R : ℝ → List ℝ → List ℝ → Prop} {f : ℝ → List ℝ → List ℝ} (hR : ∀ t x d, R t x d → d = f t x) {p : StepProg ℝ} {q : List ℝ × ℝ} (h : p.By R q) :
    q = p.exec (m := Id) f := by
  induction p with
  | ret v hh => exact h
  | call t v k ih =>
    obtain ⟨d, h1, h2⟩ := h
    have := hR _ _ _ h1
    subst this
    exact ih _ h2

section
variable {V : Vars} {n : Nat} {J : Finset ℝ} {a b : ℝ} {X : SigId → ℝ → ℝ} {r L W η ω : ℝ} {G : ℝ → ℝ}

theorem Plan.errorAt_mono (P : Plan cfg d ws rank wd V n J a b X r L W η ω G) {t u : ℝ} (ha : a ≤ t) (hu : t ≤ u) : errorAt L ω a G t ≤ errorAt L ω a G u := by
  unfold errorAt
  have h1 := P.mono ha
  have h2 := P.mono hu
  have h3 := P.small
  refine mul_le_mul (Real.exp_le_exp.2 (mul_le_mul_of_nonneg_left (by linarith) (by linarith [P.lip]))) (by linarith) (by linarith) (Real.exp_pos _).le

theorem Plan.errorAt_ge (P : Plan cfg d ws rank wd V n J a b X r L W η ω G) {t : ℝ} (ha : a ≤ t) : ω ≤ errorAt L ω a G t := by
  refine le_trans ?_ (P.errorAt_mono (le_refl a) ha)
  unfold errorAt
  simp

/-- The values of the signals near the course. -/
theorem Plan.close (P : Plan cfg d ws rank wd V n J a b X r L W η ω G) {t u δ : ℝ} {H : Past} {mem : BlkId → Mem ℝ} (hh : Held d a η t H mem) (htr : d.Trace a b X δ H)
    (hut : t ≤ u) (huη : u ≤ t + η) (ha : a ≤ u) (hub : u ≤ b) {x : Fin n → ℝ} {val : SigId → Option (Val ℝ)} (hs : Solution cfg V mem u (List.ofFn x) val)
    (hx : ‖x - states V X n u‖ ≤ δ) (hω : ω ≤ δ) :
    d.Trace a b X δ ((u, fun s => scal (val s)) :: H) ∧ (∀ s ∈ d.signals, ∃ v, val s = some (.scalar v)) ∧
      (δ ≤ r → ∀ s ∈ d.signals, ∃ v, val s = some (.scalar v) ∧ |v - X s u| ≤ L * δ) := by
  have hxs := scalars_of P.drawn hh.kept
  have ht := trace_of P.drawn P.closed P.vars P.size hxs hs (hh.recalls P.drawn P.closed P.vars P.slack P.slow hω hut huη hub hs) ⟨ha, hub⟩ hx htr
  have hval := (P.drawn.meets P.closed P.vars hs hxs).1
  refine ⟨ht, hval, fun hr s hsig => ?_⟩
  obtain ⟨v, hv⟩ := hval s hsig
  have := P.near s hsig u ⟨ha, hub⟩ δ ((norm_nonneg _).trans hx) hr _ ⟨H, ht⟩
  simp only [hv] at this
  exact ⟨v, hv, this⟩

open Classical in
/-- One step of the method. -/
theorem Plan.advance (P : Plan cfg d ws rank wd V n J a b X r L W η ω G) {t u A w hh : ℝ} {H : Past} {mem : BlkId → Mem ℝ} {x : Fin n → ℝ} {x' : List ℝ} {st : Stepper ℝ}
    (he : st ∈ [euler, rk4, rkf45]) (hheld : Held d a η t H mem) (htr : d.Trace a b X A H) (hωA : ω ≤ A) (hxA : ‖x - states V X n t‖ ≤ A) (hA : A ≤ r / 2)
    (ha : a ≤ t) (htu : t < u) (hub : u ≤ b) (hη : u - t ≤ η) (hw0 : 0 ≤ w) (hwW : w ≤ W) (hw : ∀ s ∈ Icc t u, ‖slopes cfg V X n s - slopes cfg V X n t‖ ≤ w)
    (hb : (st t (List.ofFn x) u).By (Rhs cfg V mem) (x', hh)) :
    ∃ v : Fin n → ℝ, x' = List.ofFn v ∧ ‖v - x - (u - t) • slopes cfg V X n t‖ ≤ (u - t) * (120 * L * A + 240 * w) := by
  obtain ⟨f, hf⟩ : ∃ f : ℝ → List ℝ → List ℝ, f = fun t l => if h : ∃ d, Rhs cfg V mem t l d then h.choose else List.ofFn (slopes cfg V X n t) := ⟨_, rfl⟩
  have f1 : ∀ t l dl, Rhs cfg V mem t l dl → dl = f t l := by
    intro t l dl hR
    have hex : ∃ d, Rhs cfg V mem t l d := ⟨dl, hR⟩
    rw [hf]
    simp only
    rw [dif_pos hex]
    exact P.unique _ _ _ _ _ hR hex.choose_spec
  have f2 : ∀ t l, ¬ (∃ d, Rhs cfg V mem t l d) → f t l = List.ofFn (slopes cfg V X n t) := fun t l hne => by rw [hf]; simp only; rw [dif_neg hne]
  have flen : ∀ t l, l.length = n → (f t l).length = n := by
    intro t l _
    by_cases hex : ∃ d, Rhs cfg V mem t l d
    · obtain ⟨dl, hR⟩ := hex
      rw [← f1 t l dl hR]
      obtain ⟨val, _, hd⟩ := hR
      rw [P.vars.arrays, packed_scalars] at hd
      rw [← hd.length_eq, P.size]
    · rw [f2 t l hex]; simp
  have hmono : Icc t u ⊆ Icc a b := Icc_subset_Icc ha hub
  have hA0 : 0 ≤ A := (norm_nonneg _).trans hxA
  have htube : Conv.Tube (C61.vec n f) (states V X n) (slopes cfg V X n) J t u r L A := by
    refine ⟨(states_cont P.drawn P.closed P.begins P.vars P.size P.course).mono hmono,
      fun s hs hJ => (states_deriv P.drawn P.closed P.begins P.vars P.size P.course s (hmono hs) hJ).mono hmono, fun s hs z hz => ?_, P.lip⟩
    have hB : 0 ≤ L * max ‖z - states V X n s‖ A := mul_nonneg P.lip (le_max_of_le_right hA0)
    by_cases hex : ∃ d, Rhs cfg V mem s (List.ofFn z) d
    · obtain ⟨dl, hR⟩ := hex
      rw [f1 _ _ _ hR, C61.vec_eq flen] at hR
      obtain ⟨val, hsol, hd⟩ := hR
      refine slopes_near P.drawn P.closed P.begins P.vars P.size hB ?_ hd
      exact (P.close hheld (htr.mono (le_max_right _ _)) hs.1 (by linarith [hs.2]) (ha.trans hs.1) (hs.2.trans hub) hsol (le_max_left _ _) (hωA.trans (le_max_right _ _))).2.2
        (max_le hz (by linarith [P.radius]))
    · have e := f2 s (List.ofFn z) hex
      rw [C61.vec_eq flen] at e
      rw [List.ofFn_injective e, sub_self, norm_zero]
      exact hB
  obtain ⟨T, N, hm1, hm2, hΦ⟩ := C61.step_vec flen he
  have hN := hm1.one
  have hLr : 0 ≤ L * (r / 2) + 3 * W := by have := mul_nonneg P.lip P.radius.le; linarith [P.bound]
  have e := by_exec f1 hb
  have e : x' = ((st t (List.ofFn x) u).exec (m := Id) f).1 := congrArg Prod.fst e
  rw [hΦ] at e
  refine ⟨_, e, ?_⟩
  have := Conv.mild_step hm1 htube ((mul_le_mul_of_nonneg_left (mul_le_mul_of_nonneg_right hm2 P.lip) P.steps.1).trans P.steps.2.1)
      ((mul_le_mul_of_nonneg_left (mul_le_mul_of_nonneg_right hm2 hLr) P.steps.1).trans P.steps.2.2) (le_refl t) htu (le_refl u) hη hw0 hwW hw hxA hA
  refine this.trans (mul_le_mul_of_nonneg_left ?_ (by linarith))
  have q1 := mul_le_mul_of_nonneg_right (mul_le_mul_of_nonneg_right hm2 P.lip) hA0
  have q2 := mul_le_mul_of_nonneg_right hm2 hw0
  linarith

/-- The snapshot is close to the course. -/
structure Keeps (d : Sketch) (V : Vars) (n : Nat) (a b : ℝ) (X : SigId → ℝ → ℝ) (η B : ℝ) (s : Snapshot ℝ) : Prop where
  ex : ∃ (v : Fin n → ℝ) (H : Past), s.state = List.ofFn v ∧ ‖v - states V X n s.time‖ ≤ B ∧ Held d a η s.time ((s.time, fun i => scal (s.vals i)) :: H) s.mem ∧
    d.Trace a b X B ((s.time, fun i => scal (s.vals i)) :: H) ∧ ∀ i ∈ d.signals, ∃ z, s.vals i = some (.scalar z)

/-- The end of a step. -/
theorem Plan.commit (P : Plan cfg d ws rank wd V n J a b X r L W η ω G) {t u B : ℝ} {H : Past} {mem mem' : BlkId → Mem ℝ} {v : Fin n → ℝ} {val : SigId → Option (Val ℝ)}
    (hh : Held d a η t H mem) (htr : d.Trace a b X B H) (ha : a ≤ t) (htu : t < u) (hub : u ≤ b) (hη : u - t ≤ η)
    (hv : ‖v - states V X n u‖ ≤ B) (hω : ω ≤ B) (hcm : Committed cfg V mem u (List.ofFn v) val mem') : Keeps d V n a b X η B ⟨mem', u, List.ofFn v, val⟩ := by
  obtain ⟨k1, k2, _⟩ := P.close hh htr htu.le (by linarith) (by linarith) hub hcm.solution hv hω
  refine ⟨v, H, rfl, hv, ⟨hh.dense.cons htu hη _, fun p hp life x e i e1 e2 => ?_⟩, k1, k2⟩
  obtain ⟨x', e', i', e2', l, hl, hid, hk⟩ := delay_leaf P.drawn hp e1
  rw [e2] at e2'
  cases e2'
  have hst := hcm.stored l hl
  rw [hid] at hst
  obtain ⟨z, hz⟩ := k2 x (P.closed.provided p hp x (by rw [e2]; simp))
  exact (hh.kept p hp life x e i e1 e2).stored htu.le hk hz hst

/-- An accepted step. -/
theorem Plan.accept (P : Plan cfg d ws rank wd V n J a b X r L W η ω G) {u hh : ℝ} {s : Snapshot ℝ} {mem' : BlkId → Mem ℝ} {x' : List ℝ} {val : SigId → Option (Val ℝ)}
    {st : Stepper ℝ} (he : st ∈ [euler, rk4, rkf45]) (hk : Keeps d V n a b X η (errorAt L ω a G s.time) s) (ha : a ≤ s.time) (htu : s.time < u) (hub : u ≤ b)
    (hη : u - s.time ≤ η) (hb : (st s.time s.state u).By (Rhs cfg V s.mem) (x', hh)) (hcm : Committed cfg V s.mem u x' val mem') :
    Keeps d V n a b X η (errorAt L ω a G u) ⟨mem', u, x', val⟩ := by
  obtain ⟨v, H, e1, e2, e3, e4, e5⟩ := hk.ex
  obtain ⟨w, hw0, hwW, hw, hwG⟩ := P.varies s.time u ha htu hub hη
  rw [e1] at hb
  obtain ⟨v', rfl, hadv⟩ := P.advance he e3 e4 (P.errorAt_ge ha) e2 ((P.errorAt_mono ha (htu.le.trans hub)).trans P.total) ha htu hub hη hw0 hwW hw hb
  have hm := P.errorAt_mono ha htu.le
  have herr := Conv.step_error (C := 120 * L) (D := 240) (G := G) (states_cont P.drawn P.closed P.begins P.vars P.size P.course)
    (states_deriv P.drawn P.closed P.begins P.vars P.size P.course) (by linarith [P.lip]) (by norm_num) P.small ha htu hub (P.mono ha) (P.mono htu.le) hw hwG e2 hadv
  exact P.commit e3 (e4.mono hm) ha htu hub hη herr (P.errorAt_ge (ha.trans htu.le)) hcm

/-- The steps of a call of `run`. -/
theorem Plan.evolves (P : Plan cfg d ws rank wd V n J a b X r L W η ω G) {st : Stepper ℝ} (he : st ∈ [euler, rk4, rkf45]) {tEnd s : ℝ} {mem mem' : BlkId → Mem ℝ}
    {x y : List ℝ} {steps : List (ℝ × ℝ)} {val : SigId → Option (Val ℝ)} (h : Evolves cfg V st tEnd mem s x steps y val mem') :
    ∀ val0, Tiles s tEnd steps → Keeps d V n a b X η (errorAt L ω a G s) ⟨mem, s, x, val0⟩ → a ≤ s → tEnd ≤ b → tEnd - s ≤ η →
      Keeps d V n a b X η (errorAt L ω a G tEnd) ⟨mem', tEnd, y, val⟩ := by
  induction h with
  | @last mem mem' s u hh x y val h1 h2 h3 h4 =>
    intro val0 ht hk ha hub hη
    cases ht with
    | step q1 q2 =>
      cases q2
      exact P.accept (s := ⟨mem, s, x, val0⟩) he hk ha q1 hub hη h3 h4
  | @step mem mem1 mem' s u hh x x1 y val1 val steps h1 h2 h3 h4 h5 ih =>
    intro val0 ht hk ha hub hη
    cases ht with
    | step q1 q2 =>
      have h2 : u < tEnd := of_decide_eq_true h2
      exact ih val1 q2 (P.accept (s := ⟨mem, s, x, val0⟩) he hk ha q1 (by linarith) (show u - s ≤ η by linarith) h3 h4) (ha.trans q1.le) hub (by linarith)

/-- Calls of `run`. -/
theorem Plan.passes (P : Plan cfg d ws rank wd V n J a b X r L W η ω G) {s c : Snapshot ℝ} {ts : List ℝ} (h : Passes cfg V s ts c) :
    Keeps d V n a b X η (errorAt L ω a G s.time) s → a ≤ s.time → (s.time :: ts).IsChain (fun s u => s < u ∧ u - s ≤ η) → (∀ t ∈ ts, t ≤ b) →
      Keeps d V n a b X η (errorAt L ω a G c.time) c := by
  induction h with
  | nil => exact fun h _ _ _ => h
  | @steps s c e ts st steps k1 k2 k3 k4 k5 k6 ih =>
    intro hk ha hch hb
    rw [List.isChain_cons_cons] at hch
    have he : st ∈ [euler, rk4, rkf45] := by
      rcases P.drawn.draws.stepper with ⟨e, _⟩ | ⟨st', h1, h2⟩
      · rw [k2] at e; cases e
      · rw [k2] at h2; cases h2; exact h1
    exact ih (P.evolves he k5 s.vals k3 hk ha (hb _ (.head _)) hch.1.2) (ha.trans hch.1.1.le) hch.2 (fun t ht => hb t (.tail _ ht))
  | @sample s c e ts k1 k2 k3 ih =>
    intro hk ha hch hb
    rw [List.isChain_cons_cons] at hch
    refine ih ?_ (ha.trans hch.1.1.le) hch.2 (fun t ht => hb t (.tail _ ht))
    obtain ⟨v, H, e1, e2, e3, e4, e5⟩ := hk.ex
    have hn0 : n = 0 := by rw [P.size, (List.append_eq_nil_iff.1 k1).1]; rfl
    have hstate : c.state = [] := (C69.packed_nil k1).1 k2.solution.state
    subst hn0
    have e0 : c.state = List.ofFn v := by rw [hstate]; simp
    have hx : ‖v - states V X 0 c.time‖ ≤ errorAt L ω a G c.time := by
      have : v - states V X 0 c.time = 0 := Subsingleton.elim _ _
      rw [this, norm_zero]
      exact P.small.trans (P.errorAt_ge (ha.trans hch.1.1.le))
    have := P.commit e3 (e4.mono (P.errorAt_mono ha hch.1.1.le)) ha hch.1.1 (hb _ (.head _)) hch.1.2 hx (P.errorAt_ge (ha.trans hch.1.1.le)) (by rw [← e0]; exact k2)
    rwa [← e0] at this

/-- The beginning. -/
theorem Plan.start (P : Plan cfg d ws rank wd V n J a b X r L W η ω G) (hab : a ≤ b) {x0 : List ℝ} {val : SigId → Option (Val ℝ)} {mem : BlkId → Mem ℝ}
    (hs : cfg.Stands V wd.mem x0) (hcm : Committed cfg V wd.mem a x0 val mem) : Keeps d V n a b X η (errorAt L ω a G a) ⟨mem, a, x0, val⟩ := by
  have hx0 : x0 = List.ofFn (states V X n a) := by
    have := P.drawn.stands P.closed P.begins P.vars (X := fun s => X s a) P.course.initial
    rw [← ofFn_signals P.size (fun s => X s a)] at this
    exact packed_unique hs this (fun _ _ => rfl)
  subst hx0
  have hω := P.errorAt_ge (le_refl a)
  have hxs : ∀ p ∈ d.pieces, p.part.isDelay = true → ∀ v ∈ (wd.mem p.id).xs, ∃ z, v = Val.scalar z := fun p hp hd v hv => by
    rw [(P.begins.empty p hp hd).2] at hv; cases hv
  have hval := (P.drawn.meets P.closed P.vars hcm.solution hxs).1
  have hz : ‖states V X n a - states V X n a‖ ≤ errorAt L ω a G a := by rw [sub_self, norm_zero]; exact P.small.trans hω
  refine ⟨states V X n a, [], rfl, hz, ⟨⟨List.isChain_singleton _, rfl, rfl⟩, fun p hp life x e i e1 e2 => ?_⟩,
    trace_of P.drawn P.closed P.vars P.size hxs hcm.solution (recalls_first P.drawn P.closed P.vars P.begins.empty P.slack hab hcm.solution) ⟨le_refl _, hab⟩ hz trivial, hval⟩
  obtain ⟨x', e', i', e2', l, hl, hid, hk⟩ := delay_leaf P.drawn hp e1
  rw [e2] at e2'
  cases e2'
  have hst := hcm.stored l hl
  rw [hid] at hst
  obtain ⟨z, hz⟩ := hval x (P.closed.provided p hp x (by rw [e2]; simp))
  exact (Past.Kept.none a life x _ (P.begins.empty p hp (by rw [e1]; rfl))).stored (le_refl a) hk hz hst

/-- All signals, at the end. -/
theorem Keeps.signals (P : Plan cfg d ws rank wd V n J a b X r L W η ω G) {s : Snapshot ℝ} {B : ℝ} (hk : Keeps d V n a b X η B s) (hB : B ≤ r) (ha : a ≤ s.time)
    (hb : s.time ≤ b) : ∀ i ∈ d.signals, ∃ v, s.vals i = some (.scalar v) ∧ |v - X i s.time| ≤ L * B := by
  intro i hi
  obtain ⟨v, H, e1, e2, e3, e4, e5⟩ := hk.ex
  obtain ⟨z, hz⟩ := e5 i hi
  have := P.near i hi s.time ⟨ha, hb⟩ B ((norm_nonneg _).trans e2) hB _ ⟨H, e4⟩
  simp only [hz] at this
  exact ⟨z, hz, this⟩

end

/-! ### Small steps -/

theorem all_small {α : Type} (l : List α) {Q : α → ℝ → Prop} (h : ∀ p ∈ l, ∃ c > 0, ∀ η, η ≤ c → Q p η) : ∃ c > 0, ∀ η, η ≤ c → ∀ p ∈ l, Q p η := by
  induction l with
  | nil => exact ⟨1, one_pos, fun _ _ _ h => by cases h⟩
  | cons q l ih =>
    obtain ⟨c, hc, h1⟩ := h q (.head _)
    obtain ⟨c', hc', h2⟩ := ih (fun p hp => h p (.tail _ hp))
    refine ⟨min c c', lt_min hc hc', fun η hη p hp => ?_⟩
    rcases List.mem_cons.1 hp with rfl | hp
    · exact h1 η (hη.trans (min_le_left _ _))
    · exact h2 η (hη.trans (min_le_right _ _)) p hp

theorem chain_and {α : Type} {R S : α → α → Prop} : ∀ {l : List α}, l.IsChain R → l.IsChain S → l.IsChain (fun a b => R a b ∧ S a b)
  | [], _, _ => .nil
  | [_], _, _ => .singleton _
  | _ :: _ :: _, .cons_cons h1 h2, .cons_cons k1 k2 => .cons_cons ⟨h1, k1⟩ (chain_and h2 k2)

theorem slack_of {J : Finset ℝ} {a b : ℝ} (h : d.Timely J a b) : ∃ c > 0, ∀ η, η ≤ c → Slack d a b η := by
  refine all_small d.pieces (fun p hp => ?_)
  by_cases hex : ∃ life x e i, p.part = .delay life ∧ p.ins = [x, e, i]
  · obtain ⟨life, x, e, i, e1, e2⟩ := hex
    obtain ⟨g, g1, ⟨c, hc, g2⟩, _⟩ := h p hp life x e i e1 e2
    refine ⟨c / 2, by linarith, fun η hη life' x' e' i' e1' e2' => ?_⟩
    rw [e1] at e1'
    rw [e2] at e2'
    cases e1'
    cases e2'
    exact ⟨g, g1, fun t ht => ⟨(g2 t ht).1, by linarith [(g2 t ht).2]⟩⟩
  · exact ⟨1, one_pos, fun η _ life x e i e1 e2 => (hex ⟨life, x, e, i, e1, e2⟩).elim⟩

theorem slow_of {J : Finset ℝ} {a b : ℝ} {X : SigId → ℝ → ℝ} (h : d.Course J a b X) {ω : ℝ} (hω : 0 < ω) : ∃ c > 0, ∀ η, η ≤ c → Slow d X a b η ω := by
  refine all_small d.pieces (fun p hp => ?_)
  by_cases hex : ∃ life x e i, p.part = .delay life ∧ p.ins = [x, e, i]
  · obtain ⟨life, x, e, i, e1, e2⟩ := hex
    have hu := isCompact_Icc.uniformContinuousOn_of_continuous (h.delays p hp life x e i e1 e2).1
    obtain ⟨c, hc, key⟩ := Metric.uniformContinuousOn_iff_le.1 hu ω hω
    refine ⟨c, hc, fun η hη life' x' e' i' e1' e2' s hs q hq hd => ?_⟩
    rw [e1] at e1'
    rw [e2] at e2'
    cases e1'
    cases e2'
    have := key s hs q hq (by rw [Real.dist_eq]; exact hd.trans hη)
    rwa [Real.dist_eq] at this
  · exact ⟨1, one_pos, fun η _ life x e i e1 e2 => (hex ⟨life, x, e, i, e1, e2⟩).elim⟩

/-- The error of all signals, for steps up to `η`. -/
theorem approach (cfg : Config ℝ) (d : Sketch) (rank : BlkId → Nat) (h : cfg.Draws d) (hc : d.Closed rank) (wd : World ℝ) (hw : wd.Begins d)
    (tPrev t0 T minH maxH : ℝ) (h0 : 0 < minH) (h1 : minH < maxH) (hT : t0 ≤ T) (J : Finset ℝ) (X : SigId → ℝ → ℝ)
    (hX : d.Course J t0 T X) (hr : d.Regular J t0 T) :
    ∃ m0, Call.exec cfg (.init t0) { w := wd, s := { tPrev := tPrev } } = .ok () m0 ∧ ∃ (n : Nat) (y1 : ℝ → Fin n → ℝ) (K r L : ℝ),
      (∀ i : Fin n, ∃ p ∈ d.pieces, p.part.isIntegrator = true ∧ ∃ x ∈ p.ins, ∀ t, y1 t i = X x t) ∧ ContinuousOn y1 (Icc t0 T \ J) ∧
      (∀ t ∈ Icc t0 T, ‖y1 t‖ ≤ K) ∧ 0 < r ∧ 0 ≤ L ∧ ∃ c > 0, ∀ (W η ω : ℝ) (G : ℝ → ℝ), 0 ≤ η → η ≤ c → 0 ≤ W → 0 ≤ ω → Slow d X t0 T η ω → Conv.Varies y1 t0 T W η G → Monotone G →
        η * (120 * L) ≤ 1 → η * (120 * (L * (r / 2) + 3 * W)) ≤ r / 2 → errorAt L ω t0 G T ≤ r / 2 → ∀ ts : List ℝ,
        (t0 :: ts).Pairwise (· < ·) → (t0 :: ts).IsChain (fun s u => u - s ≤ η) → (t0 :: ts).getLast (by simp) ≤ T →
        (∃ m, RunsTo cfg minH maxH m0 ts m) ∧ ∀ m, RunsTo cfg minH maxH m0 ts m →
          ∀ s ∈ d.signals, ∃ v, m.w.shown s = some (.scalar v) ∧ |v - X s ((t0 :: ts).getLast (by simp))| ≤ L * errorAt L ω t0 G T := by
  obtain ⟨ws, hd⟩ := h.drawn
  have hcl := hd.closed hc hw
  have hme : ∀ w ∈ ws, w.obj.Plain := fun w hm => by obtain ⟨p, _, e⟩ := hd.piece w hm; exact Piece.plain e
  have hst : ∀ st, cfg.stepper = some st → st ∈ [euler, rk4, rkf45] := by
    intro st e
    rcases h.stepper with ⟨e', _⟩ | ⟨st', q1, q2⟩
    · rw [e] at e'; cases e'
    · rw [e] at q2; cases q2; exact q1
  obtain ⟨m0, V, x0, hinit, hVe, hVm, hVs, hx0, hcm, hpass⟩ := C69.C69_passage cfg ws _ rank hcl hme hst wd (hd.new hw) hw.log tPrev t0 minH maxH h0 h1
  refine ⟨m0, hinit, V.scalars.length, slopes cfg V X _, ?_⟩
  obtain ⟨hV, _⟩ := vars_of hd hc hw hinit
  rw [← hVe] at hV
  have hnice := Nice.all hc hr hX
  obtain ⟨r, hr0, L, hL, hu⟩ := Nice.uniform hnice
  obtain ⟨K, hK⟩ := slopes_bounded hd hc hw hV rfl hnice
  obtain ⟨c, hc0, hsl⟩ := slack_of hr.2.2
  refine ⟨K, r, L, fun i => ?_, slopes_cont hd hc hw hV rfl hnice, hK, hr0, hL, c, hc0, ?_⟩
  · obtain ⟨p, hp, hi, e, y, e1, e2, hy⟩ := slot hd hc hw hV rfl i
    refine ⟨p, hp, hi, y, by rw [e1]; exact .head _, fun t => ?_⟩
    unfold slopes
    rw [e, e2, Option.getD_some]
  · intro W η ω G a1 a2 a3 a4 a5 a6 a7 a8 a9 a10 ts b1 b2 b3
    have P : Plan cfg d ws rank wd V V.scalars.length J t0 T X r L W η ω G :=
      ⟨hd, hc, hw, hV, rfl, fun mem t x dx dx' q q' => Rhs.unique (C69.explicit_sealed hcl hVm) (C59.C59_complete _ _ _ _ hcl).complete q q', hX, hu, hsl η a2, a5, a6, a7, hr0, hL, a3, a4,
        ⟨a1, a8, a9⟩, a10⟩
    refine ⟨(hpass ts b1).1, fun m hm s hs => ?_⟩
    obtain ⟨y, hy⟩ := (hpass ts b1).2 m hm
    have hlast : t0 ≤ (t0 :: ts).getLast (by simp) := by
      rcases List.mem_cons.1 (List.getLast_mem (l := t0 :: ts) (by simp)) with e | e
      · exact e.ge
      · exact ((List.pairwise_cons.1 b1).1 _ e).le
    have hchain : (t0 :: ts).IsChain (fun s u => s < u ∧ u - s ≤ η) := chain_and b1.isChain b2
    have hle : ∀ t ∈ ts, t ≤ T := by
      intro t ht
      refine le_trans ?_ b3
      have hsort : (t0 :: ts).Pairwise (· ≤ ·) := b1.imp le_of_lt
      rcases List.eq_nil_or_concat (t0 :: ts) with e | ⟨l', z, e⟩
      · cases e
      · have e3 : (t0 :: ts).getLast (by simp) = z := by simp only [e, List.concat_eq_append, List.getLast_append_singleton]
        rw [e3]
        have ht' : t ∈ t0 :: ts := .tail _ ht
        rw [e, List.concat_eq_append] at hsort ht'
        rcases List.mem_append.1 ht' with q | q
        · exact (List.pairwise_append.1 hsort).2.2 t q z (.head _)
        · rw [List.mem_singleton.1 q]
    have hk := P.passes hy (P.start hT hx0 hcm) (le_refl _) hchain hle
    have hB := P.errorAt_mono hlast b3
    obtain ⟨v, e1, e2⟩ := hk.signals P (hB.trans (a10.trans (by linarith))) hlast b3 s hs
    exact ⟨v, e1, e2.trans (mul_le_mul_of_nonneg_left hB hL)⟩

end Pooya.C66
