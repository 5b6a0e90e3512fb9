import Verif.Spec.Rest
import Verif.Props.C87
import Verif.Props.C67
import Verif.Props.C77
import Verif.Props.C78

/-!
# C92 — what is at rest stays at rest

Full statement: if values for all signals of a diagram satisfy the equations of its blocks at all times from `t0` to `T`, the inputs of all Integrators are 0 and their outputs are the
values they begin with, a Memory's input and output is the value it begins with, a Delay's input, initial value and output are equal, and the input of a Derivative is the value 0 it
begins with, then after `init(t0)` and after every call of `run` for a time up to `T` all signals have these values: exactly, not up to an error, with Euler, Rk4, Rkf45 or no method,
with every simulator and any step sizes.

Proved: `C92_rest`, for scalars and arrays, with exact arithmetic over any Archimedean ordered field.  In a diagram without Integrators a Derivative may have any constant input.  With
Integrators it may not: the derivative of a constant other than 0 is not 0 there (`C87_constant_refuted`).  `C92_drawing`: the same for drawings (`Sketch`).  `C92_pendulum`,
`C92_steered`: the pendulums of two of the samples; the one with a controller rests at the angle asked for and nowhere else.  `C92_rounded`: the same in arithmetic
with rounding, bit by bit, for diagrams without Delay that are at rest at all times (Delay rounds what it recalls; Rk4 may look a little beyond the time asked for), `C92_double`: an
example with `double` numbers.  Not covered: diagrams with triggered Integrators or blocks of the user's own.
-/

namespace Pooya.C92

open Pooya C60 C69 C72 C85 C87 Within

set_option linter.unusedSectionVars false

/-! ## Any arithmetic -/

section
variable {F : Type} [_root_.Field F] [LinearOrder F] [IsStrictOrderedRing F] [A : Arith F]
variable {cfg : Config F} {ps : List (Wire F)} {ty : SigId → Ty} {rank : BlkId → Nat} {V : Vars} {t0 T : F} {r : SigId → Option (Val F)} {mem0 : BlkId → Mem F}

/-- The members of a block at rest at time `s`. -/
def Kept (r : SigId → Option (Val F)) (s : F) (mem : Mem F) (l : Leaf F) : Prop :=
  match l.kind with
  | .memory x _ => r x = some mem.value
  | .delay _ x _ _ _ => mem.ts ≠ [] ∧ mem.xs.length = mem.ts.length ∧ ∀ v ∈ mem.xs, r x = some v
  | .derivative x _ => mem.firstStep = false ∧ mem.t = some s ∧ r x = some mem.value ∧ mem.x = some mem.value
  | _ => True

/-- What the blocks need to know about the arithmetic. -/
structure Calms (F : Type) [_root_.Field F] [LinearOrder F] [Arith F] : Prop where
  lit : (Arith.lit 0 : F) = 0
  eq : ∀ s t : F, (s ==. t) = decide (s = t)
  diff : ∀ a t s : F, (a -. a) /. (t -. s) = 0

theorem _root_.Pooya.Config.Rests.within (h : cfg.Rests t0 T r mem0) {t : F} (h1 : t0 ≤ t) (h2 : t ≤ T) : cfg.Rests t t r mem0 := by
  refine ⟨fun u a b => h.input u (h1.trans a) (b.trans h2), fun l hl => ?_⟩
  have := h.still l hl
  unfold Leaf.Still at this ⊢
  cases hk : l.kind <;> simp only [hk] at this ⊢ <;> first | exact this | exact fun u a b => this u (h1.trans a) (b.trans h2)

/-- A record of equal values yields this value. -/
def Recalls (F : Type) [_root_.Field F] [LinearOrder F] [Arith F] : Prop :=
  ∀ {ts : List F} {xs : List (Val F)} {v : Val F}, ((∃ a, v = .scalar a) ∨ ∃ a, v = .array a) → ts ≠ [] → xs.length = ts.length → (∀ w ∈ xs, w = v) → ∀ q : F, Recalled ts xs q v v

theorem both_zero {f : F → F → F} (hf : ∀ a, f a a = 0) {v z : Val F} (h : Both (fun _ _ => (0 : F)) v v z) : Both f v v z := by
  have key : ∀ a b, Both (fun _ _ => (0 : F)) a b z → a = v → b = v → Both f v v z := by
    intro a b hb h1 h2
    cases hb with
    | scalar a b =>
      subst h2
      have := Both.scalar (f := f) b b
      rwa [hf] at this
    | array a b =>
      subst h2
      have := Both.array (f := f) b b
      simpa only [hf] using this
  exact key v v h rfl rfl

/-- A block between signals at rest, with the members it was made with. -/
theorem solved_first {l : Leaf F} {mem : Mem F} {quiet : Prop} (h : l.Still t0 T quiet r mem) {t : F} (ht : t0 ≤ t) (hT : t ≤ T) : l.Solved t mem r := by
  unfold Leaf.Still at h
  cases hk : l.kind <;> simp only [hk] at h <;> first | exact h t ht hT | exact h.elim | skip
  all_goals unfold Leaf.Solved; simp only [hk]
  · exact h.2
  · obtain ⟨h1, _, v, e, _, _, h3, h4, _⟩ := h
    rw [if_pos h1]
    exact ⟨v, h3, h4⟩
  · rw [if_pos h.1]
    exact h.2.choose_spec.2.1

/-- The same with the members it has later. -/
theorem solved_next {l : Leaf F} {mem mem' : Mem F} {quiet : Prop} (h : l.Still t0 T quiet r mem) (hA : Calms F) (hd : l.isDelay = true → Recalls F) {s t : F} (hk : Kept r s mem' l) (ht : t0 ≤ t)
    (hT : t ≤ T) (hq : quiet → s ≠ t) : l.Solved t mem' r := by
  unfold Leaf.Still at h
  unfold Kept at hk
  cases hl : l.kind <;> simp only [hl] at h hk
  case memory x o =>
    unfold Leaf.Solved
    simp only [hl]
    rw [h.2, ← h.1, hk]
  case delay life x d i o =>
    unfold Leaf.Solved
    simp only [hl]
    obtain ⟨_, _, v, e, hv, h1, h2, h3, h4⟩ := h
    obtain ⟨k1, k2, k3⟩ := hk
    rw [if_neg k1]
    refine ⟨e, v, h4, h3, v, hd (by unfold Leaf.isDelay; rw [hl]) hv k1 k2 (fun w hw => ?_) _, fun _ => h2⟩
    have := k3 w hw
    rw [h1] at this
    cases this
    rfl
  case derivative x o =>
    unfold Leaf.Solved
    simp only [hl]
    obtain ⟨_, v, h1, h2, h3, h4⟩ := h
    obtain ⟨k1, k2, k3, k4⟩ := hk
    rw [h1] at k3
    cases k3
    rw [if_neg (by rw [k1]; simp)]
    refine ⟨s, k2, ?_⟩
    by_cases e : s = t
    · rw [if_pos (show (s ==. t) = true by rw [hA.eq]; exact decide_eq_true e), h2]
      rcases h4 with h4 | h4
      · rw [h4]
      · exact (hq h4 e).elim
    · rw [if_neg (by rw [hA.eq, decide_eq_false e]; simp)]
      refine ⟨_, _, _, h1, k4, both_zero (fun a => hA.diff a t s) h3, h2⟩
  case integrator x o =>
    unfold Leaf.Solved
    simp only [hl]
  all_goals
    have := h t ht hT
    unfold Leaf.Solved at this ⊢
    simp only [hl] at this ⊢
    try exact this

theorem stored {l : Leaf F} {mem0 mem mem' : Mem F} {quiet : Prop} (h : l.Still t0 T quiet r mem0) {s t : F} (hk : mem = mem0 ∨ Kept r s mem l) (val : SigId → Option (Val F))
    (hv : ∀ x ∈ l.postReads, val x = r x) (hs : l.Stored t val mem mem') : Kept r t mem' l := by
  unfold Leaf.Still at h
  unfold Kept at hk ⊢
  unfold Leaf.Stored at hs
  unfold Leaf.postReads at hv
  cases hl : l.kind <;> simp only [hl] at h hk hs hv ⊢
  case memory x o =>
    obtain ⟨v, e1, rfl⟩ := hs
    rw [← hv x (by simp [Kind.postReads]), e1]
  case delay life x d i o =>
    obtain ⟨n, v, e1, _, _, e4, rfl⟩ := hs
    rw [hv x (by simp [Kind.postReads])] at e1
    rcases hk with rfl | ⟨k1, k2, k3⟩
    · simp [h.1, h.2.1, e1]
    · refine ⟨by simp, by simp [k2], fun w hw => ?_⟩
      rcases List.mem_append.1 hw with hw | hw
      · exact k3 w (List.mem_of_mem_drop hw)
      · rw [List.mem_singleton.1 hw, e1]
  case derivative x o =>
    obtain ⟨v, e1, rfl⟩ := hs
    rw [hv x (by simp [Kind.postReads])] at e1
    exact ⟨rfl, rfl, e1, rfl⟩

/-! ## The diagram -/

/-- The members of all blocks: as they were made, or as they are at rest at the time `s`. -/
def Calmed (cfg : Config F) (r : SigId → Option (Val F)) (mem0 : BlkId → Mem F) (s : F) (mem : BlkId → Mem F) : Prop :=
  (∀ l ∈ cfg.model.leaves, mem l.id = mem0 l.id) ∨ ∀ l ∈ cfg.model.leaves, Kept r s (mem l.id) l

variable {In : F → Prop}

section
variable (hA : Calms F) (hd : cfg.Delays → Recalls F) (h : cfg.Sealed ps ty rank) (hV : ∀ s, s ∈ V.scalars ++ V.arrays ↔ ∃ p ∈ ps, p.obj.isState = true ∧ p.Gives s) (hr : ∀ t, In t → cfg.Rests t t r mem0)
include hA hd h hV hr

theorem solution {mem : BlkId → Mem F} {s t : F} {x : List F} (hx : Packed r V.size V.scalars V.arrays x) (hm : Calmed cfg r mem0 s mem) (ht : In t)
    (hq : V.scalars ++ V.arrays = [] → mem = mem0 ∨ s ≠ t) : Solution cfg V mem t x r := by
  refine ⟨(hr t ht).input t le_rfl le_rfl, hx, fun l hl _ => ?_⟩
  have hs := (hr t ht).still l hl
  rcases hm with hm | hm
  · rw [hm l hl]
    exact solved_first hs le_rfl le_rfl
  · by_cases e : mem = mem0
    · rw [e]
      exact solved_first hs le_rfl le_rfl
    · refine solved_next hs hA (fun k => hd ⟨l, hl, k⟩) (hm l hl) le_rfl le_rfl fun q => ?_
      refine (hq (List.eq_nil_iff_forall_not_mem.2 fun s hs => ?_)).resolve_left e
      obtain ⟨p, hp, e1, e2⟩ := (hV s).1 hs
      obtain ⟨l', hl', hf⟩ := C59.wire_leaf h hp
      obtain ⟨s', hs'⟩ := hf.owns e1
      rw [q l' hl'] at hs'
      cases hs'

omit hA hd hr in
theorem agrees {mem : BlkId → Mem F} {t : F} {x : List F} {val : SigId → Option (Val F)} (h1 : Solution cfg V mem t x r) (h2 : Solution cfg V mem t x val) (s : SigId)
    (hs : cfg.Provided s) : val s = r s := by
  obtain ⟨_, u1, u2, u3⟩ := h2.unique (explicit_sealed h hV) (C59.C59_complete cfg ps ty rank h).complete h1
  rcases hs with (hs | ⟨_, hs⟩) | ⟨l, hl, hs⟩
  · refine u3 s ?_
    have := hs t
    unfold Config.inputKeys at this
    unfold Config.inputVals
    rw [List.map_append]
    cases e : cfg.inputs <;> rw [e] at this <;> simpa using this
  · obtain ⟨l, hl, e⟩ := C59.deriv_state h hs
    obtain ⟨p, hp, hf⟩ := C59.leaf_wire h hl
    exact u2 s ((hV s).2 ⟨p, hp, (hf.state s e).2, (hf.state s e).1⟩)
  · exact u1 l hl s hs

omit hd in
theorem no_slope (hsz : ∀ s ∈ V.arrays, (cfg.deriv s).elim 0 V.size = V.size s) {mem : BlkId → Mem F} {t : F} (ht : In t) {x d : List F} (h1 : Solution cfg V mem t x r) (h2 : Rhs cfg V mem t x d) :
    d = x.map fun _ => 0 := by
  obtain ⟨val, k1, k2⟩ := h2
  have e1 := ((packed_iff fun _ _ => rfl).1 h1.state).2.2
  have e2 := ((packed_iff hsz).1 k2).2.2
  rw [e1, e2, List.map_map]
  refine List.map_congr_left fun q hq => ?_
  have hq1 : q.1 ∈ V.scalars ++ V.arrays := by
    unfold Within.slots at hq
    simp only [List.mem_append, List.mem_map, List.mem_flatMap, List.mem_range] at hq
    rcases hq with ⟨s, hs, rfl⟩ | ⟨s, hs, i, _, rfl⟩
    · exact List.mem_append_left _ hs
    · exact List.mem_append_right _ hs
  obtain ⟨p, hp, e3, e4⟩ := (hV _).1 hq1
  obtain ⟨l, hl, hf⟩ := C59.wire_leaf h hp
  have e5 : l.state = some q.1 := ((hf.gives _ e4).resolve_left fun k => by rw [e3] at k; cases k.1).2
  obtain ⟨c1, c2, _⟩ := C58_states cfg ps h.assembled (C59.sealed_proper h)
  obtain ⟨y, hy⟩ := Option.isSome_iff_exists.1 (c2 l hl _ e5)
  obtain ⟨l', hl', hsl⟩ := c1 _ _ hy
  have hlk : cfg.Links q.1 := C59.link_of hl (hf.links _ (.inr e4))
  have hval := agrees h hV h1 k1 y ((C59.C59_complete cfg ps ty rank h).derivs _ _ hlk hy)
  have hs := (hr t ht).still l' hl'
  unfold Leaf.Still at hs
  rcases hsl with hsl | ⟨_, hsl⟩ <;> simp only [hsl] at hs
  obtain ⟨_, z, hz, hz0⟩ := hs
  simp only [comp, hy, Option.bind_some, hval, hz, Function.comp]
  cases z with
  | scalar z => exact hz0
  | array zs =>
    show zs.getD q.2 (Arith.lit 0) = 0
    rw [List.getD_eq_getElem?_getD]
    cases e : zs[q.2]? with
    | none => exact hA.lit
    | some a => exact hz0 a (List.mem_of_getElem? e)
  | _ => exact hz0.elim

omit hA hd in
theorem next {mem mem' : BlkId → Mem F} {s t : F} (ht : In t) {x : List F} {val : SigId → Option (Val F)} (h1 : Solution cfg V mem t x r) (hm : Calmed cfg r mem0 s mem)
    (hc : Committed cfg V mem t x val mem') : Calmed cfg r mem0 t mem' ∧ ∀ s, cfg.Provided s → val s = r s := by
  have ha := agrees h hV h1 hc.solution
  refine ⟨.inr fun l hl => stored (s := s) ((hr t ht).still l hl) ?_ val (fun y hy => ha y ((C59.C59_complete cfg ps ty rank h).postReads l hl y hy)) (hc.stored l hl), ha⟩
  rcases hm with hm | hm
  · exact .inl (hm l hl)
  · exact .inr (hm l hl)

theorem evolves (hcv : ∀ {s t u : F}, In s → In t → s ≤ u → u ≤ t → In u) (hsz : ∀ s ∈ V.arrays, (cfg.deriv s).elim 0 V.size = V.size s) {st : Stepper F} (hne : V.scalars ++ V.arrays ≠ [])
    {x : List F} (hst : ∀ {R : F → List F → List F → Prop} {y : List F} {s u q : F}, In s → In u → s < u → (∀ t d, In t → R t x d → d = x.map fun _ => 0) → (st s x u).By R (y, q) → y = x)
    {mem mem' : BlkId → Mem F} {s t : F} {y : List F} {steps : List (F × F)} {val : SigId → Option (Val F)} (hx : Packed r V.size V.scalars V.arrays x)
    (hm : Calmed cfg r mem0 s mem) (hs : In s) (hT : In t) (ht : Tiles s t steps) (he : Evolves cfg V st t mem s x steps y val mem') :
    y = x ∧ Calmed cfg r mem0 t mem' ∧ ∀ s, cfg.Provided s → val s = r s := by
  have one : ∀ {mem mem' : BlkId → Mem F} {s u q : F} {y : List F} {val : SigId → Option (Val F)}, Calmed cfg r mem0 s mem → In s → s < u → In u → (st s x u).By (Rhs cfg V mem) (y, q) →
      y = x ∧ (Committed cfg V mem u y val mem' → Calmed cfg r mem0 u mem' ∧ ∀ s, cfg.Provided s → val s = r s) := by
    intro mem mem' s u q y val hm hs hsu hu hb
    obtain rfl := hst hs hu hsu (fun t d ht hR => no_slope hA h hV hr hsz ht (solution hA hd h hV hr hx hm ht fun e => (hne e).elim) hR) hb
    exact ⟨rfl, fun hc => next h hV hr hu (solution hA hd h hV hr hx hm hu fun e => (hne e).elim) hm hc⟩
  clear hx hst
  induction he with
  | last a1 a2 a3 a4 =>
    cases ht with
    | step k1 k2 =>
      cases k2
      obtain ⟨rfl, g⟩ := one hm hs k1 hT a3
      exact ⟨rfl, g a4⟩
  | step a1 a2 a3 a4 a5 ih =>
    cases ht with
    | step k1 k2 =>
      have hu := hcv hs hT k1.le (tiles_le k2)
      obtain ⟨rfl, g⟩ := one hm hs k1 hu a3
      exact ih (g a4).1 hu k2 one

theorem passes (hcv : ∀ {s t u : F}, In s → In t → s ≤ u → u ≤ t → In u) (hsz : ∀ s ∈ V.arrays, (cfg.deriv s).elim 0 V.size = V.size s) {x : List F}
    (hst : ∀ st, cfg.stepper = some st → ∀ {R : F → List F → List F → Prop} {y : List F} {s u q : F}, In s → In u → s < u → (∀ t d, In t → R t x d → d = x.map fun _ => 0) →
      (st s x u).By R (y, q) → y = x) {a b : Snapshot F} {ts : List F}
    (hp : Passes cfg V a ts b) (hts : (a.time :: ts).Pairwise (· < ·)) (hT : ∀ t ∈ a.time :: ts, In t) (hx : Packed r V.size V.scalars V.arrays x) (hax : a.state = x)
    (hm : Calmed cfg r mem0 a.time a.mem) (ha : ∀ s, cfg.Provided s → a.vals s = r s) : ∀ s, cfg.Provided s → b.vals s = r s := by
  induction hp with
  | nil => exact ha
  | @steps a b c ts st steps k1 k2 k3 k4 k5 k6 ih =>
    have hlt := (List.pairwise_cons.1 hts).1 _ (.head _)
    obtain ⟨e, g1, g2⟩ := evolves hA hd h hV hr hcv hsz k1 (hst st k2) hx hm (hT _ (.head _)) (hT _ (.tail _ (.head _))) k3 (hax ▸ k5)
    exact ih (List.pairwise_cons.1 hts).2 (fun t ht => hT t (.tail _ ht)) e g1 g2
  | @sample a b c ts k1 k2 k3 ih =>
    have hlt := (List.pairwise_cons.1 hts).1 _ (.head _)
    have hnil : ∀ {val : SigId → Option (Val F)} {x : List F}, Packed val V.size V.scalars V.arrays x → x = [] := fun hx => by
      obtain ⟨e1, e2⟩ := List.append_eq_nil_iff.1 k1
      obtain ⟨p, q, f1, f2, rfl⟩ := hx
      rw [e1] at f1
      rw [e2] at f2
      cases f1
      cases f2
      rfl
    have e := hnil k2.solution.state
    have e' : b.state = x := e.trans (hnil hx).symm
    obtain ⟨g1, g2⟩ := next h hV hr (hT _ (.tail _ (.head _))) (solution hA hd h hV hr (e' ▸ hx) hm (hT _ (.tail _ (.head _))) fun _ => .inr hlt.ne) hm k2
    exact ih (List.pairwise_cons.1 hts).2 (fun t ht => hT t (.tail _ ht)) e' g1 g2

omit hA hd hr in
theorem begins (hw : ∀ l ∈ cfg.model.leaves, l.Still t0 T (∀ l' ∈ cfg.model.leaves, l'.state = none) r (mem0 l.id)) {y0 : List F} (hs : cfg.Stands V mem0 y0) : Packed r V.size V.scalars V.arrays y0 := by
  refine Packed.congr hs (fun s hs => ?_) (fun _ _ => rfl)
  obtain ⟨p, hp, e1, e2⟩ := (hV s).1 hs
  obtain ⟨l, hl, hf⟩ := C59.wire_leaf h hp
  have e3 : l.state = some s := ((hf.gives _ e2).resolve_left fun k => by rw [e1] at k; cases k.1).2
  cases e : cfg.model.leaves.find? (fun l => decide (l.state = some s)) with
  | none => exact absurd (decide_eq_true e3) (by simpa using List.find?_eq_none.1 e l hl)
  | some l' =>
    have k1 := List.mem_of_find?_eq_some e
    have k2 : l'.state = some s := by simpa using List.find?_some e
    have k3 := hw l' k1
    unfold Leaf.Still at k3
    unfold Leaf.state at k2
    cases hk : l'.kind <;> simp only [hk] at k2 k3 <;> cases k2
    exact k3.1

end
end

/-! ## Exact arithmetic -/

section
variable {F : Type} [_root_.Field F] [LinearOrder F] [IsStrictOrderedRing F] [Archimedean F]
attribute [local instance] Arith.exact

theorem calms_exact : Calms F := ⟨by simp [exact_lit], fun _ _ => rfl, fun a t s => by simp [exact_sub, exact_div]⟩

theorem both_same {f : F → F → F} (hf : ∀ a, f a a = a) {v : Val F} (hv : (∃ a, v = .scalar a) ∨ ∃ a, v = .array a) : Both f v v v := by
  rcases hv with ⟨a, rfl⟩ | ⟨a, rfl⟩
  · have := Both.scalar (f := f) a a
    rwa [hf] at this
  · have := Both.array (f := f) a.get a.get
    simp only [hf] at this
    rwa [List.ofFn_get] at this

/-- What a record of equal values yields. -/
theorem recalled {ts : List F} {xs : List (Val F)} {v : Val F} (hv : (∃ a, v = .scalar a) ∨ ∃ a, v = .array a) (hne : ts ≠ []) (hl : xs.length = ts.length) (hx : ∀ w ∈ xs, w = v) (q : F) :
    Recalled ts xs q v v := by
  obtain ⟨a, rest, rfl⟩ := List.exists_cons_of_ne_nil hne
  by_cases h1 : q ≤ a
  · exact .before rfl (decide_eq_true h1)
  have h1' : (q <=. a) = false := decide_eq_false h1
  have hg : (a :: rest).getLast? = some ((a :: rest).getLast hne) := List.getLast?_eq_some_getLast hne
  have hgx : ∀ (i : Nat), i < (a :: rest).length → xs[i]? = some v := fun i hi => by
    rw [List.getElem?_eq_getElem (hl ▸ hi)]
    exact congrArg some (hx _ (List.getElem_mem _))
  by_cases h2 : (a :: rest).getLast hne ≤ q
  · refine .after rfl h1' hg (decide_eq_true h2) ?_
    rw [List.getLast?_eq_getElem?, hgx _ (by rw [hl]; simp)]
  · have hex : ∃ i, ∃ b, (a :: rest)[i]? = some b ∧ q ≤ b := ⟨rest.length, (a :: rest).getLast hne, by
      rw [← hg, List.getLast?_eq_getElem?]; simp, (not_le.1 h2).le⟩
    classical
    obtain ⟨b, hb1, hb2⟩ := Nat.find_spec hex
    have hmin : ∀ j, j < Nat.find hex → ∀ s, (a :: rest)[j]? = some s → ¬ q ≤ s := fun j hj s e1 e2 => Nat.find_min hex hj ⟨s, e1, e2⟩
    generalize Nat.find hex = n at hb1 hmin
    cases n with
    | zero =>
      cases hb1
      exact (h1 hb2).elim
    | succ n =>
      have hn : n + 1 < (a :: rest).length := (List.getElem?_eq_some_iff.1 hb1).1
      refine .between rfl h1' hg (decide_eq_false h2) (i := n) (ta := (a :: rest)[n]) (fun j s hj e => decide_eq_false (hmin j (by omega) s e)) (List.getElem?_eq_getElem (by omega)) hb1
        (decide_eq_true hb2) (hgx _ (by omega)) (hgx _ hn) (both_same (fun c => ?_) hv)
      simp [exact_add, exact_sub, exact_mul, exact_div]

theorem step_still {R : F → List F → List F → Prop} {st : Stepper F} (hst : st ∈ [euler, rk4, rkf45]) {x y : List F} {s u h : F} (hsu : s < u)
    (hR : ∀ t d, s ≤ t → t ≤ u → R t x d → d = x.map fun _ => 0) (hs : (st s x u).By R (y, h)) : y = x := by
  have sm : ∀ a : F, vsmul a (x.map fun _ => (0 : F)) = x.map fun _ => 0 := fun a => by simp [vsmul, exact_mul]
  have ad : vadd x (x.map fun _ => (0 : F)) = x := by
    unfold vadd
    rw [List.zipWith_map_right]
    simp [exact_add, List.zipWith_self]
  have sb : vsub x (x.map fun _ => (0 : F)) = x := by
    unfold vsub
    rw [List.zipWith_map_right]
    simp [exact_sub, List.zipWith_self]
  have hs0 := sub_pos.2 hsu
  simp only [List.mem_cons, List.not_mem_nil, or_false] at hst
  rcases hst with rfl | rfl | rfl
  · obtain ⟨d1, h1, e⟩ := hs
    rw [hR _ _ le_rfl hsu.le h1] at e
    simp only [sm, ad] at e
    cases e
    rfl
  · obtain ⟨d1, h1, d2, h2, d3, h3, d4, h4, e⟩ := hs
    obtain rfl := hR _ _ le_rfl hsu.le h1
    simp only [sm, ad] at h2
    obtain rfl := hR _ _ (by simp only [exact_add, exact_sub, exact_div, exact_lit]; push_cast; linarith) (by simp only [exact_add, exact_sub, exact_div, exact_lit]; push_cast; linarith) h2
    simp only [sm, ad] at h3
    obtain rfl := hR _ _ (by simp only [exact_add, exact_sub, exact_div, exact_lit]; push_cast; linarith) (by simp only [exact_add, exact_sub, exact_div, exact_lit]; push_cast; linarith) h3
    simp only [sm, ad] at h4
    obtain rfl := hR _ _ (by simp only [exact_add, exact_sub]; linarith) (by simp only [exact_add, exact_sub]; linarith) h4
    simp only [sm, ad] at e
    cases e
    rfl
  · obtain ⟨d1, h1, d2, h2, d3, h3, d4, h4, d5, h5, d6, h6, e⟩ := hs
    obtain rfl := hR _ _ le_rfl hsu.le h1
    simp only [sm, ad] at h2
    obtain rfl := hR _ _ (by simp only [exact_add, exact_sub, exact_mul, exact_div, exact_lit]; push_cast; linarith) (by simp only [exact_add, exact_sub, exact_mul, exact_div, exact_lit]; push_cast; linarith) h2
    simp only [sm, ad] at h3
    obtain rfl := hR _ _ (by simp only [exact_add, exact_sub, exact_mul, exact_div, exact_lit]; push_cast; linarith) (by simp only [exact_add, exact_sub, exact_mul, exact_div, exact_lit]; push_cast; linarith) h3
    simp only [sm, ad, sb] at h4
    obtain rfl := hR _ _ (by simp only [exact_add, exact_sub, exact_mul, exact_div, exact_lit]; push_cast; linarith) (by simp only [exact_add, exact_sub, exact_mul, exact_div, exact_lit]; push_cast; linarith) h4
    simp only [sm, ad, sb] at h5
    obtain rfl := hR _ _ hsu.le le_rfl h5
    simp only [sm, ad, sb] at h6
    obtain rfl := hR _ _ (by simp only [exact_add, exact_sub, exact_mul, exact_div, exact_lit]; push_cast; linarith) (by simp only [exact_add, exact_sub, exact_mul, exact_div, exact_lit]; push_cast; linarith) h6
    simp only [sm, ad, sb] at e
    cases e
    rfl

/-- C92: a diagram at rest stays at rest: after `init` and after every call of `run` up to the time `T` all signals have the values `r`. -/
theorem C92_rest (cfg : Config F) (ps : List (Wire F)) (ty : SigId → Ty) (rank : BlkId → Nat) (h : cfg.Sealed ps ty rank) (hpl : ∀ p ∈ ps, p.obj.Plain)
    (he : ∀ st, cfg.stepper = some st → st ∈ [euler, rk4, rkf45]) (w : World F) (hw : w.New cfg ty) (hlog : w.log = []) (tPrev t0 minH maxH : F) (h0 : 0 < minH) (h1 : minH < maxH)
    (T : F) (ht : t0 ≤ T) (r : SigId → Option (Val F)) (hr : cfg.Rests t0 T r w.mem) :
    ∃ m0 : Machine F, Call.exec cfg (.init t0) { w := w, s := { tPrev := tPrev } } = .ok () m0 ∧ ∀ ts : List F, (t0 :: ts).Pairwise (· < ·) →
      (∃ m, RunsTo cfg minH maxH m0 ts m) ∧ ((∀ t ∈ ts, t ≤ T) → ∀ m, RunsTo cfg minH maxH m0 ts m → ∀ s, cfg.Provided s → m.w.shown s = r s) := by
  obtain ⟨m0, V, y0, a1, rfl, a3, a4, a5, a6, a7⟩ := C69_passage cfg ps ty rank h hpl he w hw hlog tPrev t0 minH maxH h0 h1
  have hV : C72.Sorted ps ty m0.vars := sorted_of h (fun _ => C57.ordered_exact) hw a1 a3 a4
  have hr' : ∀ t, t0 ≤ t ∧ t ≤ T → cfg.Rests t t r w.mem := fun t ht => hr.within ht.1 ht.2
  have hx := begins h a3 hr.still a5
  have hm : Calmed cfg r w.mem t0 w.mem := .inl fun _ _ => rfl
  have hrec : cfg.Delays → Recalls F := fun _ => recalled
  obtain ⟨g1, g2⟩ := next h a3 hr' ⟨le_rfl, ht⟩ (solution calms_exact hrec h a3 hr' hx hm ⟨le_rfl, ht⟩ fun _ => .inl rfl) hm a6
  refine ⟨m0, a1, fun ts hts => ⟨(a7 ts hts).1, fun hT m hm' => ?_⟩⟩
  obtain ⟨y, hp⟩ := (a7 ts hts).2 m hm'
  refine passes calms_exact hrec h a3 hr' (fun a b c d => ⟨a.1.trans c, d.trans b.2⟩) (size_same h hV)
    (fun st e R y s u q a b c d k => step_still (he st e) c (fun t d' i j => d t d' ⟨a.1.trans i, j.trans b.2⟩) k) hp hts (fun t k => ?_) hx rfl g1 g2
  rcases List.mem_cons.1 k with rfl | k
  · exact ⟨le_rfl, ht⟩
  · exact ⟨((List.pairwise_cons.1 hts).1 t k).le, hT t k⟩

end

/-! ## Arithmetic with rounding -/

section
variable {F : Type} [_root_.Field F] [LinearOrder F] [IsStrictOrderedRing F] [Archimedean F] [A : Arith F] {rnd : F → F} {R ρ : F}

theorem calms_rounded (hA : A = Arith.rounded rnd) (h0 : rnd 0 = 0) : Calms F := by
  refine ⟨?_, ?_, ?_⟩ <;> subst hA
  · show rnd ((0 : ℚ) : F) = 0
    simpa using h0
  · exact fun _ _ => rfl
  · intro a t s
    show rnd (rnd (a - a) / _) = 0
    simp [h0]

theorem step_rounded (hA : A = Arith.rounded rnd) (h0 : rnd 0 = 0) {R : F → List F → List F → Prop} {st : Stepper F} (hst : st ∈ [euler, rk4, rkf45]) {x y : List F}
    (hx : ∀ a ∈ x, rnd a = a) {s u h : F} (hR : ∀ t d, R t x d → d = x.map fun _ => 0) (hs : (st s x u).By R (y, h)) : y = x := by
  have e1 : ∀ a b : F, a *. b = rnd (a * b) := by subst hA; exact fun _ _ => rfl
  have e2 : ∀ a b : F, a +. b = rnd (a + b) := by subst hA; exact fun _ _ => rfl
  have e3 : ∀ a b : F, a -. b = rnd (a - b) := by subst hA; exact fun _ _ => rfl
  have sm : ∀ a : F, vsmul a (x.map fun _ => (0 : F)) = x.map fun _ => 0 := fun a => by
    unfold vsmul
    rw [List.map_map]
    exact List.map_congr_left fun b _ => by show a *. 0 = 0; rw [e1, mul_zero, h0]
  have ad : vadd x (x.map fun _ => (0 : F)) = x := by
    unfold vadd
    rw [List.zipWith_map_right, List.zipWith_self]
    refine (List.map_congr_left fun b hb => ?_).trans (List.map_id _)
    show b +. 0 = b
    rw [e2, add_zero, hx b hb]
  have sb : vsub x (x.map fun _ => (0 : F)) = x := by
    unfold vsub
    rw [List.zipWith_map_right, List.zipWith_self]
    refine (List.map_congr_left fun b hb => ?_).trans (List.map_id _)
    show b -. 0 = b
    rw [e3, sub_zero, hx b hb]
  simp only [List.mem_cons, List.not_mem_nil, or_false] at hst
  rcases hst with rfl | rfl | rfl
  · obtain ⟨d1, h1, e⟩ := hs
    rw [hR _ _ h1] at e
    simp only [sm, ad] at e
    cases e
    rfl
  · obtain ⟨d1, h1, d2, h2, d3, h3, d4, h4, e⟩ := hs
    obtain rfl := hR _ _ h1
    simp only [sm, ad] at h2
    obtain rfl := hR _ _ h2
    simp only [sm, ad] at h3
    obtain rfl := hR _ _ h3
    simp only [sm, ad] at h4
    obtain rfl := hR _ _ h4
    simp only [sm, ad] at e
    cases e
    rfl
  · obtain ⟨d1, h1, d2, h2, d3, h3, d4, h4, d5, h5, d6, h6, e⟩ := hs
    obtain rfl := hR _ _ h1
    simp only [sm, ad] at h2
    obtain rfl := hR _ _ h2
    simp only [sm, ad] at h3
    obtain rfl := hR _ _ h3
    simp only [sm, ad, sb] at h4
    obtain rfl := hR _ _ h4
    simp only [sm, ad, sb] at h5
    obtain rfl := hR _ _ h5
    simp only [sm, ad, sb] at h6
    obtain rfl := hR _ _ h6
    simp only [sm, ad, sb] at e
    cases e
    rfl

/-- C92, in arithmetic with rounding: a diagram at rest stays at rest, exactly, bit by bit, if it has no Delay and the Integrators begin with numbers of this arithmetic. -/
theorem C92_rounded (hA : A = Arith.rounded rnd) (hr : Rounding rnd R ρ) (cfg : Config F) (ps : List (Wire F)) (ty : SigId → Ty) (rank : BlkId → Nat) (h : cfg.Sealed ps ty rank)
    (hpl : ∀ p ∈ ps, p.obj.Plain) (hd : ¬ cfg.Delays) (he : ∀ st, cfg.stepper = some st → st ∈ [euler, rk4, rkf45]) (w : World F) (hw : w.New cfg ty) (hlog : w.log = [])
    (tPrev t0 minH maxH : F) (h0 : 0 < minH) (h1 : minH < maxH) (h2 : rnd minH = minH) (h3 : 16 * ρ ≤ minH)
    (r : SigId → Option (Val F)) (hrest : ∀ a b, cfg.Rests a b r w.mem) (hrep : ∀ l ∈ cfg.model.leaves, ∀ s v, l.state = some s → r s = some v → v.Rounded rnd) :
    ∃ m0 : Machine F, Call.exec cfg (.init t0) { w := w, s := { tPrev := tPrev } } = .ok () m0 ∧
      ∀ ts : List F, (t0 :: ts).Pairwise (· < ·) → (∀ t ∈ t0 :: ts, rnd t = t ∧ 2 * |t| + maxH ≤ R) →
        (∃ m, RunsTo cfg minH maxH m0 ts m) ∧ ∀ m, RunsTo cfg minH maxH m0 ts m → ∀ s, cfg.Provided s → m.w.shown s = r s := by
  obtain ⟨m0, V, y0, a1, rfl, a3, a4, a5, a6, a7⟩ := C70.C70_rounded hA hr cfg ps ty rank h hpl he w hw hlog tPrev t0 minH maxH h0 h1 h2 h3
  have hV : C72.Sorted ps ty m0.vars := sorted_of h (fun k => (hd k).elim) hw a1 a3 a4
  have hr' : ∀ t, True → cfg.Rests t t r w.mem := fun t _ => hrest t t
  have hx := begins h a3 (hrest t0 t0).still a5
  have hc := calms_rounded hA hr.zero
  have hm : Calmed cfg r w.mem t0 w.mem := .inl fun _ _ => rfl
  have hrec : cfg.Delays → Recalls F := fun k => (hd k).elim
  obtain ⟨g1, g2⟩ := next h a3 hr' trivial (solution hc hrec h a3 hr' hx hm trivial fun _ => .inl rfl) hm a6
  have hy : ∀ a ∈ y0, rnd a = a := by
    rw [((packed_iff fun _ _ => rfl).1 hx).2.2]
    intro a ha
    obtain ⟨q, hq, rfl⟩ := List.mem_map.1 ha
    have hq1 : q.1 ∈ m0.vars.scalars ++ m0.vars.arrays := by
      unfold Within.slots at hq
      simp only [List.mem_append, List.mem_map, List.mem_flatMap, List.mem_range] at hq
      rcases hq with ⟨s, hs, rfl⟩ | ⟨s, hs, i, _, rfl⟩
      · exact List.mem_append_left _ hs
      · exact List.mem_append_right _ hs
    obtain ⟨p, hp, e3, e4⟩ := (a3 _).1 hq1
    obtain ⟨l, hl, hf⟩ := C59.wire_leaf h hp
    have e5 : l.state = some q.1 := ((hf.gives _ e4).resolve_left fun k => by rw [e3] at k; cases k.1).2
    have hz : rnd (Arith.lit 0) = Arith.lit 0 := by rw [hc.lit, hr.zero]
    unfold comp
    cases e : r q.1 with
    | none => exact hz
    | some v =>
      have := hrep l hl _ _ e5 e
      cases v with
      | scalar v => exact this
      | array vs =>
        show rnd (vs.getD q.2 (Arith.lit 0)) = vs.getD q.2 (Arith.lit 0)
        rw [List.getD_eq_getElem?_getD]
        cases e : vs[q.2]? with
        | none => exact hz
        | some a => exact this a (List.mem_of_getElem? e)
      | _ => exact hz
  refine ⟨m0, a1, fun ts hts hR => ⟨(a7 ts hts hR).1, fun m hm' => ?_⟩⟩
  obtain ⟨y, hp⟩ := (a7 ts hts hR).2 m hm'
  exact passes hc hrec h a3 hr' (fun _ _ _ _ => trivial) (size_same h hV) (fun st e R y s u q _ _ _ d k => step_rounded hA hr.zero (he st e) hy (fun t d' i => d t d' trivial i) k)
    hp hts (fun _ _ => trivial) hx rfl g1 g2

end

/-! ## An example with `double` numbers -/

section
local instance (priority := high) onDouble : Arith ℚ := Arith.rounded double

theorem sealed (stp : Stepper ℚ) (hs : stp.Dim) (st : Strategy) : (C77.prog stp st).Sealed C77.wires (fun _ => .scalar) (fun b => b) :=
  have h := C77.sealed (@euler ℚ instArithRat) (by simp) st
  { dbg := h.dbg, assembled := h.assembled, proper := h.proper, hash := h.hash, sane := h.sane, once := h.once, provided := h.provided, loops := h.loops,
    inputs := h.inputs, modelInput := h.modelInput, inputOnce := h.inputOnce, inputFree := h.inputFree, stepper := fun _ e => (by cases e; exact hs),
    stepped := fun _ => rfl, reuse := h.reuse }

/-- The diagram `x' = - x y`, `y' = x y` of `C77` with `x = 0.1` and `y = 0`: nobody is sick. -/
def healthy : World ℚ := { C77.world with mem := fun b => { value := .scalar (if b = 3 then double (1 / 10) else 0) } }

theorem healthy_new (stp : Stepper ℚ) (st : Strategy) : healthy.New (C77.prog stp st) (fun _ => .scalar) where
  fine := {
    types := fun _ => rfl
    cells := fun _ => ⟨fun e => (by cases e), fun v e => (by cases e)⟩
    members := by
      intro l hl
      rw [C77.leaves_eq] at hl
      simp only [List.mem_cons, List.not_mem_nil, or_false] at hl
      rcases hl with rfl | rfl | rfl | rfl
      · exact ⟨rfl, fun _ => rfl⟩
      · trivial
      · trivial
      · exact ⟨rfl, fun _ => rfl⟩ }
  done := fun _ => rfl
  record := fun _ _ _ => rfl

theorem healthy_rests (stp : Stepper ℚ) (st : Strategy) (a b : ℚ) : (C77.prog stp st).Rests a b (fun s => some (.scalar (if s = 0 then double (1 / 10) else 0))) healthy.mem := by
  refine ⟨fun t _ _ p hp => (by cases hp), fun l hl => ?_⟩
  rw [C77.leaves_eq] at hl
  simp only [List.mem_cons, List.not_mem_nil, or_false] at hl
  have z : double 0 = 0 := by decide +kernel
  rcases hl with rfl | rfl | rfl | rfl
  · exact ⟨rfl, _, rfl, rfl⟩
  · refine fun t _ _ => ⟨_, _, rfl, .scalar _ _, ?_⟩
    show some (Val.scalar (0 : ℚ)) = some (.scalar (double (-1 * 0)))
    rw [mul_zero, z]
  · refine fun t _ _ => ⟨_, .cons rfl (.scalar _ _) (.cons rfl (.scalar _ _) (.nil _)), ?_⟩
    show some (Val.scalar (0 : ℚ)) = some (.scalar (double (double (1 * double (1 / 10)) * 0)))
    rw [mul_zero, z]
  · exact ⟨rfl, _, rfl, rfl⟩

/-- Nobody falls ill, at any time, with `double` numbers. -/
theorem C92_double (stp : Stepper ℚ) (hs : stp ∈ [euler, rk4, rkf45]) (st : Strategy) : ∃ m0 : Machine ℚ, Call.exec (C77.prog stp st) (.init 0) { w := healthy, s := { tPrev := 0 } } = .ok () m0 ∧
    ∀ ts : List ℚ, (0 :: ts).Pairwise (· < ·) → (∀ t ∈ 0 :: ts, double t = t ∧ 2 * |t| + 1 ≤ 2 ^ 20) →
      (∃ m, RunsTo (C77.prog stp st) (1 / 2 ^ 20) 1 m0 ts m) ∧ ∀ m, RunsTo (C77.prog stp st) (1 / 2 ^ 20) 1 m0 ts m →
        m.w.shown 0 = some (.scalar (double (1 / 10))) ∧ m.w.shown 1 = some (.scalar 0) := by
  have hdim : stp.Dim := by
    simp only [List.mem_cons, List.not_mem_nil, or_false] at hs
    rcases hs with rfl | rfl | rfl
    · exact C26.dim_provided.1
    · exact C26.dim_provided.2.1
    · exact C26.dim_provided.2.2
  have hsl := sealed stp hdim st
  have hpr : ∀ s, s = 0 ∨ s = 1 → (C77.prog stp st).Provided s := fun s hs => by
    refine .inl (.inr ⟨?_, ?_⟩)
    · rcases hs with rfl | rfl
      · exact C59.link_of (l := C77.sound) (by rw [C77.leaves_eq]; simp) ⟨Demo.st, by simp [C77.sound]⟩
      · exact C59.link_of (l := C77.sick) (by rw [C77.leaves_eq]; simp) ⟨Demo.st, by simp [C77.sick]⟩
    · rcases hs with rfl | rfl <;> rfl
  obtain ⟨m0, h1, h2⟩ := C92_rounded (A := onDouble) rfl (binary_rounding (p := 53) (by norm_num) (le_refl ((2 ^ 20 : ℚ) / 2 ^ 53))) (C77.prog stp st) _ _ _ hsl (by simp [C77.wires, Make.Plain])
    (fun ⟨l, hl, k⟩ => by
      rw [C77.leaves_eq] at hl
      simp only [List.mem_cons, List.not_mem_nil, or_false] at hl
      rcases hl with rfl | rfl | rfl | rfl <;> cases k) (fun s e => by cases e; exact hs) healthy (healthy_new stp st) rfl 0 0 (1 / 2 ^ 20) 1 (by norm_num) (by norm_num)
    (by decide +kernel) (by norm_num) _ (healthy_rests stp st) (fun l hl s v _ e => by
      cases e
      show double (if s = 0 then double (1 / 10) else 0) = if s = 0 then double (1 / 10) else 0
      split <;> decide +kernel)
  refine ⟨m0, h1, fun ts hts hR => ⟨(h2 ts hts hR).1, fun m hm => ?_⟩⟩
  exact ⟨(h2 ts hts hR).2 m hm 0 (hpr 0 (.inl rfl)), (h2 ts hts hR).2 m hm 1 (hpr 1 (.inr rfl))⟩

/-- The times 0, 1/2 and 3 may be asked for. -/
example : (0 :: [(1 / 2 : ℚ), 3]).Pairwise (· < ·) ∧ ∀ t ∈ 0 :: [(1 / 2 : ℚ), 3], double t = t ∧ 2 * |t| + 1 ≤ 2 ^ 20 := by decide +kernel

end

/-! ## Drawings -/

noncomputable section
attribute [local instance] Arith.exact

/-- C92, drawings: if nothing moves in a drawing from the time `t0` to the time `T`, all signals show the same values after `init(t0)` and after every call of `run` for a time up to
`T`. -/
theorem C92_drawing (d : Sketch) (rank : BlkId → Nat) (hc : d.Closed rank) (cfg : Config ℝ) (hd : cfg.Draws d) (wd : World ℝ) (hw : wd.Begins d) (tPrev t0 T minH maxH : ℝ)
    (h0 : 0 < minH) (h1 : minH < maxH) (ht : t0 ≤ T) (X : SigId → ℝ) (hX : d.Rests t0 T X) :
    ∃ m0 : Machine ℝ, Call.exec cfg (.init t0) { w := wd, s := { tPrev := tPrev } } = .ok () m0 ∧ ∀ ts : List ℝ, (t0 :: ts).Pairwise (· < ·) →
      (∃ m, RunsTo cfg minH maxH m0 ts m) ∧ ((∀ t ∈ ts, t ≤ T) → ∀ m, RunsTo cfg minH maxH m0 ts m →
        ∀ s ∈ d.pieces.map Piece.out ++ d.inputs.map Prod.fst, m.w.shown s = some (.scalar (X s))) := by
  obtain ⟨ws, hdr⟩ := hd.drawn
  have hcl := hdr.closed hc hw
  have hpl : ∀ w ∈ ws, w.obj.Plain := fun w hm => by obtain ⟨p, _, e⟩ := hdr.piece w hm; exact Piece.plain e
  have he : ∀ st, cfg.stepper = some st → st ∈ [euler, rk4, rkf45] := fun st e => by
    rcases hd.stepper with ⟨k, _⟩ | ⟨st', k1, k2⟩
    · rw [k] at e; cases e
    · rw [k2] at e; cases e; exact k1
  have hr : cfg.Rests t0 T (fun s => some (.scalar (X s))) wd.mem := by
    refine ⟨fun t a b p hp => ?_, fun l hl => ?_⟩
    · rw [hd.vals] at hp
      obtain ⟨u, hu, rfl⟩ := List.mem_map.1 hp
      show some (Val.scalar (X u.1)) = _
      rw [(hX.meets t a b).inputs u hu]
    · obtain ⟨p, hp, e1, e2, e3, _⟩ := hdr.leaf hl
      have hh : ∀ t, t0 ≤ t → t ≤ T → p.Holds t X := fun t a b => (hX.meets t a b).blocks p hp
      have hs : p.part.isDelay = false → ∀ t, t0 ≤ t → t ≤ T → l.Solved t (wd.mem l.id) fun s => some (.scalar (X s)) := fun k t a b => e3.solved k (hh t a b) _
      have hi := hX.integrators p hp
      have hi' := hw.initial p hp
      have hdl := hX.delays p hp
      have hdl' := hw.empty p hp
      clear hh e2
      rw [← e1] at hi' hdl'
      obtain ⟨id, part, ins, out⟩ := p
      unfold Piece.Makes at e3
      simp only at e3 hi hi' hdl hdl' hs
      unfold Leaf.Still
      split at e3
      case h_11 x0 x _ =>
        simp only [e3]
        obtain ⟨k1, k2⟩ := hi x0 x rfl rfl
        exact ⟨by rw [hi' x0 rfl, k1], _, rfl, k2⟩
      case h_12 life x e i _ =>
        simp only [e3]
        obtain ⟨k1, k2⟩ := hdl life x e i rfl rfl
        obtain ⟨k3, k4⟩ := hdl' rfl
        exact ⟨k3, k4, .scalar (X out), X e, .inl ⟨_, rfl⟩, by rw [k1], by rw [k2], rfl, rfl⟩
      case h_13 => exact e3.elim
      all_goals simp only [e3]; exact hs rfl
  obtain ⟨m0, a1, a2⟩ := C92_rest cfg ws _ _ hcl hpl he wd (hdr.new hw) hw.log tPrev t0 minH maxH h0 h1 T ht _ hr
  refine ⟨m0, a1, fun ts hts => ⟨(a2 ts hts).1, fun hT m hm s hs => (a2 ts hts).2 hT m hm s ?_⟩⟩
  rcases List.mem_append.1 hs with hs | hs
  · obtain ⟨p, hp, rfl⟩ := List.mem_map.1 hs
    obtain ⟨w, hm, hwd⟩ := hdr.wire p hp
    obtain ⟨l, hl, hf⟩ := C59.wire_leaf hcl hm
    have hg : w.Gives p.out := (Piece.gives_iff hwd _).2 rfl
    rcases hf.gives _ hg with ⟨_, k⟩ | ⟨_, k⟩
    · exact .inr ⟨l, hl, k⟩
    · exact .inl (.inr ⟨C59.link_of hl (hf.links _ (.inr hg)), (C58_states cfg ws hcl.assembled (C59.sealed_proper hcl)).2.1 l hl _ k⟩)
  · refine .inl (.inl fun t => ?_)
    unfold Config.inputKeys
    rcases hd.inputs with ⟨k1, k2⟩ | k
    · rw [k2] at hs; cases hs
    · rw [k]
      simp only [List.mem_append]
      exact .inl (by simpa using hs)

/-- samples/test06_pendulum_with_torque.cpp:37-79,91-101, with the given angle and angular velocity at the beginning: signals 0 `phi`, 1 `dphi`, 2 `d2phi`, 3 `tau`, 4 `m`, 5 `g`,
6 `l`, 7 `s10`, 8 `s15`, 9 `s20`, 10 `s25`, 11 `s30`. -/
def pushed (φ ω : ℝ) : Sketch where
  pieces := [⟨1, .integrator ω, [2], 1⟩, ⟨2, .integrator φ, [1], 0⟩, ⟨3, .func fun _ x => Real.sin x, [0], 7⟩, ⟨4, .multiply 1, [7, 5], 8⟩, ⟨5, .divide, [8, 6], 9⟩,
    ⟨6, .multiply 1, [4, 6, 6], 10⟩, ⟨7, .divide, [3, 10], 11⟩, ⟨8, .subtract, [11, 9], 2⟩]
  inputs := [(4, fun _ => 0.2), (6, fun _ => 0.1), (5, fun _ => 9.81), (3, fun _ => 0.13)]

theorem pushed_closed (φ ω : ℝ) : (pushed φ ω).Closed (fun b => b) where
  ids := by simp [pushed]
  once := by simp [pushed]
  provided := by simp [pushed]
  used := by simp [pushed]
  loops := by simp [pushed, Part.isIntegrator]

/-- C92, the pendulum of the sample: let go at rest at an angle where the torque carries it (`m g l sin φ = τ`), it stays there, with every method and simulator. -/
theorem C92_pendulum (φ : ℝ) (hφ : 0.2 * 9.81 * 0.1 * Real.sin φ = 0.13) (cfg : Config ℝ) (hd : cfg.Draws (pushed φ 0)) (wd : World ℝ) (hw : wd.Begins (pushed φ 0))
    (tPrev t0 minH maxH : ℝ) (h0 : 0 < minH) (h1 : minH < maxH) :
    ∃ m0 : Machine ℝ, Call.exec cfg (.init t0) { w := wd, s := { tPrev := tPrev } } = .ok () m0 ∧ ∀ ts : List ℝ, (t0 :: ts).Pairwise (· < ·) →
      (∃ m, RunsTo cfg minH maxH m0 ts m) ∧ ∀ m, RunsTo cfg minH maxH m0 ts m → m.w.shown 0 = some (.scalar φ) ∧ m.w.shown 1 = some (.scalar 0) ∧ m.w.shown 2 = some (.scalar 0) := by
  have hX : ∀ T, (pushed φ 0).Rests t0 T (fun s => if s = 0 then φ else if s = 3 then 0.13 else if s = 4 then 0.2 else if s = 5 then 9.81 else if s = 6 then 0.1 else
      if s = 7 then Real.sin φ else if s = 8 then Real.sin φ * 9.81 else if s = 9 then Real.sin φ * 9.81 / 0.1 else if s = 10 then 0.2 * 0.1 * 0.1 else
      if s = 11 then 0.13 / (0.2 * 0.1 * 0.1) else 0) := fun T => by
    refine ⟨fun t _ _ => ⟨?_, by simp [pushed]⟩, ?_, ?_⟩
    · simp [pushed, Piece.Holds]
      rw [← hφ]
      constructor <;> ring
    · intro p hp x0 x e1 e2
      simp only [pushed, List.mem_cons, List.not_mem_nil, or_false] at hp
      rcases hp with rfl | rfl | rfl | rfl | rfl | rfl | rfl | rfl <;> cases e1 <;> cases e2 <;> simp
    · intro p hp life x e i e1 e2
      simp only [pushed, List.mem_cons, List.not_mem_nil, or_false] at hp
      rcases hp with rfl | rfl | rfl | rfl | rfl | rfl | rfl | rfl <;> cases e1
  obtain ⟨m0, a1, a2⟩ := C92_drawing _ _ (pushed_closed φ 0) cfg hd wd hw tPrev t0 t0 minH maxH h0 h1 le_rfl _ (hX t0)
  refine ⟨m0, a1, fun ts hts => ⟨(a2 ts hts).1, fun m hm => ?_⟩⟩
  obtain ⟨T, hT⟩ : ∃ T, ∀ t ∈ t0 :: ts, t ≤ T := ⟨_, fun t k => C67.le_last hts k⟩
  obtain ⟨m0', b1, b2⟩ := C92_drawing _ _ (pushed_closed φ 0) cfg hd wd hw tPrev t0 T minH maxH h0 h1 (hT _ (.head _)) _ (hX T)
  rw [b1] at a1
  cases a1
  have key := (b2 ts hts).2 (fun t k => hT t (.tail _ k)) m hm
  refine ⟨(key 0 (by simp [pushed])).trans ?_, (key 1 (by simp [pushed])).trans ?_, (key 2 (by simp [pushed])).trans ?_⟩ <;> simp

/-- There is such an angle, and the program can be built. -/
example (k : Strategy) (M : Method) : ∃ φ : ℝ, 0.2 * 9.81 * 0.1 * Real.sin φ = 0.13 ∧ ∃ (cfg : Config ℝ) (wd : World ℝ), cfg.Draws (pushed φ 0) ∧ wd.Begins (pushed φ 0) ∧ cfg.strategy = k ∧
    cfg.stepper = some M.stepper := by
  refine ⟨Real.arcsin (0.13 / (0.2 * 9.81 * 0.1)), ?_, ?_⟩
  · rw [Real.sin_arcsin] <;> norm_num
  · obtain ⟨⟨cfg, h1, h2, h3⟩, wd, hw⟩ := C66.C66_buildable (pushed (Real.arcsin (0.13 / (0.2 * 9.81 * 0.1))) 0) _ (pushed_closed _ 0) (by simp [pushed, Piece.Fits]) k (some M.stepper)
      (.inr ⟨_, method_mem M, rfl⟩) (fun _ => ⟨⟨1, .integrator 0, [2], 1⟩, by simp [pushed], rfl⟩)
    exact ⟨cfg, wd, h1, hw, h2, h3⟩

/-- samples/test07_pendulum_with_pi.cpp:35-142,159-164, with the given angle and angular velocity at the beginning and the given start of the controller's Integrator (its parameter
`x0`): signals 0 `_des_phi`, 1 `_phi`, 2 `_tau`, 3 `_err`, 4 `_m`, 5 `_g`, 6 `_l`, 7, 8, 9 `s10`, `s20`, `s30` of the controller, 10 `s05`, 11 `s10`, 12 `s30`, 13 `dphi`, 14 `s40`,
15 `s15`, 16 `s20` of the pendulum. -/
def steered (φ ω x0 : ℝ) : Sketch where
  pieces := [⟨1, .integrator ω, [12], 13⟩, ⟨2, .integrator φ, [13], 1⟩, ⟨3, .integrator x0, [3], 8⟩, ⟨4, .subtract, [0, 1], 3⟩, ⟨5, .gain 40, [3], 7⟩, ⟨6, .gain 20, [8], 9⟩,
    ⟨7, .add 0, [7, 9], 2⟩, ⟨8, .multiply 1, [4, 6, 6], 10⟩, ⟨9, .divide, [2, 10], 11⟩, ⟨10, .siso fun _ x => Real.sin x, [1], 14⟩, ⟨11, .multiply 1, [14, 5], 15⟩,
    ⟨12, .divide, [15, 6], 16⟩, ⟨13, .subtract, [11, 16], 12⟩]
  inputs := [(4, fun _ => 0.2), (6, fun _ => 0.1), (5, fun _ => 9.81), (0, fun _ => Real.pi / 4)]

theorem steered_closed (φ ω x0 : ℝ) : (steered φ ω x0).Closed (fun b => b) where
  ids := by simp [steered]
  once := by simp [steered]
  provided := by simp [steered]
  used := by simp [steered]
  loops := by simp [steered, Part.isIntegrator]

/-- C92, the pendulum with the controller of the sample: it rests at the angle asked for, and only there, if the controller's Integrator carries it (`20 x0 = m g l sin (π/4)`); once
there, it stays there, with every method and simulator. -/
theorem C92_steered (φ ω x0 : ℝ) (cfg : Config ℝ) (hd : cfg.Draws (steered φ ω x0)) (wd : World ℝ) (hw : wd.Begins (steered φ ω x0)) (tPrev t0 minH maxH : ℝ) (h0 : 0 < minH)
    (h1 : minH < maxH) :
    ((∃ T, t0 ≤ T ∧ ∃ X, (steered φ ω x0).Rests t0 T X) ↔ φ = Real.pi / 4 ∧ ω = 0 ∧ 20 * x0 = 0.2 * 9.81 * 0.1 * Real.sin (Real.pi / 4)) ∧
    (φ = Real.pi / 4 → ω = 0 → 20 * x0 = 0.2 * 9.81 * 0.1 * Real.sin (Real.pi / 4) →
      ∃ m0 : Machine ℝ, Call.exec cfg (.init t0) { w := wd, s := { tPrev := tPrev } } = .ok () m0 ∧ ∀ ts : List ℝ, (t0 :: ts).Pairwise (· < ·) →
        (∃ m, RunsTo cfg minH maxH m0 ts m) ∧ ∀ m, RunsTo cfg minH maxH m0 ts m → m.w.shown 1 = some (.scalar (Real.pi / 4)) ∧ m.w.shown 3 = some (.scalar 0) ∧
          m.w.shown 13 = some (.scalar 0)) := by
  have hX : φ = Real.pi / 4 → ω = 0 → 20 * x0 = 0.2 * 9.81 * 0.1 * Real.sin (Real.pi / 4) → ∀ T, (steered φ ω x0).Rests t0 T (fun s => if s = 0 then Real.pi / 4 else
      if s = 1 then Real.pi / 4 else if s = 2 then 20 * x0 else if s = 4 then 0.2 else if s = 5 then 9.81 else if s = 6 then 0.1 else if s = 8 then x0 else if s = 9 then 20 * x0 else
      if s = 10 then 0.2 * 0.1 * 0.1 else if s = 11 then 20 * x0 / (0.2 * 0.1 * 0.1) else if s = 14 then Real.sin (Real.pi / 4) else if s = 15 then Real.sin (Real.pi / 4) * 9.81 else
      if s = 16 then Real.sin (Real.pi / 4) * 9.81 / 0.1 else 0) := fun e1 e2 e3 T => by
    subst e1 e2
    refine ⟨fun t _ _ => ⟨?_, by simp [steered]⟩, ?_, ?_⟩
    · intro p hp
      simp only [steered, List.mem_cons, List.not_mem_nil, or_false] at hp
      rcases hp with rfl | rfl | rfl | rfl | rfl | rfl | rfl | rfl | rfl | rfl | rfl | rfl | rfl
      case inr.inr.inr.inr.inr.inr.inr.inr.inr.inr.inr.inr =>
        show (0 : ℝ) = 20 * x0 / (0.2 * 0.1 * 0.1) - Real.sin (Real.pi / 4) * 9.81 / 0.1
        rw [e3]
        ring
      all_goals simp [Piece.Holds, mul_assoc]
    · intro p hp y x k1 k2
      simp only [steered, List.mem_cons, List.not_mem_nil, or_false] at hp
      rcases hp with rfl | rfl | rfl | rfl | rfl | rfl | rfl | rfl | rfl | rfl | rfl | rfl | rfl <;> cases k1 <;> cases k2 <;> simp
    · intro p hp life x e i k1 k2
      simp only [steered, List.mem_cons, List.not_mem_nil, or_false] at hp
      rcases hp with rfl | rfl | rfl | rfl | rfl | rfl | rfl | rfl | rfl | rfl | rfl | rfl | rfl <;> cases k1
  refine ⟨⟨fun ⟨T, hT, X, k⟩ => ?_, fun ⟨e1, e2, e3⟩ => ⟨t0, le_rfl, _, hX e1 e2 e3 t0⟩⟩, fun e1 e2 e3 => ?_⟩
  · have hi := k.integrators
    obtain ⟨hb, hin⟩ := k.meets t0 le_rfl hT
    simp only [steered, List.forall_mem_cons, List.not_mem_nil, false_implies, implies_true, and_true, Piece.Holds, List.map, List.sum_cons, List.sum_nil, List.prod_cons, List.prod_nil,
      Part.integrator.injEq, List.cons.injEq, reduceCtorEq, true_and] at hi hb hin
    obtain ⟨i1, i2, i3⟩ := hi
    obtain ⟨a1, a2⟩ := i1 _ _ rfl rfl
    obtain ⟨a3, a4⟩ := i2 _ _ rfl rfl
    obtain ⟨a5, a6⟩ := i3 _ _ rfl rfl
    obtain ⟨b1, b2, b3, b4, b5, b6, b7, b8, b9, b10⟩ := hb
    obtain ⟨c1, c2, c3, c4⟩ := hin
    have d1 : φ = Real.pi / 4 := by rw [← a3, ← c4]; linarith
    refine ⟨d1, a1.symm.trans a4, ?_⟩
    rw [a6] at b2
    rw [a5] at b3
    rw [b2, b3] at b4
    rw [c1, c2] at b5
    rw [a3, d1] at b7
    rw [b7, c3] at b8
    rw [b8, c2] at b9
    rw [b4, b5] at b6
    rw [a2, b6, b9] at b10
    field_simp at b10
    linarith
  · obtain ⟨m0, a1, a2⟩ := C92_drawing _ _ (steered_closed φ ω x0) cfg hd wd hw tPrev t0 t0 minH maxH h0 h1 le_rfl _ (hX e1 e2 e3 t0)
    refine ⟨m0, a1, fun ts hts => ⟨(a2 ts hts).1, fun m hm => ?_⟩⟩
    obtain ⟨T, hT⟩ : ∃ T, ∀ t ∈ t0 :: ts, t ≤ T := ⟨_, fun t k => C67.le_last hts k⟩
    obtain ⟨m0', b1, b2⟩ := C92_drawing _ _ (steered_closed φ ω x0) cfg hd wd hw tPrev t0 T minH maxH h0 h1 (hT _ (.head _)) _ (hX e1 e2 e3 T)
    rw [b1] at a1
    cases a1
    have key := (b2 ts hts).2 (fun t k => hT t (.tail _ k)) m hm
    refine ⟨(key 1 (by simp [steered])).trans ?_, (key 3 (by simp [steered])).trans ?_, (key 13 (by simp [steered])).trans ?_⟩ <;> simp

/-- The program can be built. -/
example (k : Strategy) (M : Method) (φ ω x0 : ℝ) : ∃ (cfg : Config ℝ) (wd : World ℝ), cfg.Draws (steered φ ω x0) ∧ wd.Begins (steered φ ω x0) ∧ cfg.strategy = k ∧
    cfg.stepper = some M.stepper := by
  obtain ⟨⟨cfg, h1, h2, h3⟩, wd, hw⟩ := C66.C66_buildable (steered φ ω x0) _ (steered_closed φ ω x0) (by simp [steered, Piece.Fits]) k (some M.stepper) (.inr ⟨_, method_mem M, rfl⟩)
    (fun _ => ⟨⟨1, .integrator ω, [12], 13⟩, by simp [steered], rfl⟩)
  exact ⟨cfg, wd, h1, hw, h2, h3⟩

end
end Pooya.C92
