import Verif.Proof.Sealed
import Verif.Props.C57

/-! C59: closed diagrams can be simulated. -/

namespace Pooya.C59

open Pooya

set_option linter.unusedSectionVars false

section
variable {K : Type} [Arith K]

theorem all_conv {dbg : Bool} {ps : List (Wire K)} {d d' : Derivs} {ls : List (Leaf K)} (h : connectAll dbg ps d = .ok (ls, d')) :
    ∀ p ∈ ps, ∃ l ∈ ls, ∃ d1 d2, p.connect dbg d1 = .ok (l, d2) := by
  induction ps generalizing d ls with
  | nil => intro p hp; cases hp
  | cons p ps ih =>
    unfold connectAll at h
    cases h1 : p.connect dbg d with
    | error e => rw [h1] at h; cases h
    | ok r =>
      obtain ⟨l, d1⟩ := r
      rw [h1] at h
      cases h2 : connectAll dbg ps d1 with
      | error e => simp only [h2] at h; cases h
      | ok r2 =>
        obtain ⟨ls2, d2⟩ := r2
        simp only [h2] at h; cases h
        intro q hq
        rcases List.mem_cons.1 hq with e | hq
        · exact ⟨l, by simp, d, d1, e ▸ h1⟩
        · obtain ⟨l', hl', e⟩ := ih h2 q hq
          exact ⟨l', by simp [hl'], e⟩

theorem eq_of_leafId {L : List (Leaf K)} (hn : (L.map Leaf.id).Nodup) {l l' : Leaf K} (hl : l ∈ L) (hl' : l' ∈ L) (e : l.id = l'.id) : l = l' := by
  induction L with
  | nil => cases hl
  | cons a L ih =>
    rw [List.map_cons, List.nodup_cons] at hn
    rcases List.mem_cons.1 hl with e1 | h1 <;> rcases List.mem_cons.1 hl' with e2 | h2
    · rw [e1, e2]
    · exact (hn.1 (e1 ▸ e ▸ List.mem_map_of_mem h2)).elim
    · exact (hn.1 (e2 ▸ e ▸ List.mem_map_of_mem h1)).elim
    · exact ih hn.2 h1 h2

/-- What a connected block of a library class waits for: the signals its output depends on at the same time, and, for an integrator, the state that its
own `pre_step` assigns. -/
theorem C59_waits (dbg : Bool) (p : Wire K) (hc : p.Checked dbg) (hcu : ∀ a b c e f, p.obj ≠ .custom a b c e f) (d d' : Derivs) (l : Leaf K)
    (h : p.connect dbg d = .ok (l, d')) (s : SigId) : l.Requires s ↔ p.Needs s ∨ l.state = some s := by
  have hfold : dbg = true ∨ ∀ ty, p.obj.cls = .fold ty → ∀ q ∈ p.ibus, ∃ i n, q.2 = .val i (ty.toTy n) := by
    unfold Wire.Checked at hc
    cases hm : p.obj with
    | add ty v => rw [hm] at hc; exact hc.imp _root_.id (fun h ty e => by cases e; exact h)
    | multiply ty v => rw [hm] at hc; exact hc.imp _root_.id (fun h ty e => by cases e; exact h)
    | _ => right; intro ty e; cases e
  obtain ⟨b, st, h1, h2, -, h4, -⟩ := C58.inv hcu h
  have hl := C14.C14_class_links dbg _ p.ibus p.obus d b st h1
  have hreq := fun f hs hr => cls_requires hfold h1 (s := s) (f := f) hs hr
  obtain ⟨q1, q2⟩ := cls_types hfold h1
  have dv := cls_derivs h1
  have hp := (cls_ports h1).1
  have hv : ∀ ty : VTy, ty.handle ≠ .bus := fun ty => by cases ty <;> simp [VTy.handle]
  have hlink : l.Requires s ↔ (s ∈ C14.valueIds p.ibus ∨ s ∈ C14.valueIds p.obus) ∧ (C14.clsType p.obj.cls p.ibus p.obus b s).isRequired = true := by
    unfold Leaf.Requires
    rw [h4, hl]
    constructor
    · rintro ⟨f, hf, hr⟩
      obtain ⟨hm, rfl⟩ := ((C14.C14_once p.ibus p.obus _).2 s f).1 hf
      exact ⟨hm, hr⟩
    · rintro ⟨hm, hr⟩
      exact ⟨_, ((C14.C14_once p.ibus p.obus _).2 s _).2 ⟨hm, rfl⟩, hr⟩
  have hback : ∀ f, (s, f) ∈ l.links → (s, f) ∈ st.c.links := fun f hf => h4 ▸ hf
  have hin : s ∈ C14.valueIds p.ibus → (C14.linkType p.ibus p.obus s).isRequired = true := fun hs => and_required (linkType_has_in hs)
  obtain ⟨id, links, kind⟩ := l
  obtain ⟨ins, out⟩ := b
  obtain ⟨pid, obj, ibus, obus⟩ := p
  simp only at *
  have hgen : (∀ f, (s, f) ∈ links → f.isRequired = true → s ∈ C14.valueIds ibus) →
      (C14.clsType obj.cls ibus obus ⟨ins, out⟩ s = C14.linkType ibus obus s) →
      ((⟨id, links, kind⟩ : Leaf K).Requires s ↔ (⟨pid, obj, ibus, obus⟩ : Wire K).Takes s) := by
    intro g1 g2
    rw [Wire.Takes, ← mem_valueIds_iff]
    constructor
    · rintro ⟨f, hf, hr⟩; exact g1 f hf hr
    · intro hs; exact hlink.2 ⟨.inl hs, by rw [g2]; exact hin hs⟩
  cases obj with
  | custom a b c e f => exact (hcu a b c e f rfl).elim
  | memory ty =>
    rcases ins with _ | ⟨x, _ | ⟨y, xs⟩⟩ <;> rcases out with _ | o <;> simp only [Make.kind, reduceCtorEq, Except.ok.injEq] at h2
    subst h2
    constructor
    · rintro ⟨f, hf, hr⟩; exact (hreq f (hback f hf) hr).elim
    · rintro (h | h) <;> cases h
  | integrator ty =>
    rcases ins with _ | ⟨x, _ | ⟨y, xs⟩⟩ <;> rcases out with _ | o <;> simp only [Make.kind, reduceCtorEq, Except.ok.injEq] at h2
    subst h2
    constructor
    · rintro ⟨f, hf, hr⟩; exact .inr (hreq f (hback f hf) hr)
    · rintro (h | h)
      · cases h
      · cases h
        refine hlink.2 ⟨.inr (usable_val (hv _) q2), ?_⟩
        simp only [Make.cls, C14.clsType, if_true]
        exact required_added (by decide)
  | trigInt ty =>
    rcases ins with _ | ⟨x, _ | ⟨tr, _ | ⟨y, xs⟩⟩⟩ <;> rcases out with _ | o <;> simp only [Make.kind, reduceCtorEq, Except.ok.injEq] at h2
    subst h2
    constructor
    · rintro ⟨f, hf, hr⟩
      exact (hreq f (hback f hf) hr).elim .inr .inl
    · rintro (h | h)
      · obtain ⟨k, m0⟩ := h
        obtain ⟨x', tr', o', e, j⟩ := dv
        cases e
        refine hlink.2 ⟨.inl (C14.mem_valueIds m0), ?_⟩
        have et : s = tr := by
          obtain ⟨⟨k1, s1⟩, m1, e1, t1⟩ := q1.2.1
          obtain ⟨t', _, k', _, m2, hf⟩ := j.types
          have h3 : (ibus.length = 2) := hp 2 rfl
          have e1 : Signal.id s1 = tr := e1
          subst e1
          cases t1 with
          | bool tr =>
          match ibus, h3 with
          | [a, b], _ =>
            simp only [List.mem_cons, List.not_mem_nil, or_false] at m0 m1 m2
            have hd : ∀ c, (k1, Signal.val tr .bool) = c → (k', Signal.val x t') = c → False := by
              rintro c rfl h
              cases h; exact hf
            have hd2 : ∀ c, (k, Signal.val s .bool) = c → (k', Signal.val x t') = c → False := by
              rintro c rfl h
              cases h; exact hf
            have he : ∀ c, (k1, Signal.val tr .bool) = c → (k, Signal.val s .bool) = c → s = tr := by
              rintro c rfl h
              cases h; rfl
            rcases m1 with m1 | m1 <;> rcases m2 with m2 | m2 <;> rcases m0 with m0 | m0 <;>
              first | exact he _ m1 m0 | exact (hd _ m1 m2).elim | exact (hd2 _ m0 m2).elim
        rw [et]
        simp only [Make.cls, C14.clsType, if_true]
        exact required_added (by decide)
      · cases h
        refine hlink.2 ⟨.inr (usable_val (hv _) q2), ?_⟩
        simp only [Make.cls, C14.clsType, if_true]
        split
        · exact required_added (by decide)
        · exact required_added (by decide)
  | sources nO f os =>
    rcases ins with _ | ⟨x, xs⟩ <;> rcases out with _ | o <;> simp only [Make.kind, reduceCtorEq] at h2
    cases hr : lookupVals obus os with
    | error e => rw [hr] at h2; cases h2
    | ok is =>
      rw [hr] at h2; cases h2
      rw [hgen (fun f hf hr => hreq f (hback f hf) hr) rfl]
      exact ⟨.inl, fun h => h.elim (fun h => h) (fun h => by cases h)⟩
  | so ty nI f rs =>
    rcases ins with _ | ⟨x, xs⟩ <;> rcases out with _ | o <;> simp only [Make.kind, reduceCtorEq] at h2
    cases hr : lookupVals ibus rs with
    | error e => rw [hr] at h2; cases h2
    | ok is =>
      rw [hr] at h2; cases h2
      rw [hgen (fun f hf hr => hreq f (hback f hf) hr) rfl]
      exact ⟨.inl, fun h => h.elim (fun h => h) (fun h => by cases h)⟩
  | func nI nO f rs os =>
    rcases ins with _ | ⟨x, xs⟩ <;> rcases out with _ | o <;> simp only [Make.kind, reduceCtorEq] at h2
    cases hr : lookupVals ibus rs with
    | error e => rw [hr] at h2; cases h2
    | ok is =>
      cases hw : lookupVals obus os with
      | error e => rw [hr, hw] at h2; cases h2
      | ok o =>
        rw [hr, hw] at h2; cases h2
        rw [hgen (fun f hf hr => hreq f (hback f hf) hr) rfl]
        exact ⟨.inl, fun h => h.elim (fun h => h) (fun h => by cases h)⟩
  | _ =>
    rw [hgen (fun f hf hr => hreq f (hback f hf) hr) rfl]
    rcases ins with _ | ⟨x, _ | ⟨y, _ | ⟨z, _ | ⟨z', zs⟩⟩⟩⟩ <;> rcases out with _ | o <;>
      simp only [Make.kind, reduceCtorEq, Except.ok.injEq] at h2 <;> subst h2 <;>
      exact ⟨.inl, fun h => h.elim (fun h => h) (fun h => by cases h)⟩
/-- A memory does not wait for its input. -/
example (d d' : Derivs) (l : Leaf ℚ) (h : (⟨1, .memory .double, [C58.sc "in" 0], [C58.sc "out" 1]⟩ : Wire ℚ).connect true d = .ok (l, d')) : ¬ l.Requires 0 := by
  intro hr
  have := (C59_waits true ⟨1, .memory .double, [C58.sc "in" 0], [C58.sc "out" 1]⟩ trivial (fun _ _ _ _ _ e => by cases e) d d' l h 0).1 hr
  cases h
  rcases this with h | h <;> cases h

variable {cfg : Config K} {ps : List (Wire K)} {ty : SigId → Ty} {rank : BlkId → Nat}

theorem sealed_proper (h : cfg.Sealed ps ty rank) : C58.Proper cfg.dbg ps := by
  intro p hp
  obtain ⟨_, _, hs⟩ := h.sane p hp
  constructor
  · rcases hs with ⟨n, _, hs, _⟩ | ⟨_, hs, _⟩
    · revert hs
      cases p.obj <;> first | exact fun _ => trivial | exact fun h => h.elim
    · exact hs
  · unfold Wire.Checked
    split <;> first | exact .inl h.dbg | trivial

theorem leaf_wire (h : cfg.Sealed ps ty rank) {l : Leaf K} (hl : l ∈ cfg.model.leaves) : ∃ p ∈ ps, Fitted ty p l := by
  obtain ⟨ls, h1, h2⟩ := h.assembled
  rw [h.dbg] at h1
  obtain ⟨p, hp, d1, d2, e⟩ := C58.all_mem h1 l (h2.mem_iff.1 hl)
  exact ⟨p, hp, wire_fitted (h.sane p hp) e⟩

theorem wire_leaf (h : cfg.Sealed ps ty rank) {p : Wire K} (hp : p ∈ ps) : ∃ l ∈ cfg.model.leaves, Fitted ty p l := by
  obtain ⟨ls, h1, h2⟩ := h.assembled
  rw [h.dbg] at h1
  obtain ⟨l, hl, d1, d2, e⟩ := all_conv h1 p hp
  exact ⟨l, h2.mem_iff.2 hl, wire_fitted (h.sane p hp) e⟩

theorem link_of {l : Leaf K} (hl : l ∈ cfg.model.leaves) {s : SigId} (h : ∃ f, (s, f) ∈ l.links) : cfg.Links s := by
  obtain ⟨f, hf⟩ := h
  exact ⟨.leaf l, (leaf_mem_all _ l).1 hl, f, hf⟩

theorem state_source (h : cfg.Sealed ps ty rank) {l : Leaf K} (hl : l ∈ cfg.model.leaves) {s : SigId} (e : l.state = some s) : cfg.Source s := by
  obtain ⟨p, hp, hf⟩ := leaf_wire h hl
  exact .inr ⟨link_of hl (hf.links s (.inr (hf.state s e).1)), (C58_states cfg ps h.assembled (sealed_proper h)).2.1 l hl s e⟩

theorem taken_provided (h : cfg.Sealed ps ty rank) {p : Wire K} (hp : p ∈ ps) {s : SigId} (ht : p.Takes s) : cfg.Provided s := by
  rcases h.provided p hp s ht with hi | ⟨q, hq, hg⟩
  · exact .inl (.inl hi)
  · obtain ⟨l, hl, hf⟩ := wire_leaf h hq
    rcases hf.gives s hg with ⟨_, ho⟩ | ⟨_, hs⟩
    · exact .inr ⟨l, hl, ho⟩
    · exact .inl (state_source h hl hs)

theorem deriv_state (h : cfg.Sealed ps ty rank) {s : SigId} (e : (cfg.deriv s).isSome = true) : ∃ l ∈ cfg.model.leaves, l.state = some s := by
  obtain ⟨x, e⟩ := Option.isSome_iff_exists.1 e
  obtain ⟨l, hl, hx⟩ := (C58_states cfg ps h.assembled (sealed_proper h)).1 s x e
  exact ⟨l, hl, C58.slope_state hx⟩

/-- The size of a state variable is not 0. -/
theorem state_size (h : cfg.Sealed ps ty rank) {s : SigId} (e : (cfg.deriv s).isSome = true) : 0 < (ty s).size := by
  obtain ⟨l, hl, hs⟩ := deriv_state h e
  obtain ⟨p, hp, hf⟩ := leaf_wire h hl
  obtain ⟨⟨k, t, hg⟩, hb⟩ := hf.state s hs
  obtain ⟨_, ao, hs⟩ := h.sane p hp
  rw [ao _ hg s t rfl]
  rcases hs with ⟨n, hn, _, _, _, hz⟩ | ⟨ho, _⟩
  · cases t with
    | array m => rw [hz _ hg s m rfl]; exact hn
    | _ => exact Nat.one_pos
  · revert hb ho
    cases p.obj <;> intro hb ho <;> first | exact ho.elim | (cases hb; done)

theorem le_sum {a : Nat} {l : List Nat} (h : a ∈ l) : a ≤ l.sum := by
  induction l with
  | nil => cases h
  | cons b l ih =>
    rw [List.sum_cons]
    rcases List.mem_cons.1 h with e | h
    · omega
    · have := ih h; omega

theorem stateSize_pos (h : cfg.Sealed ps ty rank) (w : World K) (hw : ∀ s, (w.sig s).ty = ty s) {p : Wire K} (hp : p ∈ ps) (hb : p.obj.isState = true) :
    0 < stateSize cfg w := by
  obtain ⟨l, hl, hf⟩ := wire_leaf h hp
  obtain ⟨s, hs⟩ := hf.owns hb
  have hk : cfg.Links s := link_of hl (hf.links s (.inr (hf.state s hs).1))
  have hd := (C58_states cfg ps h.assembled (sealed_proper h)).2.1 l hl s hs
  have hm := mem_linkedSigs cfg s hk
  have hz := state_size h hd
  obtain ⟨x, ex⟩ := Option.isSome_iff_exists.1 hd
  have hfl := (C58_deriv_types cfg ps h.assembled (sealed_proper h) ty (fun p hp => ⟨(h.sane p hp).1, (h.sane p hp).2.1⟩) s x ex).1
  unfold stateSize
  cases ht : ty s with
  | scalar =>
    have : s ∈ scalarStatesOf cfg w := List.mem_filter.2 ⟨hm, by rw [hw, ht, hd]; rfl⟩
    have := List.length_pos_of_mem this
    omega
  | array n =>
    have h1 : s ∈ arrayStatesOf cfg w := List.mem_filter.2 ⟨hm, by rw [hw, ht, hd]; rfl⟩
    have h2 : (w.sig s).ty.size ∈ (arrayStatesOf cfg w).map (fun s => (w.sig s).ty.size) := List.mem_map.2 ⟨s, h1, rfl⟩
    have h3 := le_sum h2
    rw [hw] at h3
    omega
  | int => rw [ht] at hfl; exact hfl.elim
  | bool => rw [ht] at hfl; exact hfl.elim

theorem sealed_wellTyped (h : cfg.Sealed ps ty rank) : cfg.WellTyped strict ty where
  dbg := h.dbg
  proper := h.proper
  hash := h.hash
  leaves := fun l hl => by
    obtain ⟨p, hp, hf⟩ := leaf_wire h hl
    exact hf.sane.typed
  inputs := fun f hf => (h.inputs f hf).1
  modelInput := h.modelInput.1
  deriv := C58_deriv_types cfg ps h.assembled (sealed_proper h) ty (fun p hp => ⟨(h.sane p hp).1, (h.sane p hp).2.1⟩)
  stepper := h.stepper
  states := fun hr w hw => by
    obtain ⟨p, hp, hb⟩ := h.reuse hr
    exact stateSize_pos h w hw hp hb

theorem sealed_drivers (h : cfg.Sealed ps ty rank) : cfg.SingleDrivers := by
  have nodup := h.proper.leafNodup
  have gives : ∀ l ∈ cfg.model.leaves, ∀ s, s ∈ l.outs ∨ l.state = some s → ∃ p ∈ ps, l.id = p.id ∧ p.Gives s := by
    intro l hl s hs
    obtain ⟨p, hp, hf⟩ := leaf_wire h hl
    exact ⟨p, hp, hf.id, hs.elim (hf.outs s) (fun e => (hf.state s e).1)⟩
  have pre : ∀ l ∈ cfg.model.leaves, ∀ s ∈ l.preOuts, l.state = some s := fun l hl s hs => by
    obtain ⟨p, hp, hf⟩ := leaf_wire h hl
    exact hf.pre s hs
  have same : ∀ l ∈ cfg.model.leaves, ∀ l' ∈ cfg.model.leaves, ∀ s, s ∈ l.outs ∨ l.state = some s → s ∈ l'.outs ∨ l'.state = some s → l.id = l'.id := by
    intro l hl l' hl' s hs hs'
    obtain ⟨p, hp, e, g⟩ := gives l hl s hs
    obtain ⟨p', hp', e', g'⟩ := gives l' hl' s hs'
    rw [e, e', h.once p hp p' hp' s g g']
  have apart : ∀ l ∈ cfg.model.leaves, ∀ l' ∈ cfg.model.leaves, ∀ s, s ∈ l.outs → l'.state = some s → False := by
    intro l hl l' hl' s hs hs'
    have := eq_of_leafId nodup hl hl' (same l hl l' hl' s (.inl hs) (.inr hs'))
    subst this
    obtain ⟨p, hp, hf⟩ := leaf_wire h hl
    rcases hf.apart with e | e
    · rw [e] at hs; cases hs
    · rw [e] at hs'; cases hs'
  have free : ∀ l ∈ cfg.model.leaves, ∀ s, s ∈ l.outs ∨ l.state = some s → ∀ t, s ∉ cfg.inputKeys t := by
    intro l hl s hs t hi
    obtain ⟨p, hp, e, g⟩ := gives l hl s hs
    exact (h.inputFree t s hi).2 p hp g
  have link : ∀ l ∈ cfg.model.leaves, ∀ s, s ∈ l.outs ∨ l.state = some s → cfg.Links s := by
    intro l hl s hs
    obtain ⟨p, hp, hf⟩ := leaf_wire h hl
    exact link_of hl (hf.links s (.inr (hs.elim (hf.outs s) (fun e => (hf.state s e).1))))
  exact {
    outs := fun l hl => by
      obtain ⟨p, hp, hf⟩ := leaf_wire h hl
      exact hf.sane.once
    preOuts := fun l hl => by
      obtain ⟨p, hp, hf⟩ := leaf_wire h hl
      obtain ⟨id, ls, k⟩ := l
      cases k with
      | custom c => exact (hf.code c rfl).elim
      | _ => simp [Leaf.preOuts, Kind.preOuts]
    inputs := h.inputOnce
    outOut := fun l hl l' hl' s hs hs' => same l hl l' hl' s (.inl hs) (.inl hs')
    prePre := fun l hl l' hl' s hs hs' => same l hl l' hl' s (.inr (pre l hl s hs)) (.inr (pre l' hl' s hs'))
    outPre := fun l hl l' hl' s hs hs' => apart l hl l' hl' s hs (pre l' hl' s hs')
    outState := fun l hl s hs => by
      cases e : cfg.deriv s with
      | none => rfl
      | some x =>
        obtain ⟨l', hl', e'⟩ := deriv_state h (s := s) (by rw [e]; rfl)
        exact (apart l hl l' hl' s hs e').elim
    outInput := fun l hl s hs => free l hl s (.inl hs)
    preInput := fun l hl s hs => free l hl s (.inr (pre l hl s hs))
    stateInput := fun s e => by
      obtain ⟨l', hl', e'⟩ := deriv_state h e
      exact free l' hl' s (.inr e')
    outLink := fun l hl s hs => link l hl s (.inl hs)
    preLink := fun l hl s hs => link l hl s (.inr (pre l hl s hs))
    inputLink := fun t s hs => by
      obtain ⟨⟨p, hp, ht⟩, _⟩ := h.inputFree t s hs
      obtain ⟨l, hl, hf⟩ := wire_leaf h hp
      exact link_of hl (hf.links s (.inl ht)) }

/-- C59: a closed diagram is complete in the sense of C57. -/
theorem C59_complete (cfg : Config K) (ps : List (Wire K)) (ty : SigId → Ty) (rank : BlkId → Nat) (h : cfg.Sealed ps ty rank) : cfg.WellPosed ty rank where
  typed := sealed_wellTyped h
  drivers := sealed_drivers h
  honest := {
    act := fun l hl => by
      obtain ⟨p, hp, hf⟩ := leaf_wire h hl
      exact hf.sane.honest
    pre := fun l hl c hc => by
      obtain ⟨p, hp, hf⟩ := leaf_wire h hl
      exact (hf.code c hc).elim
    post := fun l hl c hc => by
      obtain ⟨p, hp, hf⟩ := leaf_wire h hl
      exact (hf.code c hc).elim
    inputs := fun f hf t => by rw [(h.inputs f hf).2 t]; simp
    modelInput := fun t => by rw [h.modelInput.2 t]; simp }
  integrated := C58_integrated cfg ps h.assembled (sealed_proper h)
  builder := fun l hl => by
    obtain ⟨p, hp, hf⟩ := leaf_wire h hl
    exact hf.plain
  total := fun l hl => by
    obtain ⟨p, hp, hf⟩ := leaf_wire h hl
    exact hf.sane.total
  complete := fun l hl => by
    obtain ⟨p, hp, hf⟩ := leaf_wire h hl
    exact hf.sane.complete
  inputs := fun f hf => (h.inputs f hf).2
  modelInput := h.modelInput.2
  reads := fun l hl => (C58_waits cfg ps h.assembled (sealed_proper h) l hl).1
  ranked := fun l hl s hs => by
    obtain ⟨p, hp, hf⟩ := leaf_wire h hl
    rcases hf.requires s hs with hn | hs
    · have ht : p.Takes s := by
        unfold Wire.Needs at hn
        split at hn
        · exact hn.elim
        · exact hn.elim
        · obtain ⟨k, hk⟩ := hn; exact ⟨k, _, hk⟩
        · exact hn
      rcases h.provided p hp s ht with hi | ⟨q, hq, hg⟩
      · exact .inl (.inl hi)
      · obtain ⟨l', hl', hf'⟩ := wire_leaf h hq
        rcases h.loops p hp s hn q hq hg with hb | hr
        · rcases hf'.gives s hg with ⟨hb', _⟩ | ⟨_, e⟩
          · rw [hb] at hb'; cases hb'
          · exact .inl (state_source h hl' e)
        · rcases hf'.gives s hg with ⟨_, ho⟩ | ⟨_, e⟩
          · exact .inr ⟨l', hl', ho, by rw [hf'.id, hf.id]; exact hr⟩
          · exact .inl (state_source h hl' e)
    · exact .inl (state_source h hl hs)
  postReads := fun l hl s hs => by
    obtain ⟨p, hp, hf⟩ := leaf_wire h hl
    rcases hf.post s hs with ht | e
    · exact taken_provided h hp ht
    · exact .inl (state_source h hl e)
  derivs := fun s x _ e => by
    obtain ⟨l, hl, hx⟩ := (C58_states cfg ps h.assembled (sealed_proper h)).1 s x e
    obtain ⟨p, hp, hf⟩ := leaf_wire h hl
    exact taken_provided h hp (hf.slope s x hx)
  sizes := fun s e => state_size h e
  stepper := fun ⟨s, e⟩ => by
    obtain ⟨l, hl, e'⟩ := deriv_state h e
    obtain ⟨p, hp, hf⟩ := leaf_wire h hl
    exact h.stepped ⟨p, hp, (hf.state s e').2⟩

/-- What a call leaves behind: the time, and values of the right types on all buses. -/
structure Simulated (ps : List (Wire K)) (ty : SigId → Ty) (t : K) (m : Machine K) : Prop where
  init : m.s.initialized = true
  time : m.s.tPrev = t
  values : ∀ p ∈ ps, ∀ s, p.Takes s ∨ p.Gives s → (m.w.sig s).assigned = true ∧ ∃ v, (m.w.sig s).value = some v ∧ v.Fits (ty s)

theorem simulated_of (h : cfg.Sealed ps ty rank) {t : K} {m : Machine K} (hl : C57.Left cfg ty t m) : Simulated ps ty t m := by
  refine ⟨hl.init, hl.time, fun p hp s hs => hl.values s ?_⟩
  rcases hs with hs | hs
  · exact taken_provided h hp hs
  · obtain ⟨l, hl, hf⟩ := wire_leaf h hp
    rcases hf.gives s hs with ⟨_, ho⟩ | ⟨_, hs⟩
    · exact .inr ⟨l, hl, ho⟩
    · exact .inl (state_source h hl hs)

end

section
variable {F : Type} [_root_.Field F] [LinearOrder F] [IsStrictOrderedRing F] [Archimedean F]
attribute [local instance] Arith.exact

/-- C59: if `connect` has returned for all blocks of a closed diagram without algebraic loop, it can be simulated: `init` returns, and so does every
later `run` to a time not before the one reached (after it, if there is a `Delay`) with positive step sizes in order; the driven signals then have values
of their types, and the simulator is at the requested time. -/
theorem C59_simulates (cfg : Config F) (ps : List (Wire F)) (ty : SigId → Ty) (rank : BlkId → Nat) (h : cfg.Sealed ps ty rank)
    (hst : ∀ st, cfg.stepper = some st → st ∈ [euler, rk4, rkf45]) (w : World F) (hw : w.New cfg ty) (tPrev t0 : F) :
    (∃ m, Call.exec cfg (.init t0) { w := w, s := { tPrev := tPrev } } = .ok () m ∧ Simulated ps ty t0 m) ∧
    ∀ m, Attended cfg ty m → ∀ t minH maxH, (Call.run 0 t minH maxH).Fair cfg m → 0 < minH →
      ∃ N, ∀ n, N ≤ n → ∃ m', Call.exec cfg (.run n t minH maxH) m = .ok () m' ∧ Simulated ps ty t m' := by
  have hp := C59_complete cfg ps ty rank h
  constructor
  · obtain ⟨m, h1, h2⟩ := C57.C57_init cfg ty rank hp (fun _ => C57.ordered_exact) _ (.new w tPrev hw) rfl t0
    exact ⟨m, h1, simulated_of h h2⟩
  · intro m hm t minH maxH hf h0
    obtain ⟨N, hN⟩ := C57.C57_run cfg ty rank hp hst m hm t minH maxH hf h0
    refine ⟨N, fun n hn => ?_⟩
    obtain ⟨m', h1, h2⟩ := hN n hn
    exact ⟨m', h1, simulated_of h h2⟩

end

/-! ## Examples -/

/-- The diagram `Demo` is closed. -/
theorem demo_sealed (st : Strategy) : (Demo.cfg st).Sealed C58.demoWires (fun _ => .scalar) (fun b => if b = 1 then 2 else if b = 2 then 1 else 0) := by
  have hw := C56.demo_wellTyped strict st
  have hg : ∀ p ∈ C58.demoWires, ∀ i, p.Gives i → (p.id, i) ∈ [((1 : Nat), (3 : Nat)), (4, 2), (3, 0), (2, 1)] := by
    intro p hp i hi
    obtain ⟨k, t, hi⟩ := hi
    simp only [C58.demoWires, List.mem_cons, List.not_mem_nil, or_false] at hp
    rcases hp with rfl | rfl | rfl | rfl <;> (simp only [C58.sc, List.mem_cons, List.not_mem_nil, or_false] at hi; cases hi; decide)
  have ht : ∀ p ∈ C58.demoWires, ∀ i, p.Takes i → (p.id, i) ∈ [((1 : Nat), (1 : Nat)), (1, 2), (4, 3), (2, 0)] := by
    intro p hp i hi
    obtain ⟨k, t, hi⟩ := hi
    simp only [C58.demoWires, List.mem_cons, List.not_mem_nil, or_false] at hp
    rcases hp with rfl | rfl | rfl | rfl
    · simp only [C58.sc, List.mem_cons, List.not_mem_nil, or_false] at hi
      rcases hi with hi | hi <;> cases hi <;> decide
    · simp only [C58.sc, List.mem_cons, List.not_mem_nil, or_false] at hi
      cases hi; decide
    · cases hi
    · simp only [C58.sc, List.mem_cons, List.not_mem_nil, or_false] at hi
      cases hi; decide
  exact {
    dbg := rfl
    assembled := C58.demo_assembled st
    proper := hw.proper
    hash := hw.hash
    sane := by
      intro p hp
      have ha : ∀ es : Entries, (∀ q ∈ es, ∃ k i, q = C58.sc k i) → Agrees (fun _ => .scalar) es ∧ Sized 1 es := by
        intro es hes
        refine ⟨fun q hq i t e => ?_, fun q hq i m e => ?_⟩ <;> (obtain ⟨k, j, rfl⟩ := hes q hq; cases e)
        rfl
      simp only [C58.demoWires, List.mem_cons, List.not_mem_nil, or_false] at hp
      have h2 : ∀ a b, ∀ q ∈ [C58.sc a 1, C58.sc b 2], ∃ k i, q = C58.sc k i := fun a b q hq => by
        simp only [List.mem_cons, List.not_mem_nil, or_false] at hq
        rcases hq with rfl | rfl <;> exact ⟨_, _, rfl⟩
      have h1 : ∀ a i, ∀ q ∈ [C58.sc a i], ∃ k i, q = C58.sc k i := fun a i q hq => by
        rw [List.mem_singleton] at hq; exact ⟨_, _, hq⟩
      have h0 : ∀ q ∈ ([] : Entries), ∃ k i, q = C58.sc k i := fun q hq => by cases hq
      rcases hp with rfl | rfl | rfl | rfl
      · exact ⟨(ha _ (h2 _ _)).1, (ha _ (h1 _ _)).1, .inl ⟨1, Nat.one_pos, ⟨trivial, rfl, rfl⟩, trivial, (ha _ (h2 _ _)).2, (ha _ (h1 _ _)).2⟩⟩
      · exact ⟨(ha _ (h1 _ _)).1, (ha _ (h1 _ _)).1, .inl ⟨1, Nat.one_pos, trivial, trivial, (ha _ (h1 _ _)).2, (ha _ (h1 _ _)).2⟩⟩
      · exact ⟨(ha _ h0).1, (ha _ (h1 _ _)).1, .inl ⟨1, Nat.one_pos, fun t => ⟨rfl, rfl⟩, fun t => ⟨_, rfl⟩, (ha _ h0).2, (ha _ (h1 _ _)).2⟩⟩
      · exact ⟨(ha _ (h1 _ _)).1, (ha _ (h1 _ _)).1, .inl ⟨1, Nat.one_pos, .inl ⟨trivial, _, rfl⟩, trivial, (ha _ (h1 _ _)).2, (ha _ (h1 _ _)).2⟩⟩
    once := by
      intro p hp q hq i h1 h2
      have key : ∀ a ∈ [((1 : Nat), (3 : Nat)), (4, 2), (3, 0), (2, 1)], ∀ b ∈ [((1 : Nat), (3 : Nat)), (4, 2), (3, 0), (2, 1)], a.2 = b.2 → a.1 = b.1 := by decide
      exact key _ (hg p hp i h1) _ (hg q hq i h2) rfl
    provided := by
      intro p hp i hi
      have key : ∀ a ∈ [((1 : Nat), (1 : Nat)), (1, 2), (4, 3), (2, 0)], a.2 = 0 ∨ a.2 = 1 ∨ a.2 = 2 ∨ a.2 = 3 := by decide
      right
      rcases key _ (ht p hp i hi) with e | e | e | e
      · exact ⟨_, .tail _ (.tail _ (.head _)), str "out", .scalar, by rw [show i = 0 from e]; exact .head _⟩
      · exact ⟨_, .tail _ (.tail _ (.tail _ (.head _))), str "out", .scalar, by rw [show i = 1 from e]; exact .head _⟩
      · exact ⟨_, .tail _ (.head _), str "out", .scalar, by rw [show i = 2 from e]; exact .head _⟩
      · exact ⟨_, .head _, str "out", .scalar, by rw [show i = 3 from e]; exact .head _⟩
    loops := by
      intro p hp i hn q hq hgi
      have key : ∀ a ∈ [((1 : Nat), (1 : Nat)), (1, 2), (4, 3), (2, 0)], ∀ b ∈ [((1 : Nat), (3 : Nat)), (4, 2), (3, 0), (2, 1)], a.2 = b.2 → a.1 ≠ 4 →
          b.1 = 4 ∨ (if b.1 = 1 then 2 else if b.1 = 2 then 1 else 0) < (if a.1 = 1 then 2 else if a.1 = 2 then 1 else 0) := by decide
      have h4 : q.id = 4 → q.obj.isState = true := by
        intro e
        simp only [C58.demoWires, List.mem_cons, List.not_mem_nil, or_false] at hq
        rcases hq with rfl | rfl | rfl | rfl <;> first | rfl | exact absurd e (by decide)
      have G := hg q hq i hgi
      have T := ht p hp i
      simp only [C58.demoWires, List.mem_cons, List.not_mem_nil, or_false] at hp
      rcases hp with rfl | rfl | rfl | rfl
      · exact (key _ (T hn) _ G rfl (fun e => by cases e)).imp h4 id
      · exact hn.elim
      · exact (key _ (T hn) _ G rfl (fun e => by cases e)).imp h4 id
      · exact (key _ (T hn) _ G rfl (fun e => by cases e)).imp h4 id
    inputs := fun f e => by cases e
    modelInput := ⟨hw.modelInput, fun _ => rfl⟩
    inputOnce := fun _ => .nil
    inputFree := fun t s hs => by cases hs
    stepper := hw.stepper
    stepped := fun _ => rfl
    reuse := fun _ => ⟨_, .tail _ (.head _), rfl⟩ }

/-- The hypotheses of `C59_simulates` hold for it, and for a call of `run` after `init`. -/
example (st : Strategy) : Demo.world.New (Demo.cfg st) (fun _ => .scalar) ∧ (∀ stp, (Demo.cfg st).stepper = some stp → stp ∈ [euler, rk4, rkf45]) ∧
    ∃ m, Attended (Demo.cfg st) (fun _ => .scalar) m ∧ m.s.initialized = true ∧ (Call.run 0 1 (1/10) 10).Fair (Demo.cfg st) m := by
  have hn : Demo.world.New (Demo.cfg st) (fun _ => .scalar) := {
    fine := C56.demo_fine strict st
    done := fun _ => rfl
    record := fun l hl hd => (C56.demo_noDelay st ⟨l, hl, hd⟩).elim }
  refine ⟨hn, fun stp e => by cases e; simp, _, .call (.init 0) (.new _ 0 hn) rfl (eq_of_returns (by cases st <;> decide +kernel)), ?_, fun _ => ⟨fun hd => ?_, fun _ => ?_⟩⟩
  · cases st <;> decide +kernel
  · exact (C56.demo_noDelay st hd).elim
  · refine ⟨?_, ?_, ?_, ?_, fun h => (C56.demo_noDelay st h).elim⟩ <;> cases st <;> (try unfold Comparable) <;> decide +kernel

end Pooya.C59
