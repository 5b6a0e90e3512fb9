import Verif.Proof.Course
import Verif.Props.C61
import Verif.Spec.Passage

/-! The drawing of a diagram and the diagram itself. -/

namespace Pooya

open Set

set_option linter.unusedSectionVars false

attribute [local instance] Arith.exact

/-! ### Connecting the blocks -/

/-- What the object is after `connect`. -/
def Piece.Makes (p : Piece) (k : Kind ℝ) : Prop :=
  match p.part, p.ins with
  | .const v, [] => k = .const (.scalar v) p.out
  | .source f, _ => k = .source (fun t => .ok (.scalar (f t))) p.out
  | .gain c, [x] => k = .gain (.scalar c) x p.out
  | .add v, xs => k = .add (.scalar v) xs p.out
  | .multiply v, xs => k = .multiply (.scalar v) xs p.out
  | .subtract, [x, y] => k = .subtract x y p.out
  | .divide, [x, y] => k = .divide x y p.out
  | .pipe, [x] => k = .pipe x p.out
  | .siso f, [x] => k = .siso (fun t v => match v with | .scalar x => .ok (.scalar (f t x)) | _ => .ok (.scalar 0)) x p.out
  | .func f, x :: _ => k = .func (Part.code f) [x] [p.out]
  | .integrator _, [x] => k = .integrator x p.out
  | .delay life, [x, e, i] => k = .delay life x e i p.out
  | _, _ => False

theorem bus_cons {es : Entries} {s : Signal} {ss : List Signal} (h : es.map Prod.snd = s :: ss) : ∃ l es', es = (l, s) :: es' ∧ es'.map Prod.snd = ss := by
  match es, h with
  | (l, s') :: es', h => cases h; exact ⟨l, es', rfl, rfl⟩

theorem bus_nil {es : Entries} (h : es.map Prod.snd = []) : es = [] := by
  match es, h with
  | [], _ => rfl

/-- The inputs of a `Delay`, in any order. -/
theorem perm_three {α : Type} {a b c : α} {l : List α} (h : l.Perm [a, b, c]) :
    l = [a, b, c] ∨ l = [b, a, c] ∨ l = [b, c, a] ∨ l = [c, b, a] ∨ l = [c, a, b] ∨ l = [a, c, b] := by
  have h3 := h.length_eq
  match l, h3 with
  | [x, y, z], _ =>
    have hx : x ∈ [a, b, c] := h.mem_iff.1 (.head _)
    have two : ∀ {u v x y : α}, [x, y].Perm [u, v] → (x = u ∧ y = v) ∨ (x = v ∧ y = u) := by
      intro u v x y h
      have : x ∈ [u, v] := h.mem_iff.1 (.head _)
      simp only [List.mem_cons, List.not_mem_nil, or_false] at this
      rcases this with rfl | rfl
      · exact .inl ⟨rfl, by simpa using h⟩
      · have h' := h.trans (List.Perm.swap x u [])
        exact .inr ⟨rfl, by simpa using h'⟩
    simp only [List.mem_cons, List.not_mem_nil, or_false] at hx
    rcases hx with rfl | rfl | rfl
    · rcases two ((List.perm_cons _).1 h) with ⟨rfl, rfl⟩ | ⟨rfl, rfl⟩ <;> simp
    · have h' := h.trans (List.Perm.swap x a [c])
      rcases two ((List.perm_cons _).1 h') with ⟨rfl, rfl⟩ | ⟨rfl, rfl⟩ <;> simp
    · have h' := h.trans (((List.Perm.swap x b []).cons a).trans (List.Perm.swap x a [b]))
      rcases two ((List.perm_cons _).1 h') with ⟨rfl, rfl⟩ | ⟨rfl, rfl⟩ <;> simp

theorem Piece.Bus.names {p : Piece} {ibus : Entries} (h : p.Bus ibus) : (ibus.map Prod.snd).Perm (p.ins.map (fun s => Signal.val s .scalar)) := by
  obtain ⟨id, part, ins, out⟩ := p
  unfold Piece.Bus at h
  simp only at h ⊢
  split at h
  · exact h.map Prod.snd
  · exact h.elim
  · rw [h]

theorem Piece.Bus.plain {p : Piece} {ibus : Entries} (h : p.Bus ibus) (hp : p.part.isDelay = false) : ibus.map Prod.snd = p.ins.map (fun s => Signal.val s .scalar) := by
  obtain ⟨id, part, ins, out⟩ := p
  unfold Piece.Bus at h
  simp only at h ⊢
  split at h
  · cases hp
  · cases hp
  · exact h

/-- A block with the right number of inputs can be connected. -/
theorem Piece.connects {p : Piece} {w : Wire ℝ} (hw : p.Wired w) (hf : p.Fits) (d : Derivs) : ∃ l d', w.connect true d = .ok (l, d') ∧ p.Makes l.kind := by
  obtain ⟨id, part, ins, out⟩ := p
  obtain ⟨wid, obj, ibus, obus⟩ := w
  obtain ⟨hid, hobj, hi, ho⟩ := hw
  simp only at hid hobj hi ho
  subst hid hobj
  obtain ⟨lo, ob, rfl, ho'⟩ := bus_cons ho
  have := bus_nil ho'; subst this
  clear ho ho'
  cases hdl : part.isDelay with
  | true =>
    cases part with
    | delay life =>
      match ins, hf with
      | [x, e, i], _ =>
        rcases perm_three hi with rfl | rfl | rfl | rfl | rfl | rfl <;>
          exact ⟨⟨wid, _, .delay life x e i out⟩, _, by with_unfolding_all rfl, rfl⟩
    | _ => cases hdl
  | false =>
  replace hi := hi.plain hdl
  simp only at hi
  have hall : ∀ (xs : List SigId) (es : Entries), es.map Prod.snd = xs.map (fun s => Signal.val s .scalar) →
      es.all (fun p => HandleTy.accepts .scalar p.2) = true ∧ es.map (fun p => p.2.id) = xs := by
    intro xs
    induction xs with
    | nil => intro es h; rw [bus_nil h]; exact ⟨rfl, rfl⟩
    | cons x xs ih =>
      intro es h
      obtain ⟨l, es', rfl, h'⟩ := bus_cons h
      obtain ⟨k1, k2⟩ := ih es' h'
      exact ⟨by rw [List.all_cons, k1]; rfl, by rw [List.map_cons, k2]; rfl⟩
  have one : ∀ x, ins = [x] → ∃ l, ibus = [(l, Signal.val x .scalar)] := by
    rintro x rfl
    obtain ⟨l, es, rfl, h⟩ := bus_cons hi
    rw [bus_nil h]; exact ⟨l, rfl⟩
  have two : ∀ x y, ins = [x, y] → ∃ l k, ibus = [(l, Signal.val x .scalar), (k, Signal.val y .scalar)] := by
    rintro x y rfl
    obtain ⟨l, es, rfl, h⟩ := bus_cons hi
    obtain ⟨k, es, rfl, h'⟩ := bus_cons h
    rw [bus_nil h']; exact ⟨l, k, rfl⟩
  have fold : ∀ x xs, ins = x :: xs → ∃ st, (Cls.fold .double).connect true ibus [(lo, Signal.val out .scalar)] ⟨{}, d⟩ = .ok ⟨x :: xs, some out⟩ st := by
    rintro x xs rfl
    obtain ⟨k1, k2⟩ := hall _ _ hi
    have hlen : decide (1 ≤ ibus.length) = true := by
      have := congrArg List.length hi
      simp at this; simp [this]
    have k1 : ibus.all (fun p => (VTy.handle .double).accepts p.2) = true := k1
    rw [Cls.connect.eq_4]
    simp only [bind_ok, hlen, k1]
    rw [k2]
    exact ⟨_, (), _, rfl, out, _, rfl, (), _, rfl, (), _, rfl, rfl⟩
  unfold Piece.Fits at hf
  simp only [Piece.Makes] at hf ⊢ hi
  cases part with
  | delay life => cases hdl
  | const v =>
    match ins, hf with
    | [], _ => rw [bus_nil hi]; exact ⟨_, _, rfl, rfl⟩
  | source f => exact ⟨_, _, rfl, rfl⟩
  | gain k =>
    match ins, hf with
    | [x], _ => obtain ⟨l, rfl⟩ := one x rfl; exact ⟨_, _, rfl, rfl⟩
  | pipe =>
    match ins, hf with
    | [x], _ => obtain ⟨l, rfl⟩ := one x rfl; exact ⟨_, _, rfl, rfl⟩
  | siso f =>
    match ins, hf with
    | [x], _ => obtain ⟨l, rfl⟩ := one x rfl; exact ⟨_, _, rfl, rfl⟩
  | integrator x0 =>
    match ins, hf with
    | [x], _ => obtain ⟨l, rfl⟩ := one x rfl; exact ⟨_, _, rfl, rfl⟩
  | subtract =>
    match ins, hf with
    | [x, y], _ => obtain ⟨l, k, rfl⟩ := two x y rfl; exact ⟨_, _, rfl, rfl⟩
  | divide =>
    match ins, hf with
    | [x, y], _ => obtain ⟨l, k, rfl⟩ := two x y rfl; exact ⟨_, _, rfl, rfl⟩
  | func f =>
    match ins, hf with
    | x :: xs, _ => obtain ⟨l, es, rfl, h⟩ := bus_cons hi; exact ⟨_, _, rfl, rfl⟩
  | add v =>
    match ins, hf with
    | x :: xs, _ =>
      obtain ⟨st, e⟩ := fold x xs rfl
      refine ⟨⟨wid, st.c.links, .add (.scalar v) (x :: xs) out⟩, st.d, ?_, rfl⟩
      unfold Wire.connect
      rw [show Make.connect true (Part.add v).make ibus [(lo, Signal.val out .scalar)] ⟨{}, d⟩ = .ok (.add (.scalar v) (x :: xs) out) st from (bind_ok _ _ _ _ _).2 ⟨_, _, e, rfl⟩]
  | multiply v =>
    match ins, hf with
    | x :: xs, _ =>
      obtain ⟨st, e⟩ := fold x xs rfl
      refine ⟨⟨wid, st.c.links, .multiply (.scalar v) (x :: xs) out⟩, st.d, ?_, rfl⟩
      unfold Wire.connect
      rw [show Make.connect true (Part.multiply v).make ibus [(lo, Signal.val out .scalar)] ⟨{}, d⟩ = .ok (.multiply (.scalar v) (x :: xs) out) st from (bind_ok _ _ _ _ _).2 ⟨_, _, e, rfl⟩]

/-- The number of inputs of a connected block is right. -/
theorem Piece.fits_of {p : Piece} {w : Wire ℝ} (hw : p.Wired w) {d d' : Derivs} {l : Leaf ℝ} (h : w.connect true d = .ok (l, d')) : p.Fits := by
  obtain ⟨id, part, ins, out⟩ := p
  obtain ⟨wid, obj, ibus, obus⟩ := w
  obtain ⟨hid, hobj, hi, ho⟩ := hw
  simp only at hid hobj hi ho
  subst hid hobj
  cases hdl : part.isDelay with
  | true =>
    cases part with
    | delay life =>
      unfold Piece.Bus at hi
      match ins, hi with
      | [x, e, i], _ => trivial
    | _ => cases hdl
  | false =>
  replace hi := hi.plain hdl
  simp only at hi
  obtain ⟨b, st, h1, h2, _⟩ := C58.inv (fun a b c e f he => by cases part <;> cases he) h
  have hp := (cls_ports h1).1
  have hlen : ibus.length = ins.length := by have := congrArg List.length hi; simpa using this
  simp only [hlen] at hp
  have l0 : ins.length = 0 → ins = [] := List.length_eq_zero_iff.1
  have l1 : ins.length = 1 → ∃ x, ins = [x] := List.length_eq_one_iff.1
  have l2 : ins.length = 2 → ∃ x y, ins = [x, y] := List.length_eq_two.1
  unfold Piece.Fits
  cases part with
  | delay life => cases hdl
  | const v => rw [l0 (hp 0 rfl)]; trivial
  | source f => trivial
  | gain k => obtain ⟨x, rfl⟩ := l1 (hp 1 rfl); trivial
  | pipe => obtain ⟨x, rfl⟩ := l1 (hp 1 rfl); trivial
  | siso f => obtain ⟨x, rfl⟩ := l1 (hp 1 rfl); trivial
  | integrator x0 => obtain ⟨x, rfl⟩ := l1 (hp 1 rfl); trivial
  | subtract => obtain ⟨x, y, rfl⟩ := l2 (hp 2 rfl); trivial
  | divide => obtain ⟨x, y, rfl⟩ := l2 (hp 2 rfl); trivial
  | func f =>
    match ins, hi with
    | _ :: _, _ => trivial
    | [], hi =>
      rw [bus_nil hi] at h2
      obtain ⟨bi, bo⟩ := b
      cases bi <;> cases bo <;> cases h2
  | add v =>
    match ins, hi with
    | _ :: _, _ => trivial
    | [], hi =>
      rw [bus_nil hi] at h1
      have h1 : (Cls.fold .double).connect true [] obus ⟨{}, d⟩ = .ok b st := h1
      rw [Cls.connect.eq_4] at h1
      simp only [bind_ok] at h1
      obtain ⟨_, _, _, _, _, _, _, _, h3, _⟩ := h1
      exact absurd (((debugVerify_ok _ _ _ _ _).1 h3).1 rfl) (by decide)
  | multiply v =>
    match ins, hi with
    | _ :: _, _ => trivial
    | [], hi =>
      rw [bus_nil hi] at h1
      have h1 : (Cls.fold .double).connect true [] obus ⟨{}, d⟩ = .ok b st := h1
      rw [Cls.connect.eq_4] at h1
      simp only [bind_ok] at h1
      obtain ⟨_, _, _, _, _, _, _, _, h3, _⟩ := h1
      exact absurd (((debugVerify_ok _ _ _ _ _).1 h3).1 rfl) (by decide)

theorem Piece.makes_of {p : Piece} {w : Wire ℝ} (hw : p.Wired w) {d d' : Derivs} {l : Leaf ℝ} (h : w.connect true d = .ok (l, d')) : p.Makes l.kind := by
  obtain ⟨l', d'', e, k⟩ := Piece.connects hw (Piece.fits_of hw h) d
  rw [h] at e
  cases e
  exact k

/-! ### The diagram -/

theorem Piece.gives_iff {p : Piece} {w : Wire ℝ} (hw : p.Wired w) (i : SigId) : w.Gives i ↔ i = p.out := by
  constructor
  · rintro ⟨k, t, h⟩
    have := List.mem_map_of_mem (f := Prod.snd) h
    rw [hw.obus, List.mem_singleton] at this
    cases this
    rfl
  · rintro rfl
    have : Signal.val p.out .scalar ∈ w.obus.map Prod.snd := by rw [hw.obus]; exact .head _
    obtain ⟨⟨k, x⟩, h, e⟩ := List.mem_map.1 this
    simp only at e
    subst e
    exact ⟨k, _, h⟩

theorem Piece.takes_iff {p : Piece} {w : Wire ℝ} (hw : p.Wired w) (i : SigId) : w.Takes i ↔ i ∈ p.ins := by
  constructor
  · rintro ⟨k, t, h⟩
    have := List.mem_map_of_mem (f := Prod.snd) h
    obtain ⟨s', hs, e⟩ := List.mem_map.1 (hw.ibus.names.mem_iff.1 this)
    cases e
    exact hs
  · intro hi
    have : Signal.val i .scalar ∈ w.ibus.map Prod.snd := hw.ibus.names.mem_iff.2 (List.mem_map_of_mem (f := fun s => Signal.val s .scalar) hi)
    obtain ⟨⟨k, x⟩, h, e⟩ := List.mem_map.1 this
    simp only at e
    subst e
    exact ⟨k, _, h⟩

theorem Piece.isState_eq {p : Piece} {w : Wire ℝ} (hw : p.Wired w) : w.obj.isState = p.part.isIntegrator := by
  rw [hw.obj]; cases p.part <;> rfl

theorem Piece.memoryless {p : Piece} {w : Wire ℝ} (hw : p.Wired w) (hd : p.part.isDelay = false) : w.obj.Memoryless := by
  rw [hw.obj]; cases hp : p.part <;> first | trivial | (rw [hp] at hd; cases hd)

theorem Piece.plain {p : Piece} {w : Wire ℝ} (hw : p.Wired w) : w.obj.Plain := by
  rw [hw.obj]; cases p.part <;> trivial

theorem Piece.needs {p : Piece} {w : Wire ℝ} (hw : p.Wired w) {i : SigId} (h : w.Needs i) : p.part.isIntegrator = false ∧ i ∈ p.ins := by
  unfold Wire.Needs at h
  rw [hw.obj] at h
  rw [← Piece.takes_iff hw]
  revert h
  cases p.part <;> first | exact fun h => h.elim | exact fun h => ⟨rfl, h⟩

theorem Piece.sane {p : Piece} {w : Wire ℝ} (hw : p.Wired w) {ty : SigId → Ty} (hi : ∀ s ∈ p.ins, ty s = .scalar) (ho : ty p.out = .scalar) : w.Sane ty := by
  have ai : ∀ q ∈ w.ibus, ∃ s ∈ p.ins, q.2 = .val s .scalar := fun q hq => by
    have := List.mem_map_of_mem (f := Prod.snd) hq
    obtain ⟨s, hs, e⟩ := List.mem_map.1 (hw.ibus.names.mem_iff.1 this)
    exact ⟨s, hs, e.symm⟩
  have ao : ∀ q ∈ w.obus, q.2 = .val p.out .scalar := fun q hq => by
    have := List.mem_map_of_mem (f := Prod.snd) hq
    rw [hw.obus, List.mem_singleton] at this
    exact this
  have si : Sized 1 w.ibus := fun q hq i m e => by obtain ⟨s, _, e'⟩ := ai q hq; rw [e] at e'; cases e'
  have so : Sized 1 w.obus := fun q hq i m e => by have e' := ao q hq; rw [e] at e'; cases e'
  have fit : ∀ a : ℝ, (Val.scalar a).Fits .scalar := fun a => ⟨rfl, rfl⟩
  refine ⟨fun q hq i t e => ?_, fun q hq i t e => ?_, ?_⟩
  · obtain ⟨s, hs, e'⟩ := ai q hq
    rw [e] at e'; cases e'; exact hi _ hs
  · have e' := ao q hq
    rw [e] at e'; cases e'; exact ho
  have hobj := hw.obj
  cases hp : p.part with
  | func f =>
    right
    rw [hp] at hobj
    refine ⟨by rw [hobj]; trivial, by rw [hobj]; exact ⟨fun k hk => by rw [List.mem_singleton] at hk; subst hk; trivial, fun k hk => by rw [List.mem_singleton] at hk; subst hk; trivial⟩, ?_⟩
    intro d d' l e
    have hm := Piece.makes_of hw e
    have hf := Piece.fits_of hw e
    unfold Piece.Fits at hf
    unfold Piece.Makes at hm
    rw [hp] at hm hf
    cases hins : p.ins with
    | nil => rw [hins] at hf; exact hf.elim
    | cons x xs =>
      rw [hins] at hm
      simp only at hm
      have hx : ty x = .scalar := hi x (by rw [hins]; exact .head _)
      refine ⟨⟨?_, ?_, ?_, ?_, ?_⟩, ?_⟩
      · unfold Leaf.Typed
        rw [hm]
        intro t vs hv
        cases hv with
        | cons h1 h2 =>
          cases h2
          rename_i v
          rw [hx] at h1
          match v, h1 with
          | .scalar a, _ => exact ⟨⟨⟨by rw [ho]; rfl, fun _ => by rw [ho]; rfl⟩, trivial⟩, fun e he => by cases he⟩
          | .int _, h1 => cases h1.1
          | .bool _, h1 => cases h1.1
          | .array _, h1 => cases h1.1
      · unfold Leaf.Total
        rw [hm]
        intro t vs _
        show (Part.code f t vs).2 = none
        unfold Part.code
        split <;> rfl
      · unfold Leaf.Complete
        rw [hm]
        intro t vs _
        show [p.out].length ≤ (Part.code f t vs).1.length ∧ none ∉ (Part.code f t vs).1
        unfold Part.code
        split <;> exact ⟨le_refl _, by simp⟩
      · unfold Leaf.Honest
        rw [hm]
        intro t vs
        show (Part.code f t vs).2 ≠ _
        unfold Part.code
        split <;> simp
      · show l.kind.outs.Nodup
        rw [hm]
        exact List.nodup_singleton _
      · intro i hg
        rw [Piece.gives_iff hw] at hg
        show i ∈ l.kind.outs
        rw [hm, hg]
        exact .head _
  | _ => 
    left
    rw [hp] at hobj
    refine ⟨1, Nat.one_pos, ?_, ?_, si, so⟩ <;> rw [hobj] <;> first
      | trivial
      | exact fit _
      | exact fun t => fit _
      | exact .inl ⟨trivial, _, rfl⟩
      | exact ⟨trivial, fit _⟩
      | exact fun t => ⟨_, rfl⟩
      | (intro t v hv
         match v, hv with
         | .scalar a, _ => exact fit _
         | .int _, h1 => cases h1.1
         | .bool _, h1 => cases h1.1
         | .array _, h1 => cases h1.1)
      | (refine ⟨fun t v hv => ?_, fun t v => ?_⟩
         · match v, hv with
           | .scalar a, _ => exact ⟨_, rfl⟩
           | .int _, h1 => cases h1.1
           | .bool _, h1 => cases h1.1
           | .array _, h1 => cases h1.1
         · cases v <;> simp)

theorem forall₂_left {α β : Type} {R : α → β → Prop} {l : List α} {k : List β} (h : List.Forall₂ R l k) {a : α} (ha : a ∈ l) : ∃ b ∈ k, R a b := by
  induction h with
  | nil => cases ha
  | cons h1 _ ih =>
    rcases List.mem_cons.1 ha with rfl | ha
    · exact ⟨_, .head _, h1⟩
    · obtain ⟨b, hb, e⟩ := ih ha
      exact ⟨b, .tail _ hb, e⟩

theorem forall₂_right {α β : Type} {R : α → β → Prop} {l : List α} {k : List β} (h : List.Forall₂ R l k) {b : β} (hb : b ∈ k) : ∃ a ∈ l, R a b := by
  induction h with
  | nil => cases hb
  | cons h1 _ ih =>
    rcases List.mem_cons.1 hb with rfl | hb
    · exact ⟨_, .head _, h1⟩
    · obtain ⟨a, ha, e⟩ := ih hb
      exact ⟨a, .tail _ ha, e⟩

/-- The wires of the drawing. -/
structure Config.Drawn (cfg : Config ℝ) (d : Sketch) (ws : List (Wire ℝ)) : Prop where
  draws : cfg.Draws d
  assembled : cfg.Assembled ws
  wire : ∀ p ∈ d.pieces, ∃ w ∈ ws, p.Wired w
  piece : ∀ w ∈ ws, ∃ p ∈ d.pieces, p.Wired w

theorem Config.Draws.drawn {cfg : Config ℝ} {d : Sketch} (h : cfg.Draws d) : ∃ ws, cfg.Drawn d ws := by
  obtain ⟨ps, ws, h1, h2, h3⟩ := h.assembled
  refine ⟨ws, h, h3, fun p hp => forall₂_left h2 (h1.mem_iff.1 hp), fun w hw => ?_⟩
  obtain ⟨p, hp, e⟩ := forall₂_right h2 hw
  exact ⟨p, h1.mem_iff.2 hp, e⟩

variable {cfg : Config ℝ} {d : Sketch} {ws : List (Wire ℝ)} {rank : BlkId → Nat} {wd : World ℝ}

theorem Config.Draws.vals (h : cfg.Draws d) (t : ℝ) : cfg.inputVals t = d.inputs.map (fun u => (u.1, Val.scalar (u.2 t))) := by
  unfold Config.inputVals
  rw [h.modelInput t]
  rcases h.inputs with ⟨e1, e2⟩ | e
  · rw [e1, e2]; rfl
  · rw [e]; simp

theorem Config.Draws.keys (h : cfg.Draws d) (t : ℝ) : cfg.inputKeys t = d.inputs.map Prod.fst := by
  rw [← C60.inputKeys_eq, h.vals, List.map_map]
  rfl

theorem Piece.eq_of_out (hc : d.Closed rank) {p q : Piece} (hp : p ∈ d.pieces) (hq : q ∈ d.pieces) (e : p.out = q.out) : p = q :=
  List.inj_on_of_nodup_map (List.nodup_append.1 hc.once).1 hp hq e

/-- The diagram is closed. -/
theorem Config.Drawn.closed (h : cfg.Drawn d ws) (hc : d.Closed rank) (hw : wd.Begins d) : cfg.Sealed ws (fun s => (wd.sig s).ty) rank where
  dbg := h.draws.dbg
  assembled := h.assembled
  proper := h.draws.proper
  hash := h.draws.hash
  sane := fun w hm => by
    obtain ⟨p, hp, e⟩ := h.piece w hm
    exact Piece.sane e (hw.types p hp).1 (hw.types p hp).2
  once := fun w hm w' hm' i g g' => by
    obtain ⟨p, hp, e⟩ := h.piece w hm
    obtain ⟨q, hq, e'⟩ := h.piece w' hm'
    rw [Piece.gives_iff e] at g
    rw [Piece.gives_iff e'] at g'
    rw [e.id, e'.id, Piece.eq_of_out hc hp hq (g.symm.trans g')]
  provided := fun w hm i ht => by
    obtain ⟨p, hp, e⟩ := h.piece w hm
    rw [Piece.takes_iff e] at ht
    rcases List.mem_append.1 (hc.provided p hp i ht) with hi | hi
    · obtain ⟨q, hq, rfl⟩ := List.mem_map.1 hi
      obtain ⟨w', hm', e'⟩ := h.wire q hq
      exact .inr ⟨w', hm', (Piece.gives_iff e' _).2 rfl⟩
    · exact .inl (fun t => by rw [h.draws.keys]; exact hi)
  loops := fun w hm i hn w' hm' g => by
    obtain ⟨p, hp, e⟩ := h.piece w hm
    obtain ⟨q, hq, e'⟩ := h.piece w' hm'
    rw [Piece.gives_iff e'] at g
    subst g
    obtain ⟨k1, k2⟩ := Piece.needs e hn
    rw [Piece.isState_eq e', e.id, e'.id]
    exact hc.loops p hp k1 q hq k2
  inputs := fun f hf => by
    have typed : ∀ u ∈ d.inputs, (wd.sig u.1).ty = .scalar := fun u hu => by
      obtain ⟨p, hp, e⟩ := hc.used u hu
      exact (hw.types p hp).1 _ e
    rcases h.draws.inputs with ⟨e, _⟩ | e
    · rw [hf] at e; cases e
    · rw [hf] at e; cases e
      refine ⟨fun t => ⟨fun q hq => ?_, fun e he => by cases he⟩, fun t => rfl⟩
      obtain ⟨u, hu, rfl⟩ := List.mem_map.1 hq
      simp only
      rw [typed u hu]
      exact ⟨rfl, fun _ => rfl⟩
  modelInput := ⟨fun t => by rw [h.draws.modelInput t]; exact ⟨fun q hq => (by cases hq), fun e he => (by cases he)⟩, fun t => by rw [h.draws.modelInput t]⟩
  inputOnce := fun t => by rw [h.draws.keys]; exact (List.nodup_append.1 hc.once).2.1
  inputFree := fun t s hs => by
    rw [h.draws.keys] at hs
    refine ⟨?_, fun w hm g => ?_⟩
    · obtain ⟨u, hu, rfl⟩ := List.mem_map.1 hs
      obtain ⟨p, hp, e⟩ := hc.used u hu
      obtain ⟨w', hm', e'⟩ := h.wire p hp
      exact ⟨w', hm', (Piece.takes_iff e' _).2 e⟩
    · obtain ⟨p, hp, e⟩ := h.piece w hm
      rw [Piece.gives_iff e] at g
      exact (List.nodup_append.1 hc.once).2.2 s (g ▸ List.mem_map_of_mem hp) s hs rfl
  stepper := fun st e => by
    rcases h.draws.stepper with ⟨e', _⟩ | ⟨st', hm, e'⟩ <;> rw [e] at e' <;> cases e'
    simp only [List.mem_cons, List.not_mem_nil, or_false] at hm
    rcases hm with rfl | rfl | rfl
    · exact C26.dim_provided.1
    · exact C26.dim_provided.2.1
    · exact C26.dim_provided.2.2
  stepped := fun hs => by
    rcases h.draws.stepper with ⟨_, e'⟩ | ⟨st', hm, e'⟩
    · obtain ⟨w, hm, e⟩ := hs
      obtain ⟨p, hp, k⟩ := h.piece w hm
      rw [Piece.isState_eq k, e' p hp] at e
      cases e
    · rw [e']; rfl
  reuse := fun hs => by
    obtain ⟨p, hp, e⟩ := h.draws.reuse hs
    obtain ⟨w', hm', e'⟩ := h.wire p hp
    exact ⟨w', hm', by rw [Piece.isState_eq e', e]⟩

/-- The blocks of the model are those of the drawing. -/
theorem Config.Drawn.leaf (h : cfg.Drawn d ws) {l : Leaf ℝ} (hl : l ∈ cfg.model.leaves) :
    ∃ p ∈ d.pieces, l.id = p.id ∧ p.Fits ∧ p.Makes l.kind ∧ ∀ s, l.Requires s → (p.part.isIntegrator = false ∧ s ∈ p.ins) ∨ l.state = some s := by
  obtain ⟨ls, h1, h2⟩ := h.assembled
  rw [h.draws.dbg] at h1
  obtain ⟨w, hm, d1, d2, e⟩ := C58.all_mem h1 l (h2.mem_iff.1 hl)
  obtain ⟨p, hp, hw⟩ := h.piece w hm
  have hnc : ∀ a b c e f, w.obj ≠ .custom a b c e f := fun a b c e f he => by rw [hw.obj] at he; cases hpp : p.part <;> rw [hpp] at he <;> cases he
  obtain ⟨_, _, _, _, hid, _, _⟩ := C58.inv hnc e
  refine ⟨p, hp, hid.trans hw.id, Piece.fits_of hw e, Piece.makes_of hw e, fun s hs => ?_⟩
  have hch : w.Checked true := by unfold Wire.Checked; rw [hw.obj]; cases p.part <;> first | trivial | exact .inl rfl
  exact ((C59.C59_waits true w hch hnc _ _ _ e s).1 hs).imp (Piece.needs hw) _root_.id

theorem Config.Drawn.leaf_of (h : cfg.Drawn d ws) {p : Piece} (hp : p ∈ d.pieces) :
    ∃ l ∈ cfg.model.leaves, l.id = p.id ∧ p.Fits ∧ p.Makes l.kind := by
  obtain ⟨ls, h1, h2⟩ := h.assembled
  rw [h.draws.dbg] at h1
  obtain ⟨w, hm, hw⟩ := h.wire p hp
  obtain ⟨l, hl, d1, d2, e⟩ := C59.all_conv h1 w hm
  have hnc : ∀ a b c e f, w.obj ≠ .custom a b c e f := fun a b c e f he => by rw [hw.obj] at he; cases hpp : p.part <;> rw [hpp] at he <;> cases he
  obtain ⟨_, _, _, _, hid, _, _⟩ := C58.inv hnc e
  exact ⟨l, h2.mem_iff.2 hl, hid.trans hw.id, Piece.fits_of hw e, Piece.makes_of hw e⟩

theorem Piece.Makes.state {p : Piece} {l : Leaf ℝ} (h : p.Makes l.kind) : l.state = if p.part.isIntegrator then some p.out else none := by
  obtain ⟨id, part, ins, out⟩ := p
  unfold Piece.Makes at h
  unfold Leaf.state
  simp only at h
  split at h <;> first | exact h.elim | (rw [h]; rfl)

theorem Piece.Makes.slope {p : Piece} {l : Leaf ℝ} (h : p.Makes l.kind) (hi : p.part.isIntegrator = true) : ∃ x, p.ins = [x] ∧ l.kind = .integrator x p.out := by
  obtain ⟨id, part, ins, out⟩ := p
  cases part with
  | integrator x0 =>
    unfold Piece.Makes at h
    match ins, h with
    | [x], h => exact ⟨x, rfl, h⟩
  | _ => cases hi

theorem Config.Drawn.new (h : cfg.Drawn d ws) (hw : wd.Begins d) : wd.New cfg (fun s => (wd.sig s).ty) := by
  refine ⟨⟨fun _ => rfl, hw.cells, fun l hl => ?_⟩, hw.done, fun l hl hd => ?_⟩
  · obtain ⟨p, hp, hid, _, hm, _⟩ := h.leaf hl
    have hi := hw.initial p hp
    have ho := (hw.types p hp).2
    have hem := hw.empty p hp
    rw [hid]
    obtain ⟨id, part, ins, out⟩ := p
    unfold Piece.Makes at hm
    unfold Leaf.Members
    simp only at hm ho hi hem
    split at hm
    case h_11 =>
      rw [hm]
      simp only
      rw [hi _ rfl, ho]
      exact ⟨rfl, fun _ => rfl⟩
    case h_12 =>
      rw [hm]
      simp only
      rw [(hem rfl).1, (hem rfl).2]
      exact ⟨fun v hv => (by cases hv), rfl⟩
    all_goals first | exact hm.elim | (rw [hm]; trivial)
  · obtain ⟨p, hp, hid, _, hm, _⟩ := h.leaf hl
    have hem := hw.empty p hp
    rw [hid]
    obtain ⟨id, part, ins, out⟩ := p
    unfold Piece.Makes at hm
    unfold Leaf.isDelay at hd
    simp only at hm
    split at hm <;> first | exact hm.elim | exact (hem rfl).1 | (rw [hm] at hd; cases hd)

/-! ### The equations -/

/-- The number in the signal. -/
def scal : Option (Val ℝ) → ℝ
  | some (.scalar z) => z
  | _ => 0

theorem folded_sum (val : SigId → Option (Val ℝ)) {xs : List SigId} (hv : ∀ x ∈ xs, ∃ z, val x = some (.scalar z)) (v : ℝ) (r : Val ℝ) :
    Folded val (· +. ·) (.scalar v) xs r ↔ r = .scalar (v + (xs.map (fun s => scal (val s))).sum) := by
  induction xs generalizing v with
  | nil =>
    rw [List.map_nil, List.sum_nil, add_zero]
    constructor
    · intro h; cases h; rfl
    · rintro rfl; exact .nil _
  | cons x xs ih =>
    obtain ⟨z, hz⟩ := hv x (.head _)
    have ih := fun v => ih (fun y hy => hv y (.tail _ hy)) v
    rw [List.map_cons, List.sum_cons, ← add_assoc]
    have e : scal (val x) = z := by rw [hz]; rfl
    rw [e]
    constructor
    · intro h
      cases h with
      | cons h1 h2 h3 =>
        rw [hz] at h1
        cases h1
        cases h2
        exact (ih _).1 h3
    · rintro rfl
      exact .cons hz (.scalar v z) ((ih _).2 rfl)

theorem folded_prod (val : SigId → Option (Val ℝ)) {xs : List SigId} (hv : ∀ x ∈ xs, ∃ z, val x = some (.scalar z)) (v : ℝ) (r : Val ℝ) :
    Folded val (· *. ·) (.scalar v) xs r ↔ r = .scalar (v * (xs.map (fun s => scal (val s))).prod) := by
  induction xs generalizing v with
  | nil =>
    rw [List.map_nil, List.prod_nil, mul_one]
    constructor
    · intro h; cases h; rfl
    · rintro rfl; exact .nil _
  | cons x xs ih =>
    obtain ⟨z, hz⟩ := hv x (.head _)
    have ih := fun v => ih (fun y hy => hv y (.tail _ hy)) v
    rw [List.map_cons, List.prod_cons, ← mul_assoc]
    have e : scal (val x) = z := by rw [hz]; rfl
    rw [e]
    constructor
    · intro h
      cases h with
      | cons h1 h2 h3 =>
        rw [hz] at h1
        cases h1
        cases h2
        exact (ih _).1 h3
    · rintro rfl
      exact .cons hz (.scalar v z) ((ih _).2 rfl)

/-- Values that satisfy the equation of the drawing satisfy that of the block. -/
theorem Piece.Makes.solved {p : Piece} {l : Leaf ℝ} (hm : p.Makes l.kind) (hnd : p.part.isDelay = false) {t : ℝ} {Z : SigId → ℝ} (h : p.Holds t Z) (mem : Mem ℝ) :
    l.Solved t mem (fun s => some (.scalar (Z s))) := by
  obtain ⟨id, part, ins, out⟩ := p
  have hv : ∀ x ∈ ins, ∃ z, (fun s => some (Val.scalar (Z s))) x = some (.scalar z) := fun x _ => ⟨_, rfl⟩
  unfold Piece.Makes at hm
  unfold Piece.Holds at h
  unfold Leaf.Solved
  simp only at hm h hnd
  split at hm
  case h_12 => cases hnd
  case h_1 => rw [hm]; simp only at h ⊢; rw [h]
  case h_2 => rw [hm]; simp only at h ⊢; exact ⟨_, rfl, by rw [h]⟩
  case h_3 => rw [hm]; simp only at h ⊢; exact ⟨_, _, rfl, .scalar _ _, by rw [h]; rfl⟩
  case h_4 => rw [hm]; simp only at h ⊢; exact ⟨_, (folded_sum _ hv _ _).2 rfl, by rw [h]; rfl⟩
  case h_5 => rw [hm]; simp only at h ⊢; exact ⟨_, (folded_prod _ hv _ _).2 rfl, by rw [h]; rfl⟩
  case h_6 => rw [hm]; simp only at h ⊢; exact ⟨_, _, _, rfl, rfl, .scalar _ _, by rw [h]; rfl⟩
  case h_7 => rw [hm]; simp only at h ⊢; exact ⟨_, _, _, rfl, rfl, .scalar _ _, by rw [h]; rfl⟩
  case h_8 => rw [hm]; simp only at h ⊢; exact ⟨_, rfl, by rw [h]⟩
  case h_9 => rw [hm]; simp only at h ⊢; exact ⟨_, _, rfl, rfl, by rw [h]⟩
  case h_10 =>
    rw [hm]; simp only at h ⊢
    refine ⟨_, .cons rfl .nil, rfl, fun i s v h1 h2 => ?_⟩
    match i, h1, h2 with
    | 0, h1, h2 => cases h1; cases h2; simp only; rw [h]
    | i + 1, h1, _ => cases h1
  case h_11 => rw [hm]; trivial
  case h_13 => exact hm.elim

/-- Values that satisfy the equation of the block satisfy that of the drawing. -/
theorem Piece.Makes.holds {p : Piece} {l : Leaf ℝ} (hm : p.Makes l.kind) (hi : p.part.isIntegrator = false) {t : ℝ} {mem : Mem ℝ}
    {val : SigId → Option (Val ℝ)} (h : l.Solved t mem val) (hv : ∀ x ∈ p.ins, ∃ z, val x = some (.scalar z))
    (hxs : p.part.isDelay = true → ∀ v ∈ mem.xs, ∃ z, v = .scalar z) :
    (∃ z, val p.out = some (.scalar z)) ∧ p.Holds t (fun s => scal (val s)) := by
  obtain ⟨id, part, ins, out⟩ := p
  unfold Piece.Makes at hm
  unfold Piece.Holds
  unfold Leaf.Solved at h
  simp only at hm hi hv hxs ⊢
  have both : ∀ {f : ℝ → ℝ → ℝ} {x y : ℝ} {r : Val ℝ}, Both f (.scalar x) (.scalar y) r → r = .scalar (f x y) := by
    intro f x y r h; cases h; rfl
  split at hm
  case h_1 => rw [hm] at h; simp only at h; exact ⟨⟨_, h⟩, by rw [h]; rfl⟩
  case h_2 =>
    rw [hm] at h; simp only at h
    obtain ⟨v, e1, e2⟩ := h
    cases e1
    exact ⟨⟨_, e2⟩, by rw [e2]; rfl⟩
  case h_3 x _ =>
    rw [hm] at h; simp only at h
    obtain ⟨z, hz⟩ := hv _ (.head _)
    obtain ⟨a, r, e1, e2, e3⟩ := h
    rw [hz] at e1; cases e1
    cases e2
    exact ⟨⟨_, e3⟩, by simp only; rw [e3, hz]; rfl⟩
  case h_4 =>
    rw [hm] at h; simp only at h
    obtain ⟨r, e1, e2⟩ := h
    rw [folded_sum _ hv] at e1
    subst e1
    exact ⟨⟨_, e2⟩, by rw [e2]; rfl⟩
  case h_5 =>
    rw [hm] at h; simp only at h
    obtain ⟨r, e1, e2⟩ := h
    rw [folded_prod _ hv] at e1
    subst e1
    exact ⟨⟨_, e2⟩, by rw [e2]; rfl⟩
  case h_6 =>
    rw [hm] at h; simp only at h
    obtain ⟨z, hz⟩ := hv _ (.head _)
    obtain ⟨u, hu⟩ := hv _ (.tail _ (.head _))
    obtain ⟨a, b, r, e1, e2, e3, e4⟩ := h
    rw [hz] at e1; cases e1
    rw [hu] at e2; cases e2
    cases both e3
    exact ⟨⟨_, e4⟩, by simp only; rw [e4, hz, hu]; rfl⟩
  case h_7 =>
    rw [hm] at h; simp only at h
    obtain ⟨z, hz⟩ := hv _ (.head _)
    obtain ⟨u, hu⟩ := hv _ (.tail _ (.head _))
    obtain ⟨a, b, r, e1, e2, e3, e4⟩ := h
    rw [hz] at e1; cases e1
    rw [hu] at e2; cases e2
    cases both e3
    exact ⟨⟨_, e4⟩, by simp only; rw [e4, hz, hu]; rfl⟩
  case h_8 =>
    rw [hm] at h; simp only at h
    obtain ⟨z, hz⟩ := hv _ (.head _)
    obtain ⟨v, e1, e2⟩ := h
    rw [hz] at e1; cases e1
    exact ⟨⟨_, e2⟩, by simp only; rw [e2, hz]⟩
  case h_9 =>
    rw [hm] at h; simp only at h
    obtain ⟨z, hz⟩ := hv _ (.head _)
    obtain ⟨v, r, e1, e2, e3⟩ := h
    rw [hz] at e1; cases e1
    cases e2
    exact ⟨⟨_, e3⟩, by simp only; rw [e3, hz]; rfl⟩
  case h_10 =>
    rw [hm] at h; simp only at h
    obtain ⟨z, hz⟩ := hv _ (.head _)
    obtain ⟨vs, e1, _, e3⟩ := h
    cases e1 with
    | cons h1 h2 =>
      cases h2
      rw [hz] at h1; cases h1
      have e3 := e3 0 out _ rfl rfl
      exact ⟨⟨_, e3⟩, by simp only; rw [e3, hz]; rfl⟩
  case h_11 => cases hi
  case h_12 x e i =>
    rw [hm] at h; simp only at h
    obtain ⟨z, hz⟩ := hv i (.tail _ (.tail _ (.head _)))
    refine ⟨?_, trivial⟩
    split at h
    · obtain ⟨v, e1, e2⟩ := h
      rw [hz] at e1; cases e1
      exact ⟨_, e2⟩
    · obtain ⟨dv, r, e1, e2, init, e3, e4⟩ := h
      have hxs := hxs rfl
      cases e3 with
      | before k1 k2 =>
        have := e4 ⟨_, _, k1, k2⟩
        rw [hz] at this
        cases this
        exact ⟨_, e2⟩
      | after k1 k2 k3 k4 k5 =>
        obtain ⟨z, rfl⟩ := hxs _ (List.mem_of_getLast? k5)
        exact ⟨_, e2⟩
      | between k1 k2 k3 k4 k5 k6 k7 k8 k9 k10 k11 =>
        obtain ⟨z, rfl⟩ := hxs _ (List.mem_of_getElem? k9)
        obtain ⟨z', rfl⟩ := hxs _ (List.mem_of_getElem? k10)
        cases both k11
        exact ⟨_, e2⟩
  case h_13 => exact hm.elim

theorem packed_scalars {val : SigId → Option (Val ℝ)} {size : SigId → Nat} {ss : List SigId} {x : List ℝ} :
    Packed val size ss [] x ↔ List.Forall₂ (fun s v => val s = some (.scalar v)) ss x := by
  constructor
  · rintro ⟨a, b, h1, h2, rfl⟩
    cases h2
    rw [List.flatten_nil, List.append_nil]
    exact h1
  · intro h
    exact ⟨x, [], h, .nil, by rw [List.flatten_nil, List.append_nil]⟩

/-- The state signals. -/
structure Vars.Of (V : Vars) (d : Sketch) : Prop where
  arrays : V.arrays = []
  scalars : ∀ s, s ∈ V.scalars ↔ ∃ p ∈ d.pieces, p.part.isIntegrator = true ∧ s = p.out

/-- A solution of the diagram gives a solution of the drawing. -/
theorem Config.Drawn.meets (h : cfg.Drawn d ws) (hc : d.Closed rank) {V : Vars} (hV : V.Of d) {mem : BlkId → Mem ℝ} {t : ℝ} {x : List ℝ}
    {val : SigId → Option (Val ℝ)} (hs : Solution cfg V mem t x val) (hxs : ∀ p ∈ d.pieces, p.part.isDelay = true → ∀ v ∈ (mem p.id).xs, ∃ z, v = .scalar z) :
    (∀ s ∈ d.signals, ∃ z, val s = some (.scalar z)) ∧ d.Meets t (fun s => scal (val s)) := by
  have hin : ∀ u ∈ d.inputs, val u.1 = some (.scalar (u.2 t)) := fun u hu => hs.input (u.1, .scalar (u.2 t)) (by
    rw [h.draws.vals]; exact List.mem_map_of_mem (f := fun u : SigId × (ℝ → ℝ) => (u.1, Val.scalar (u.2 t))) hu)
  have hst : ∀ p ∈ d.pieces, p.part.isIntegrator = true → ∃ z, val p.out = some (.scalar z) := fun p hp hi => by
    have := hs.state
    rw [hV.arrays, packed_scalars] at this
    obtain ⟨z, _, e⟩ := forall₂_left this ((hV.scalars _).2 ⟨p, hp, hi, rfl⟩)
    exact ⟨z, e⟩
  have key : ∀ n, ∀ p ∈ d.pieces, rank p.id = n → (∃ z, val p.out = some (.scalar z)) ∧ p.Holds t (fun s => scal (val s)) := by
    intro n
    induction n using Nat.strong_induction_on with
    | _ n ih =>
      intro p hp hn
      obtain ⟨l, hl, hlid, hf, hm⟩ := h.leaf_of hp
      cases hi : p.part.isIntegrator with
      | true =>
        refine ⟨hst p hp hi, ?_⟩
        obtain ⟨x, e1, _⟩ := hm.slope hi
        unfold Piece.Holds
        obtain ⟨id, part, ins, out⟩ := p
        cases part <;> first | (simp only at e1; subst e1; trivial) | exact absurd hi (by decide)
      | false =>
        have hins : ∀ x ∈ p.ins, ∃ z, val x = some (.scalar z) := by
          intro x hx
          rcases List.mem_append.1 (hc.provided p hp x hx) with hx' | hx'
          · obtain ⟨q, hq, rfl⟩ := List.mem_map.1 hx'
            rcases hc.loops p hp hi q hq hx with k | k
            · exact hst q hq k
            · exact (ih _ (hn ▸ k) q hq rfl).1
          · obtain ⟨u, hu, rfl⟩ := List.mem_map.1 hx'
            exact ⟨_, hin u hu⟩
        refine hm.holds hi (hs.block l hl (fun s f hlf hr => ?_)) hins (fun hd v hv => hxs p hp hd v (by rw [← hlid]; exact hv))
        obtain ⟨p', hp', hid', _, hm', hreq⟩ := h.leaf hl
        have : p' = p := Piece.eq_of_out hc hp' hp (by
          have := List.inj_on_of_nodup_map hc.ids hp' hp (by rw [← hid']; assumption)
          rw [this])
        subst this
        rcases hreq s ⟨f, hlf, hr⟩ with ⟨_, k⟩ | k
        · obtain ⟨z, hz⟩ := hins s k
          exact ⟨_, hz⟩
        · rw [hm'.state, hi] at k
          cases k
  refine ⟨fun s hs => ?_, ⟨fun p hp => (key _ p hp rfl).2, fun u hu => by rw [hin u hu]; rfl⟩⟩
  rcases List.mem_append.1 hs with hs | hs
  · obtain ⟨p, hp, rfl⟩ := List.mem_map.1 hs
    exact (key _ p hp rfl).1
  · obtain ⟨u, hu, rfl⟩ := List.mem_map.1 hs
    exact ⟨_, hin u hu⟩

/-- A solution of the drawing gives a solution of the diagram. -/
theorem Config.Drawn.solution (h : cfg.Drawn d ws) (hnd : ∀ p ∈ d.pieces, p.part.isDelay = false) {V : Vars} (hV : V.Of d) (mem : BlkId → Mem ℝ) {t : ℝ}
    {Z : SigId → ℝ} (hZ : d.Meets t Z) : Solution cfg V mem t (V.scalars.map Z) (fun s => some (.scalar (Z s))) where
  input := fun q hq => by
    rw [h.draws.vals] at hq
    obtain ⟨u, hu, rfl⟩ := List.mem_map.1 hq
    simp only
    rw [hZ.inputs u hu]
  state := by
    rw [hV.arrays, packed_scalars, List.forall₂_map_right_iff, List.forall₂_same]
    exact fun s _ => rfl
  block := fun l hl _ => by
    obtain ⟨p, hp, _, _, hm, _⟩ := h.leaf hl
    exact hm.solved (hnd p hp) (hZ.blocks p hp) _

/-- The derivative links. -/
theorem Config.Drawn.derivs (h : cfg.Drawn d ws) (hc : d.Closed rank) (hw : wd.Begins d) {p : Piece} (hp : p ∈ d.pieces) (hi : p.part.isIntegrator = true) :
    ∃ x, p.ins = [x] ∧ cfg.deriv p.out = some x := by
  obtain ⟨l, hl, _, _, hm⟩ := h.leaf_of hp
  obtain ⟨x, e1, e2⟩ := hm.slope hi
  refine ⟨x, e1, (C58_states cfg ws h.assembled (C59.sealed_proper (h.closed hc hw))).2.2 l hl _ _ (.inl e2) (fun l' hl' e => ?_)⟩
  obtain ⟨p', hp', hid', _, hm', _⟩ := h.leaf hl'
  obtain ⟨q, hq, hidq, _, hmq, _⟩ := h.leaf hl
  have out : ∀ {q : Piece} {l : Leaf ℝ} {s : SigId}, q.Makes l.kind → l.state = some s → q.out = s := by
    intro q l s hm e
    rw [hm.state] at e
    split at e <;> cases e
    rfl
  have k1 := out hm' e
  have k2 := out hmq (C58.slope_state (.inl e2))
  have : p' = q := Piece.eq_of_out hc hp' hq (k1.trans k2.symm)
  refine C59.eq_of_leafId (h.closed hc hw).proper.leafNodup hl' hl ?_
  rw [hid', hidq, this]

/-- The members of the integrators. -/
theorem Config.Drawn.stands (h : cfg.Drawn d ws) (hc : d.Closed rank) (hw : wd.Begins d) {V : Vars} (hV : V.Of d) {X : SigId → ℝ}
    (hX : ∀ p ∈ d.pieces, ∀ x0, p.part = .integrator x0 → X p.out = x0) : cfg.Stands V wd.mem (V.scalars.map X) := by
  unfold Config.Stands
  rw [hV.arrays, packed_scalars, List.forall₂_map_right_iff, List.forall₂_same]
  intro s hs
  obtain ⟨p, hp, hi, rfl⟩ := (hV.scalars s).1 hs
  obtain ⟨l0, hl0, _, _, hm0⟩ := h.leaf_of hp
  cases hfi : cfg.model.leaves.find? (fun l => decide (l.state = some p.out)) with
  | none =>
    have := List.find?_eq_none.1 hfi l0 hl0
    rw [hm0.state, hi] at this
    simp at this
  | some l =>
    have e1 := List.find?_some hfi
    obtain ⟨q, hq, hid, _, hm, _⟩ := h.leaf (List.mem_of_find?_eq_some hfi)
    rw [decide_eq_true_eq, hm.state] at e1
    have : q = p := by
      split at e1
      · exact Piece.eq_of_out hc hq hp (Option.some.inj e1)
      · cases e1
    subst this
    rw [Option.map_some, hid]
    cases hpart : q.part with
    | integrator x0 => rw [hw.initial q hq x0 hpart, hX q hq x0 hpart]
    | _ => rw [hpart] at hi; cases hi

end Pooya
